import Verif.Model.MutRef

/-!
# Collections of mutably borrowed trees

The functions of `MutBorrowedIntoIteratorOfTrees` (`prelude.rs` 4137-4402) and `MutBorrowedIntoIteratorOfBinaryTrees`
(`prelude.rs` 4404-4690) take an iterator of nodes `&'a mut Tree<T>` and run the machines of `Model/Collection` and
`Model/CollectionPipeline` on it.  Here the nodes are what iterating over a `&'a mut Vec<Tree<T>>` yields.  As in
`Model/MutRef` a reference is the address of a cell, here the number of the tree in the `Vec` and the child indexes from
its root.
-/

universe u

namespace TreeIter

/-- What iterating over `&'a mut Vec<Tree<T>>` yields: a reference to each tree in order. -/
def borrowEach {V : Type u} (ts : List (Tree V)) : List (MutRef V) := ts.mapIdx fun i t => ⟨[i], t⟩

/-- What iterating over `&'a mut Vec<BinaryTree<T>>` yields. -/
def borrowEach2 {V : Type u} (ts : List (BinTree V)) : List (MutRef2 V) := ts.mapIdx fun i t => ⟨[i], t⟩

end TreeIter
