import Verif.Model.BfsCtx
import Verif.Model.Collection
import Verif.Model.Inorder
import Verif.Model.Leaves
import Verif.Model.MutRef
import Verif.Model.Postorder
import Verif.Model.Preorder

/-! # Moving references out of a mutably borrowed traversal

The mutably borrowed iterators implement `StreamingIteratorMut`: `get_mut` hands out `&mut [&'a mut Value]` or
`&mut TreeContext` (`dfs_preorder_iterators/mod.rs` 154-164, 295-306; `dfs_postorder_iterators/mod.rs` 35-46, 82-92;
`dfs_inorder_iterators/mod.rs` 89-111; `bfs_iterators/mod.rs` 100-110, 332-342).  What is behind it are references that live
as long as the tree, so safe code can move them out (`core::mem::replace`, `Option::take`, `slice::swap`), keep them
while the traversal goes on, and put others in their place.

Here a value stands for the reference to it, and holding a node is holding the references to all values below it.  The
client has a pocket of references; whenever the iterator shows an item, it may take the item and leave another one made
from references out of the item and the pocket. -/

universe u v w x

namespace TreeIter

/-- An iterator with `next` and `get_mut` as its client sees it: `put` is what the state becomes when the client has left
another item in place of the one it was shown, `refs` are the references an item gives access to. -/
structure Lending (S : Type u) (O : Type v) (V : Type w) where
  next : S → Except Panic (Option O × S)
  get : S → Option O
  put : S → O → S
  refs : O → List V

/-- What a program can reach from the iterator `s₀` and the references `p₀` in its pocket: it may call `next`, and it may
exchange the references in the item that `get_mut` hands out with those in its pocket, dropping some of them. -/
inductive Lending.Reach {S : Type u} {O : Type v} {V : Type w} (it : Lending S O V) (s₀ : S) (p₀ : List V) :
    S → List V → Prop
  | start : it.Reach s₀ p₀ s₀ p₀
  | next {s s' : S} {p : List V} {o : Option O} : it.Reach s₀ p₀ s p → it.next s = .ok (o, s') → it.Reach s₀ p₀ s' p
  | exchange {s : S} {p p' dropped : List V} {o o' : O} : it.Reach s₀ p₀ s p → it.get s = some o →
    (p' ++ it.refs o' ++ dropped).Perm (p ++ it.refs o) → it.Reach s₀ p₀ (it.put s o') p'

/-- No reference is held twice: in everything a program can reach, the references in its pocket and in the item it is
shown are different. -/
def Lending.Exclusive {S : Type u} {O : Type v} {V : Type w} (it : Lending S O V) (s₀ : S) (p₀ : List V) : Prop :=
  ∀ s p, it.Reach s₀ p₀ s p → ∀ o, it.get s = some o → (p ++ it.refs o).Nodup

variable {N : Type u} {V : Type v}

/-- The references a context of a general node gives access to. -/
def Ctx.refs [TreeNode N V] (c : Ctx V (List N)) : List V :=
  c.ancestors ++ (c.children.getD []).flatMap fun n => (treeOf n).preorder

/-- The references a context of a binary node gives access to. -/
def Ctx.binRefs [BinNode N V] (c : Ctx V (Option N × Option N)) : List V :=
  c.ancestors ++ ((c.children.getD (none, none)).1.toList ++ (c.children.getD (none, none)).2.toList).flatMap fun n =>
    (binTreeOf n).toTree.preorder

/-! ## `attach_ancestors`

The client replaces the slice by a list of any length, which is more than it can do. -/

/-- `dfs_preorder_iterators/mod.rs` 105-164. -/
def Preorder.lendAncestors [SplitNode N V] : Lending (Preorder.AncState N V) (List V) V where
  next := okNext Preorder.ancNext
  get := Preorder.ancGet
  put s as := { s with items := as.reverse }
  refs := id

/-- `dfs_postorder_iterators/mod.rs` 48-92. -/
def Postorder.lendAncestors [TreeNode N V] : Lending (Postorder.AncState N V) (List V) V where
  next := okNext Postorder.ancNext
  get := Postorder.ancGet
  put s as := { s with items := as.reverse }
  refs := id

/-- `dfs_inorder_iterators/mod.rs` 34-99. -/
def Inorder.lendAncestors [BinNode N V] : Lending (Inorder.AncState N V) (List V) V where
  next := Inorder.ancNext
  get := Inorder.ancGet
  put s as := { s with items := as.reverse }
  refs := id

/-- `bfs_iterators/mod.rs` 270-342. -/
def Bfs.lendAncestors [SplitNode N V] : Lending (Bfs.AncState N V) (List V) V where
  next := Bfs.ancNext
  get := Bfs.ancGet
  put s as := { s with cs := { s.cs with items := as.reverse } }
  refs := id

/-- `leaves_iterators/ancestors_depth_first/mod.rs` 5-76: `attach_ancestors().leaves()`, depth first. -/
def Leaves.lendAncestors [TreeNode N V] : Lending (Leaves.AncState N V) (List V) V where
  next := okNext Leaves.ancNext
  get := Leaves.ancGet
  put s as := { s with items := as.reverse }
  refs := id

/-- `leaves_iterators/ancestors_breadth_first/mod.rs` 81-158: `attach_ancestors().leaves()`, breadth first. -/
def Bfs.lendLeaves [TreeNode N V] : Lending (Bfs.AncState N V) (List V) V where
  next := Bfs.lvNext
  get := Bfs.ancGet
  put s as := { s with cs := { s.cs with items := as.reverse } }
  refs := id

/-! ## `attach_context`

The client replaces the whole context: it may swap the contexts of two iterators, which changes the path too. -/

/-- `dfs_preorder_iterators/mod.rs` 166-225, 295-306. -/
def Preorder.lendContext [TreeNode N V] : Lending (Preorder.CtxState N V) (Ctx V (List N)) V where
  next := Preorder.ctxNext
  get := Preorder.ctxGet
  put s c := { s with path := c.path.reverse, ancestors := c.ancestors.reverse, children := c.children }
  refs := Ctx.refs

/-- `dfs_preorder_iterators/mod.rs` 227-306. -/
def Preorder.lendBinContext [BinNode N V] : Lending (Preorder.BinCtxState N V) (Ctx V (Option N × Option N)) V where
  next := Preorder.binCtxNext
  get := Preorder.binCtxGet
  put s c := { s with path := c.path.reverse, ancestors := c.ancestors.reverse, children := c.children }
  refs := Ctx.binRefs

/-- `bfs_iterators/mod.rs` 28-110. -/
def Bfs.lendContext [TreeNode N V] : Lending (Bfs.CtxState V (List N) N) (Ctx V (List N)) V where
  next := Bfs.ctxNext
  get := Bfs.ctxGet
  put s c :=
    { s with cc := { s.cc with path := c.path.reverse, ancestors := c.ancestors.reverse }, children := c.children }
  refs := Ctx.refs

/-- `bfs_iterators/mod.rs` 194-268. -/
def Bfs.lendBinContext [BinNode N V] :
    Lending (Bfs.CtxState V (Option N × Option N) (Option N)) (Ctx V (Option N × Option N)) V where
  next := Bfs.binCtxNext
  get := Bfs.ctxGet
  put s c :=
    { s with cc := { s.cc with path := c.path.reverse, ancestors := c.ancestors.reverse }, children := c.children }
  refs := Ctx.binRefs

/-- `dfs_postorder_iterators/mut_borrow.rs` 107-213. -/
def Postorder.lendContext [TreeNode N V] : Lending (Postorder.CtxState N V) (Ctx V (List N)) V where
  next := Postorder.ctxNext
  get := Postorder.ctxGet
  put s c := { s with path := c.path.reverse, ancestors := c.ancestors.reverse, children := c.children }
  refs := Ctx.refs

/-- `dfs_postorder_iterators/mut_borrow.rs` 406-528. -/
def Postorder.lendBinContext [BinNode N V] : Lending (Postorder.BinCtxState N V) (Ctx V (Option N × Option N)) V where
  next := Postorder.mutBinCtxNext
  get := Postorder.binCtxGet
  put s c := { s with path := c.path.reverse, ancestors := c.ancestors.reverse, children := c.children }
  refs := Ctx.binRefs

/-- `dfs_inorder_iterators/mut_borrow.rs` 191-316. -/
def Inorder.lendContext [BinNode N V] : Lending (Inorder.CtxState N V) (Ctx V (Option N × Option N)) V where
  next := Inorder.ctxNext
  get := Inorder.ctxGet
  put s c := { s with path := c.path.reverse, ancestors := c.ancestors.reverse, children := c.children }
  refs := Ctx.binRefs

/-- `collection_iterators.rs` 546-557, 851-862 (the mutably borrowed collections): `get_mut` of a collection is that of the
iterator over the current tree, `it`.  `mk` and `advance` are the constructor and `advance` of that iterator. -/
def Coll.lend {S : Type x} {O : Type w} (mk : N → List Nat → S) (advance : S → Except Panic S) (it : Lending S O V) :
    Lending (Coll.CtxState N S) O V where
  next := Coll.ctxNext mk advance it.get
  get := Coll.ctxGet it.get
  put s o := { s with inner := s.inner.map fun i => it.put i o }
  refs := it.refs

/-- A client that looks at `children` but neither takes a reference out of it nor keeps one. -/
def Lending.ancestorsOnly {S : Type u} {C : Type w} (it : Lending S (Ctx V C) V) : Lending S (Ctx V C) V where
  next := it.next
  get s := (it.get s).map fun c => { c with children := none }
  put s c := it.put s { c with children := (it.get s).bind (·.children) }
  refs c := c.ancestors

end TreeIter
