import Verif.Node

/-!
# Iterating by mutable reference over the crate's own trees

`dfs_preorder_iter_mut`, `dfs_postorder_iter_mut`, `dfs_inorder_iter_mut` and `bfs_iter_mut` run the
machines of `Model/Preorder`, `Model/Postorder`, `Model/Inorder` and `Model/Bfs` on nodes
`&'a mut Tree<T>` whose values are references `&'a mut T`.  Here the tree is a piece of memory, a
reference is the address of a cell (the child indexes from the root), and a loop body reads and writes
the cell behind the reference it was handed.

Simplification: the body touches only the cell behind the reference of its own round.  (The borrow checker also
allows it to keep references and to use them later; C43's `refs` theorems say which cells they are.)
-/

universe u v w x y

namespace TreeIter

/-- `prelude.rs` 3491-3506: `&'a mut Tree<T>`.  `addr` is where the node sits in the borrowed tree and `tree` is what
is reachable from there. -/
structure MutRef (V : Type u) where
  addr : List Nat
  tree : Tree V

/-- `prelude.rs` 3500-3505: `(&mut self.value, &mut self.children)`; iterating over `&mut Vec<Self>` yields a
reference to each child in order. -/
instance {V : Type u} : TreeNode (MutRef V) (List Nat) where
  split r := (r.addr, r.tree.children.mapIdx fun i c => ⟨r.addr ++ [i], c⟩)
  size r := r.tree.size
  size_lt := by
    rintro ⟨p, a, cs⟩ c h
    simp only [Tree.children, List.mem_mapIdx] at h
    obtain ⟨i, hi, rfl⟩ := h
    exact Tree.size_lt_of_mem (List.getElem_mem hi)

/-- `prelude.rs` 3535-3557: `&'a mut BinaryTree<T>`. -/
structure MutRef2 (V : Type u) where
  addr : List Nat
  tree : BinTree V

/-- `prelude.rs` 3541-3556: `(&mut self.value, [left, right])`. -/
instance {V : Type u} : BinNode (MutRef2 V) (List Nat) where
  split2
    | ⟨p, .node _ l r⟩ => (p, l.map (⟨p ++ [0], ·⟩), r.map (⟨p ++ [1], ·⟩))
  size2 r := r.tree.size
  size2_left := by
    rintro ⟨p, a, l, r⟩ c h
    cases l with
    | none => simp at h
    | some l =>
      obtain rfl : _ = c := by simpa using h
      simp only [BinTree.size, BinTree.sizeO]
      omega
  size2_right := by
    rintro ⟨p, a, l, r⟩ c h
    cases r with
    | none => simp at h
    | some l =>
      obtain rfl : _ = c := by simpa using h
      simp only [BinTree.size, BinTree.sizeO]
      omega

/-- `for r in tree.…_iter_mut() { body }`, stopped after at most `k` rounds (`break`).  `read` and `write` access
the cell behind a reference, `f` is the body: it sees its own state `w` and the value of the cell and says what
to write.  A reference without a cell would be dangling; the loop then stops. -/
def forEachMut {S : Type u} {A : Type v} {M : Type w} {V : Type x} {σ : Type y} (next : S → Option A × S)
    (read : M → A → Option V) (write : M → A → V → M) (f : σ → V → σ × V) :
    Nat → S → M → σ → M × σ
  | 0, _, m, w => (m, w)
  | k + 1, s, m, w =>
    match next s with
    | (none, _) => (m, w)
    | (some a, s') =>
      match read m a with
      | none => (m, w)
      | some x => forEachMut next read write f k s' (write m a (f w x).2) (f w x).1

/-- `while let Some(slice) = it.next_mut() { body }` over `…_iter_mut().attach_ancestors()`, stopped after at most `k`
rounds.  The body sees the values behind all references of the slice and says what to write behind them. -/
def forEachSlice {S : Type u} {A : Type v} {M : Type w} {V : Type x} {σ : Type y}
    (next : S → Except Panic (Option (List A) × S))
    (read : M → A → Option V) (write : M → A → V → M) (f : σ → List V → σ × List V) :
    Nat → S → M → σ → Except Panic (M × σ)
  | 0, _, m, w => .ok (m, w)
  | k + 1, s, m, w =>
    match next s with
    | .error e => .error e
    | .ok (none, _) => .ok (m, w)
    | .ok (some as, s') =>
      match as.mapM (read m) with
      | none => .ok (m, w)
      | some xs =>
        forEachSlice next read write f k s'
          ((as.zip (f w xs).2).foldl (fun m c => write m c.1 c.2) m) (f w xs).1

/-- An iterator that never panics, seen as one that may. -/
def okNext {S : Type u} {O : Type v} (next : S → Option O × S) (s : S) : Except Panic (Option O × S) :=
  .ok (next s)

end TreeIter
