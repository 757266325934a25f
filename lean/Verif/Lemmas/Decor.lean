import Verif.Model.Preorder

/-!
# Helper decorations

`Tree.withPos` of the tree of nodes, mapped to contexts, in the form the machine invariants need: the
ancestors are given as values instead of nodes.
-/

universe u v w

namespace TreeIter

variable {N : Type u} {V : Type v}

mutual
/-- Contexts of all nodes of a tree of nodes placed at `path` below `anc`. -/
def ctxT [TreeNode N V] (path : List Nat) (anc : List V) : Tree N → Tree (Ctx V (List N))
  | .node n cs => .node ⟨path, anc ++ [val n], some (kids n)⟩ (ctxTL path (anc ++ [val n]) 0 cs)
/-- Forest version of `ctxT`, starting at child index `i`. -/
def ctxTL [TreeNode N V] (path : List Nat) (anc : List V) (i : Nat) :
    List (Tree N) → List (Tree (Ctx V (List N)))
  | [] => []
  | t :: ts => ctxT (path ++ [i]) anc t :: ctxTL path anc (i + 1) ts
end

theorem map_ctx_withPosL [TreeNode N V] (cs : List (Tree N))
    (ih : ∀ c ∈ cs, ∀ (path : List Nat) (anc : List N),
      (c.withPos path anc).map Pos.ctx = ctxT path (anc.map val) c)
    (path : List Nat) (anc : List N) (i : Nat) :
    (Tree.withPosL path anc i cs).map (Tree.map Pos.ctx) = ctxTL path (anc.map val) i cs := by
  induction cs generalizing i with
  | nil => rfl
  | cons c cs ih' =>
    rw [Tree.withPosL, ctxTL, List.map_cons, ih c (by simp), ih' fun c hc => ih c (by simp [hc])]

theorem map_ctx_withPos [TreeNode N V] (t : Tree N) (path : List Nat) (anc : List N) :
    (t.withPos path anc).map Pos.ctx = ctxT path (anc.map val) t := by
  induction t using Tree.ind generalizing path anc with
  | h n cs ih =>
    rw [Tree.withPos, ctxT, Tree.map_node, map_ctx_withPosL cs ih]
    simp [Pos.ctx]

mutual
/-- Contexts of all nodes of a binary tree of nodes placed at `path` below `anc`. -/
def ctxB [BinNode N V] (path : List Nat) (anc : List V) : BinTree N → BinTree (Ctx V (Option N × Option N))
  | .node n l r => .node ⟨path, anc ++ [val2 n], some (split2 n).2⟩
      (ctxBO (path ++ [0]) (anc ++ [val2 n]) l) (ctxBO (path ++ [1]) (anc ++ [val2 n]) r)
/-- Slot version of `ctxB`. -/
def ctxBO [BinNode N V] (path : List Nat) (anc : List V) :
    Option (BinTree N) → Option (BinTree (Ctx V (Option N × Option N)))
  | none => none
  | some t => some (ctxB path anc t)
end

theorem map_ctx2_withPos [BinNode N V] (t : BinTree N) (path : List Nat) (anc : List N) :
    (t.withPos path anc).map Pos.ctx2 = ctxB path (anc.map val2) t := by
  induction t using BinTree.ind generalizing path anc with
  | h n l r ihl ihr =>
    rw [BinTree.withPos, ctxB, BinTree.map]
    congr 1
    · simp [Pos.ctx2]
    · cases l with
      | none => rfl
      | some l => simp [BinTree.withPosO, BinTree.mapO, ctxBO, ihl l rfl]
    · cases r with
      | none => rfl
      | some r => simp [BinTree.withPosO, BinTree.mapO, ctxBO, ihr r rfl]

/-- The decorated trees of a list of slots, starting at slot index `i`; absent slots are skipped. -/
def ctxSlots [BinNode N V] (path : List Nat) (anc : List V) :
    Nat → List (Option N) → List (BinTree (Ctx V (Option N × Option N)))
  | _, [] => []
  | i, none :: ss => ctxSlots path anc (i + 1) ss
  | i, some n :: ss => ctxB (path ++ [i]) anc (unfold2 n) :: ctxSlots path anc (i + 1) ss

mutual
/-- The list of items from the root down to each node, below `anc`. -/
def ancT (anc : List V) : Tree V → Tree (List V)
  | .node a cs => .node (anc ++ [a]) (ancTL (anc ++ [a]) cs)
/-- Forest version of `ancT`. -/
def ancTL (anc : List V) : List (Tree V) → List (Tree (List V))
  | [] => []
  | t :: ts => ancT anc t :: ancTL anc ts
end

theorem ancTL_eq (anc : List V) (ts : List (Tree V)) : ancTL anc ts = ts.map (ancT anc) := by
  induction ts with
  | nil => rfl
  | cons t ts ih => rw [ancTL, ih, List.map_cons]

theorem ancT_node (anc : List V) (a : V) (cs : List (Tree V)) :
    ancT anc (.node a cs) = .node (anc ++ [a]) (cs.map (ancT (anc ++ [a]))) := by
  rw [ancT, ancTL_eq]

theorem map_ancestors_withPos (t : Tree V) (path : List Nat) (anc : List V) :
    (t.withPos path anc).map Pos.ancestors = ancT anc t := by
  induction t using Tree.ind generalizing path anc with
  | h n cs ih =>
    rw [Tree.withPos, ancT_node, Tree.map_node]
    congr 1
    suffices h : ∀ (i : Nat) anc, (Tree.withPosL path anc i cs).map (Tree.map Pos.ancestors)
        = cs.map (ancT anc) from h 0 (anc ++ [n])
    intro i anc
    induction cs generalizing i with
    | nil => rfl
    | cons c cs ih' =>
      rw [Tree.withPosL, List.map_cons, List.map_cons, ih c (by simp),
        ih' fun c hc => ih c (by simp [hc])]

theorem treeOf_eq [TreeNode N V] (n : N) : treeOf n = .node (val n) ((kids n).map treeOf) := by
  rw [treeOf, unfold_eq, Tree.map_node, List.map_map]
  rfl

/-- The ancestor lists of the subtree at `n` below `anc`. -/
theorem ancT_treeOf [TreeNode N V] (anc : List V) (n : N) :
    ancT anc (treeOf n) = .node (anc ++ [val n]) ((kids n).map fun c => ancT (anc ++ [val n]) (treeOf c)) := by
  rw [treeOf_eq, ancT_node, List.map_map]
  rfl

/-! ## Arity bound -/

theorem arityOk_iff [TreeNode N V] (n : N) :
    ArityOk n ↔ (kids n).length ≤ 2 ^ 64 ∧ ∀ c ∈ kids n, ArityOk c := by
  rw [ArityOk, unfold_eq, Tree.preorder_node]
  simp only [List.mem_cons, List.mem_flatMap, List.mem_map]
  constructor
  · intro h
    exact ⟨h n (Or.inl rfl), fun c hc m hm => h m (Or.inr ⟨unfold c, ⟨c, hc, rfl⟩, hm⟩)⟩
  · rintro ⟨h1, h2⟩ m (rfl | ⟨t, ⟨c, hc, rfl⟩, hm⟩)
    · exact h1
    · exact h2 c hc m hm

end TreeIter
