import Verif.Lemmas.RoundsColl
import Verif.Props.RoundsCtx
import Verif.Props.Collection

/-!
# C80: the work of traversals of collections of trees
-/

universe u v

namespace TreeIter

variable {N : Type u} {V : Type v}

/-- C80, collections, preorder: the sum of what the trees take one by one. -/
theorem C80_collection_preorder [TreeNode N V] (ns : List N) (k : Nat) :
    totalOver (Coll.next Preorder.new Preorder.next) (Coll.work Preorder.new Preorder.next Preorder.polls) k (Coll.new ns) ≤
      (ns.map fun n => 2 * (treeOf n).size - 1).sum := by
  simp only [← rootDebt_new]
  exact Coll.total_le (φ := Preorder.stock) (fun s => Nat.le_of_eq (Preorder.stock_paid s)) ns k

/-- C80, collections, postorder. -/
theorem C80_collection_postorder [TreeNode N V] (ns : List N) (k : Nat) :
    totalOver (Coll.next Postorder.new Postorder.next) (Coll.work Postorder.new Postorder.next Postorder.polls) k
        (Coll.new ns) ≤
      (ns.map fun n => 2 * (treeOf n).size - 1).sum := by
  simp only [← rootDebt_new]
  exact Coll.total_le (φ := Postorder.stock) (fun s => Nat.le_of_eq (Postorder.stock_paid s)) ns k

/-- C80, collections, breadth first. -/
theorem C80_collection_bfs [TreeNode N V] (ns : List N) (k : Nat) :
    totalOver (Coll.next Bfs.new Bfs.next) (Coll.work Bfs.new Bfs.next Bfs.polls) k (Coll.new ns) ≤
      (ns.map fun n => 2 * (treeOf n).size - 1).sum := by
  simp only [← rootDebt_new]
  exact Coll.total_le (φ := Bfs.stock) (fun s => Nat.le_of_eq (Bfs.stock_paid s)) ns k

/-- C80, collections, in order. -/
theorem C80_collection_inorder [BinNode N V] (ns : List N) (k : Nat) :
    totalOver (Coll.next Inorder.new Inorder.next) (Coll.work Inorder.new Inorder.next Inorder.work) k (Coll.new ns) ≤
      (ns.map fun n => 2 * (binTreeOf n).size + 1).sum := by
  simp only [← Inorder.slotDebt_new]
  exact Coll.total_le (φ := Inorder.stock) (fun s => Nat.le_of_eq (Inorder.stock_paid s)) ns k

example : sampleTrees.map Tree.size = [6, 1, 3] ∧
    (List.range 12).map (fun k => totalOver (Coll.next Preorder.new Preorder.next)
      (Coll.work Preorder.new Preorder.next Preorder.polls) k (Coll.new sampleTrees)) =
        [0, 0, 1, 2, 4, 7, 8, 11, 12, 13, 15, 17] := by decide +kernel

/-! ## With contexts -/

/-- C80, collections, preorder with context. -/
theorem C80_collection_preorder_context [TreeNode N V] (ns : List N) (k : Nat) :
    ∃ s, Coll.attachContext (S := Preorder.State N) (Coll.new ns) = .ok s ∧
      totalOverE (Coll.ctxNext Preorder.CtxState.new Preorder.ctxAdvance Preorder.ctxGet)
          (Coll.ctxWork Preorder.CtxState.new Preorder.ctxNext Preorder.ctxPolls) k s ≤
        (ns.map fun n => 2 * (treeOf n).size - 1).sum := by
  refine ⟨_, rfl, ?_⟩
  simp only [← rootDebt_new]
  exact Coll.ctxTotal_le (φ := Preorder.ctxStock) (fun n p => by simp [Preorder.ctxStock, Preorder.CtxState.new, debt_nil])
    (fun s => (Preorder.ctxNext_paid s).1) (fun s => (Preorder.ctxNext_paid s).2) ns _ k

/-- C80, collections, postorder with context, borrowed and mutably borrowed nodes. -/
theorem C80_collection_postorder_context [TreeNode N V] (ns : List N) (k : Nat) :
    ∃ s, Coll.attachContext (S := Postorder.State N V) (Coll.new ns) = .ok s ∧
      totalOverE (Coll.ctxNext Postorder.CtxState.new Postorder.ctxAdvance Postorder.ctxGet)
          (Coll.ctxWork Postorder.CtxState.new Postorder.ctxNext Postorder.ctxPolls) k s ≤
        (ns.map fun n => 2 * (treeOf n).size - 1).sum := by
  refine ⟨_, rfl, ?_⟩
  simp only [← rootDebt_new]
  exact Coll.ctxTotal_le (φ := Postorder.ctxStock) (fun n p => by simp [Postorder.ctxStock, Postorder.CtxState.new, debt_nil])
    (fun s => (Postorder.ctxNext_paid s).1) (fun s => (Postorder.ctxNext_paid s).2) ns _ k

/-- C80, collections, postorder with context, owned nodes. -/
theorem C80_collection_postorder_context_owned [TreeNode N V] (ns : List N) (k : Nat) :
    ∃ s, Coll.attachContext (S := Postorder.State N V) (Coll.new ns) = .ok s ∧
      totalOverE (Coll.ctxNext Postorder.OwnCtxState.new Postorder.ownCtxAdvance Postorder.ownCtxGet)
          (Coll.ctxWork Postorder.OwnCtxState.new Postorder.ownCtxNext Postorder.ownCtxPolls) k s ≤
        (ns.map fun n => 2 * (treeOf n).size - 1).sum := by
  refine ⟨_, rfl, ?_⟩
  simp only [← rootDebt_new]
  exact Coll.ctxTotal_le (φ := Postorder.ownCtxStock)
    (fun n p => by simp [Postorder.ownCtxStock, Postorder.OwnCtxState.new, debt_nil])
    (fun s => (Postorder.ownCtxNext_paid s).1) (fun s => (Postorder.ownCtxNext_paid s).2) ns _ k

/-- C80, collections, breadth first with context. -/
theorem C80_collection_bfs_context [TreeNode N V] (ns : List N) (k : Nat) :
    ∃ s, Coll.attachContext (S := Bfs.State N) (Coll.new ns) = .ok s ∧
      totalOverE (Coll.ctxNext Bfs.CtxState.new Bfs.ctxAdvance Bfs.ctxGet)
          (Coll.ctxWork Bfs.CtxState.new Bfs.ctxNext Bfs.ctxPolls) k s ≤
        (ns.map fun n => 2 * (treeOf n).size - 1).sum := by
  refine ⟨_, rfl, ?_⟩
  simp only [← rootDebt_new]
  exact Coll.ctxTotal_le (φ := Bfs.ctxStock) (fun n p => by
      change debt [kids n] = _
      rw [debt_root, debt_nil, Nat.add_zero])
    (fun s => (Bfs.ctxNext_paid s).1) (fun s => (Bfs.ctxNext_paid s).2) ns _ k

/-- C80, collections, preorder with context, binary nodes. -/
theorem C80_collection_preorder_context_binary [BinNode N V] (ns : List N) (k : Nat) :
    ∃ s, Coll.attachContext (S := Preorder.State N) (Coll.new ns) = .ok s ∧
      totalOverE (Coll.ctxNext Preorder.BinCtxState.new Preorder.binCtxAdvance Preorder.binCtxGet)
          (Coll.ctxWork Preorder.BinCtxState.new Preorder.binCtxNext Preorder.binCtxPolls) k s ≤
        (ns.map fun n => 3 * (binTreeOf n).size).sum := by
  refine ⟨_, rfl, ?_⟩
  simp only [← rootSlots_new]
  exact Coll.ctxTotal_le (φ := Preorder.binCtxStock)
    (fun n p => by simp [Preorder.binCtxStock, Preorder.BinCtxState.new, slotsDebt_nil])
    (fun s => (Preorder.binCtxNext_paid s).1) (fun s => (Preorder.binCtxNext_paid s).2) ns _ k

/-- C80, collections, in order with context, owned nodes. -/
theorem C80_collection_inorder_context_owned [BinNode N V] (ns : List N) (k : Nat) :
    ∃ s, Coll.attachContext (S := Inorder.State N V) (Coll.new ns) = .ok s ∧
      totalOverE (Coll.ctxNext Inorder.OwnCtxState.new Inorder.ownAdvance Inorder.ownGet)
          (Coll.ctxWork Inorder.OwnCtxState.new Inorder.ownNext Inorder.ownWork) k s ≤
        (ns.map fun n => 3 * (binTreeOf n).size + 1).sum := by
  refine ⟨_, rfl, ?_⟩
  simp only [← Inorder.slotDebt_new]
  exact Coll.ctxTotal_le (φ := Inorder.ownStock) (fun n p => by simp [Inorder.ownStock, Inorder.OwnCtxState.new])
    (fun s => (Inorder.ownNext_paid s).1) (fun s => (Inorder.ownNext_paid s).2) ns _ k

/-- C80, collections, in order with context, borrowed and mutably borrowed nodes. -/
theorem C80_collection_inorder_context [BinNode N V] (ns : List N) (k : Nat) :
    ∃ s, Coll.attachContext (S := Inorder.State N V) (Coll.new ns) = .ok s ∧
      totalOverE (Coll.ctxNext Inorder.CtxState.new Inorder.ctxAdvance Inorder.ctxGet)
          (Coll.ctxWork Inorder.CtxState.new Inorder.ctxNext Inorder.ctxWork) k s ≤
        (ns.map fun n => 3 * (binTreeOf n).size + 1).sum := by
  refine ⟨_, rfl, ?_⟩
  simp only [← Inorder.slotDebt_new]
  exact Coll.ctxTotal_le (φ := Inorder.ctxStock) (fun n p => by simp [Inorder.ctxStock, Inorder.CtxState.new])
    (fun s => (Inorder.ctxNext_paid s).1) (fun s => (Inorder.ctxNext_paid s).2) ns _ k

example : (List.range 12).map (fun k => totalOverE (Coll.ctxNext Bfs.CtxState.new Bfs.ctxAdvance Bfs.ctxGet)
    (Coll.ctxWork Bfs.CtxState.new Bfs.ctxNext Bfs.ctxPolls) k
      (⟨sampleTrees, usizeMax, none⟩ : Coll.CtxState (Tree Nat) (Bfs.CtxState Nat (List (Tree Nat)) (Tree Nat)))) =
        [0, 0, 1, 2, 4, 5, 7, 11, 12, 13, 14, 17] := by decide +kernel

end TreeIter
