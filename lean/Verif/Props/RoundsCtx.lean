import Verif.Lemmas.RoundsBfsCtx
import Verif.Props.Rounds
import Verif.Props.BreadthFirstCtx

/-!
# C80: the work of a whole traversal with contexts, and what breadth first costs at most
-/

universe u v

namespace TreeIter

variable {N : Type u} {V : Type v}

/-! ## Binary nodes: two slots and the end of their iterator, for each node -/

/-- C80, preorder with context, binary nodes. -/
theorem C80_preorder_context_binary [BinNode N V] (n : N) (k : Nat) :
    ∃ s, Preorder.binAttachContext (Preorder.new n) = .ok s ∧
      totalOverE Preorder.binCtxNext Preorder.binCtxPolls k s ≤ 3 * (binTreeOf n).size := by
  refine ⟨_, rfl, ?_⟩
  rw [← rootSlots_new]
  exact totalOverE_paid (φ := Preorder.binCtxStock) (fun s => (Preorder.binCtxNext_paid s).1)
    (fun s => (Preorder.binCtxNext_paid s).2) k _

example : sampleBin.size = 5 ∧
    (List.range 7).map (fun k => totalOverE Preorder.binCtxNext Preorder.binCtxPolls k (Preorder.BinCtxState.new sampleBin [])) =
      [0, 0, 1, 3, 8, 9, 15] := by decide +kernel

/-- C80, postorder with context, borrowed binary nodes. -/
theorem C80_postorder_context_binary [BinNode N V] (n : N) (k : Nat) :
    ∃ s, Postorder.binAttachContext (Postorder.new n) = .ok s ∧
      totalOverE Postorder.binCtxNext Postorder.binCtxPolls k s ≤ 3 * (binTreeOf n).size := by
  refine ⟨_, rfl, ?_⟩
  rw [← rootSlots_new]
  exact totalOverE_paid (φ := Postorder.binCtxStock) (fun s => (Postorder.binCtxNext_paid s).1)
    (fun s => (Postorder.binCtxNext_paid s).2) k _

/-- C80, postorder with context, mutably borrowed binary nodes. -/
theorem C80_postorder_context_binary_mut [BinNode N V] (n : N) (k : Nat) :
    ∃ s, Postorder.binAttachContext (Postorder.new n) = .ok s ∧
      totalOverE Postorder.mutBinCtxNext Postorder.binCtxPolls k s ≤ 3 * (binTreeOf n).size := by
  refine ⟨_, rfl, ?_⟩
  rw [← rootSlots_new]
  exact totalOverE_paid (φ := Postorder.binCtxStock) (fun s => (Postorder.mutBinCtxNext_paid s).1)
    (fun s => (Postorder.mutBinCtxNext_paid s).2) k _

/-- C80, postorder with context, owned binary nodes. -/
theorem C80_postorder_context_binary_owned [BinNode N V] (n : N) (k : Nat) :
    ∃ s, Postorder.ownBinAttachContext (Postorder.new n) = .ok s ∧
      totalOverE Postorder.ownBinCtxNext Postorder.ownBinCtxPolls k s ≤ 3 * (binTreeOf n).size := by
  refine ⟨_, rfl, ?_⟩
  rw [← rootSlots_new]
  exact totalOverE_paid (φ := Postorder.ownBinCtxStock) (fun s => (Postorder.ownBinCtxNext_paid s).1)
    (fun s => (Postorder.ownBinCtxNext_paid s).2) k _

example : (List.range 7).map (fun k =>
    totalOverE Postorder.ownBinCtxNext Postorder.ownBinCtxPolls k (Postorder.OwnBinCtxState.new sampleBin [])) =
      [0, 6, 7, 12, 14, 15, 15] := by decide +kernel

/-- C80, breadth first with context, binary nodes. -/
theorem C80_bfs_context_binary [BinNode N V] (n : N) (k : Nat) :
    ∃ s, Bfs.binAttachContext (Bfs.new n) = .ok s ∧
      totalOverE Bfs.binCtxNext Bfs.binCtxPolls k s ≤ 3 * (binTreeOf n).size := by
  refine ⟨_, rfl, ?_⟩
  have h : Bfs.binCtxStock (Bfs.CtxState.binNew n []) = 3 * (binTreeOf n).size := by
    rw [← rootSlots_new]
    exact slotsDebt_slots n []
  rw [← h]
  exact totalOverE_paid (φ := Bfs.binCtxStock) (fun s => (Bfs.binCtxNext_paid s).1)
    (fun s => (Bfs.binCtxNext_paid s).2) k _

example : (List.range 7).map (fun k => totalOverE Bfs.binCtxNext Bfs.binCtxPolls k (Bfs.CtxState.binNew sampleBin [])) =
    [0, 0, 1, 2, 5, 7, 15] := by decide +kernel

/-! ## In order -/

/-- C80, in order with context, owned nodes: entries taken off a stack and nodes split. -/
theorem C80_inorder_context_owned [BinNode N V] (n : N) (k : Nat) :
    ∃ s, Inorder.ownAttachContext (Inorder.new n) = .ok s ∧
      totalOverE Inorder.ownNext Inorder.ownWork k s ≤ 3 * (binTreeOf n).size + 1 := by
  refine ⟨_, rfl, ?_⟩
  rw [← Inorder.slotDebt_new]
  exact totalOverE_paid (φ := Inorder.ownStock) (fun s => (Inorder.ownNext_paid s).1)
    (fun s => (Inorder.ownNext_paid s).2) k _

/-- C80, in order with context, borrowed and mutably borrowed nodes. -/
theorem C80_inorder_context [BinNode N V] (n : N) (k : Nat) :
    ∃ s, Inorder.attachContext (Inorder.new n) = .ok s ∧
      totalOverE Inorder.ctxNext Inorder.ctxWork k s ≤ 3 * (binTreeOf n).size + 1 := by
  refine ⟨_, rfl, ?_⟩
  rw [← Inorder.slotDebt_new]
  exact totalOverE_paid (φ := Inorder.ctxStock) (fun s => (Inorder.ctxNext_paid s).1)
    (fun s => (Inorder.ctxNext_paid s).2) k _

example : (List.range 7).map (fun k => totalOverE Inorder.ctxNext Inorder.ctxWork k (Inorder.CtxState.new sampleBin [])) =
    [0, 3, 5, 8, 11, 13, 16] := by decide +kernel

/-! ## Breadth first -/

/-- C80, breadth first with ancestors: the calls take at most `2 m ^ 2 + 4 m` rounds, however often `next` is called. -/
theorem C80_bfs_ancestors_upper [TreeNode N V] (n : N) (k : Nat) :
    ∃ s, Bfs.attachAncestors (Bfs.new n) = .ok s ∧
      totalOverE Bfs.ancNext Bfs.ancRounds k s ≤ 2 * (treeOf n).size * (treeOf n).size + 4 * (treeOf n).size :=
  ⟨_, rfl, Bfs.ancRounds_total n k⟩

/-- C80, breadth first with context: the child iterators are asked at most `2 m - 1` times. -/
theorem C80_bfs_context_polls [TreeNode N V] (n : N) (k : Nat) :
    ∃ s, Bfs.attachContext (Bfs.new n) = .ok s ∧
      totalOverE Bfs.ctxNext Bfs.ctxPolls k s ≤ 2 * (treeOf n).size - 1 := by
  refine ⟨_, rfl, ?_⟩
  have h0 : Bfs.ctxStock (Bfs.CtxState.new n []) = 2 * (treeOf n).size - 1 := by
    rw [← rootDebt_new]
    change debt [kids n] = _
    rw [debt_root, debt_nil, Nat.add_zero]
  rw [← h0]
  exact Bfs.ctxStock_total k _

example : (List.range 8).map (fun k => totalOverE Bfs.ctxNext Bfs.ctxPolls k (Bfs.CtxState.new sampleTree [])) =
    [0, 0, 1, 2, 4, 5, 7, 11] := by decide +kernel

/-- C80, breadth first with context: at most `2 m ^ 2 + 4 m` rounds. -/
theorem C80_bfs_context_upper [TreeNode N V] (n : N) (k : Nat) :
    ∃ s, Bfs.attachContext (Bfs.new n) = .ok s ∧
      totalOverE Bfs.ctxNext Bfs.ctxRounds k s ≤ 2 * (treeOf n).size * (treeOf n).size + 4 * (treeOf n).size :=
  ⟨_, rfl, Bfs.ctxRounds_total n [] k⟩

/-- C80, breadth first with context: at least the walk from slice to slice, less one round per slice after the first. -/
theorem C80_bfs_context [TreeNode N V] [DecidableEq V] (n : N) (ha : ArityLt n) :
    ∃ s, Bfs.attachContext (Bfs.new n) = .ok s ∧
      walkLength ((treeOf n).located.levelOrder.map Pos.ancestors) ≤
        totalOverE Bfs.ctxNext Bfs.ctxRounds (treeOf n).size s + ((treeOf n).size - 1) := by
  obtain ⟨s, hs, hk⟩ := C14_bfs_context n ha
  refine ⟨s, hs, ?_⟩
  have hl := C09_length (treeOf n)
  have e : (treeOf n).located.levelOrder.map Pos.ancestors =
      ((unfold n).located.levelOrder.map Pos.ctx).map Ctx.ancestors := by
    rw [treeOf, Tree.located_map, Tree.levelOrder_map, List.map_map, List.map_map]
    rfl
  rw [e] at hl ⊢
  generalize (unfold n).located.levelOrder.map Pos.ctx = l at *
  cases l with
  | nil => simp [walkLength]
  | cons a l =>
    simp only [List.map_cons, List.length_cons, List.length_map] at hl
    rw [← hl]
    have h0 := hk 0
    cases hn : Bfs.ctxNext s with
    | error e => simp [nthCallE, stateAfterE, hn] at h0
    | ok r =>
      obtain ⟨o, s'⟩ := r
      have ho : o = some a := by simpa [nthCallE, stateAfterE, hn] using h0
      subst ho
      have h2 : a.ancestors = s'.cc.ancestors.reverse ∧ s'.isRoot = false := by
        cases hs
        simp only [Bfs.ctxNext, streamNextE, Bfs.ctxAdvance, Bfs.CtxState.new, if_true, Except.ok.injEq,
          Prod.mk.injEq] at hn
        obtain ⟨h3, rfl⟩ := hn
        simp only [Bfs.ctxGet, List.isEmpty_cons, Bool.false_eq_true, if_false, Option.some.injEq] at h3
        exact ⟨by rw [← h3], rfl⟩
      have h1 := Bfs.ctxWalk_le l s' h2.2 (fun k hk' => by
        have := hk (k + 1)
        rw [nthCallE, stateAfterE, hn] at this
        simpa [nthCallE] using this)
      rw [← h2.1] at h1
      simp only [List.map_cons, totalOverE, hn]
      omega

/-- C80: nor is the work with context linear. -/
theorem C80_bfs_context_quadratic (h : Nat) :
    (fork h).size = 2 * h + 3 ∧ ∃ s, Bfs.attachContext (Bfs.new (fork h)) = .ok s ∧
      (fork h).size * h < totalOverE Bfs.ctxNext Bfs.ctxRounds (fork h).size s := by
  have hz : (fork h).size = 2 * h + 3 := by
    simp only [fork, Tree.size, Tree.sizeL, size_chain]
    omega
  refine ⟨hz, ?_⟩
  obtain ⟨s, hs, hw⟩ := C80_bfs_context (fork h) (arityLt_fork h)
  refine ⟨s, hs, ?_⟩
  obtain ⟨_, -, hf⟩ := fork_walk h
  rw [treeOf_tree, fork_slices, hf, hz] at hw
  rw [hz]
  have : (2 * h + 3) * (h + 1) = (2 * h + 3) * h + (2 * h + 3) := by ring
  omega

example : (List.range 4).map (fun h => totalOverE Bfs.ctxNext Bfs.ctxRounds (2 * h + 3)
    (Bfs.CtxState.new (V := Nat) (fork h) [])) = [2, 10, 22, 38] := by decide +kernel

end TreeIter
