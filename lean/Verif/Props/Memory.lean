import Verif.Lemmas.Memory
import Verif.Props.DepthFirst

/-! # C40: the depth-first iterators hold at most one entry per level

`height` counts levels: a single node has height 1. -/

universe u v w

namespace TreeIter

variable {N : Type u} {V : Type v}

/-- C40, preorder: the number of pending child iterators never exceeds the number of levels. -/
theorem C40_preorder [TreeNode N V] (n : N) (k : Nat) :
    (stateAfter Preorder.next k (Preorder.new n)).stack.length ≤ (treeOf n).height := by
  cases k with
  | zero => simp [stateAfter, Preorder.new]
  | succ k => exact (pre_stateAfter n k).1.length

/-- More exactly: after the node at position `p` was returned there is one for `p` and one for each node above. -/
theorem C40_preorder_exact [TreeNode N V] (n : N) (k : Nat) (p : Pos V) (h : (treeOf n).located.preorder[k]? = some p) :
    (stateAfter Preorder.next (k + 1) (Preorder.new n)).stack.length = p.ancestors.length := by
  obtain ⟨s, h1, h2⟩ := C06_preorder_ancestors n
  cases h1
  have h3 := h2 k
  rw [List.getElem?_map, h] at h3
  have h4 := (Leaves.preAnc_stack (k + 1) (Preorder.AncState.new n)).2
  have h5 := (stateAfter_spec Preorder.AncInv Preorder.ancRem Preorder.ancNext_spec
    (show Preorder.AncInv (Preorder.AncState.new n) by simp [Preorder.AncInv, Preorder.AncState.new]) (k + 1)).1.1
  rw [Preorder.ancNext, nthCall_get, ← Preorder.ancNext] at h3
  rw [← show _ = (stateAfter Preorder.next (k + 1) (Preorder.new n)).stack from h4, ← h5]
  simp only [Preorder.ancGet, Option.map_some, Option.ite_none_right_eq_some, Option.some.injEq] at h3
  rw [← h3.2, List.length_reverse]

example : (List.range 8).map (fun k => (stateAfter Preorder.next k (Preorder.new sampleTree)).stack.length) =
    [0, 1, 2, 3, 3, 2, 3, 0] ∧ (treeOf sampleTree).height = 3 := by decide +kernel

/-- C40, postorder: the number of pending child iterators, and that of unfinished nodes. -/
theorem C40_postorder [TreeNode N V] (n : N) (k : Nat) :
    (stateAfter Postorder.next k (Postorder.new n)).stack.length ≤ (treeOf n).height ∧
      (stateAfter Postorder.next k (Postorder.new n)).items.length ≤ (treeOf n).height := by
  obtain ⟨h1, h2⟩ := post_stateAfter n k
  exact ⟨h1.length, h2 ▸ h1.length⟩

/-- More exactly: after the node at position `p` was returned there is one of each for each node above `p`. -/
theorem C40_postorder_exact [TreeNode N V] (n : N) (k : Nat) (p : Pos V) (h : (treeOf n).located.postorder[k]? = some p) :
    (stateAfter Postorder.next (k + 1) (Postorder.new n)).stack.length + 1 = p.ancestors.length ∧
      (stateAfter Postorder.next (k + 1) (Postorder.new n)).items.length + 1 = p.ancestors.length := by
  have key : (stateAfter Postorder.next (k + 1) (Postorder.new n)).stack.length + 1 = p.ancestors.length := by
    obtain ⟨s, h1, h2⟩ := C07_postorder_ancestors n
    cases h1
    have h3 := h2 k
    rw [List.getElem?_map, h] at h3
    have h4 := (Leaves.postAnc_stack (k + 1) (Postorder.AncState.new n) [])
    have h5 := (stateAfter_spec Postorder.AncInv Postorder.ancRem Postorder.ancNext_spec
      (show Postorder.AncInv (Postorder.AncState.new n) by simp [Postorder.AncInv, Postorder.AncState.new]) (k + 1)).1
    have h6 : (stateAfter Postorder.ancNext (k + 1) (Postorder.AncState.new n)).root = none := by
      rw [stateAfter_snoc]
      rfl
    rw [Postorder.ancNext, nthCall_get, ← Postorder.ancNext] at h3
    rw [← show _ = (stateAfter Postorder.next (k + 1) (Postorder.new n)).stack from h4.2]
    simp only [Postorder.AncInv, h6] at h5
    rw [← h5]
    simp only [Postorder.ancGet, Option.map_some, Option.ite_none_right_eq_some, Option.some.injEq] at h3
    rw [← h3.2, List.length_reverse, List.length_tail]
    omega
  exact ⟨key, (post_stateAfter n (k + 1)).2 ▸ key⟩

example : (List.range 8).map (fun k => (stateAfter Postorder.next k (Postorder.new sampleTree)).stack.length) =
    [0, 2, 2, 1, 2, 1, 0, 0] := by decide +kernel

/-- C40, in order: the number of pending right slots, and that of nodes not yet returned. -/
theorem C40_inorder [BinNode N V] (n : N) (k : Nat) :
    (stateAfter Inorder.next k (Inorder.new n)).right.length ≤ (binTreeOf n).toTree.height ∧
      (stateAfter Inorder.next k (Inorder.new n)).items.length ≤ (binTreeOf n).toTree.height := by
  have h1 := (in_stateAfter n k).length
  have h2 := (stateAfter_spec Inorder.Inv Inorder.rem Inorder.next_spec
    (show Inorder.Inv (Inorder.new n) by simp [Inorder.Inv, Inorder.new]) k).1
  rw [treeOf_eq_toTree] at h1
  refine ⟨h1, ?_⟩
  rcases h2 with h2 | h2
  · omega
  · simp [h2.2]

example : (List.range 7).map (fun k => (stateAfter Inorder.next k (Inorder.new sampleBin)).right.length) =
    [1, 2, 2, 1, 2, 1, 0] ∧ (binTreeOf sampleBin).toTree.height = 3 := by decide +kernel

/-! ## Leaves -/

/-- C40, `leaves()` of a depth-first iterator that has not started: the number of pending child iterators and of
values held. -/
theorem C40_leaves [TreeNode N V] (n : N) (k : Nat) :
    ∀ s ∈ [Leaves.ofPreorder (Preorder.new n), Leaves.ofPostorder (Postorder.new n)],
      (stateAfter Leaves.next k s).bottom.length + (stateAfter Leaves.next k s).top.length ≤ (treeOf n).height ∧
        (stateAfter Leaves.next k s).items.length ≤ (treeOf n).height := by
  intro s hs
  obtain rfl : s = ⟨some n, [], [], []⟩ := by
    simp only [List.mem_cons, List.not_mem_nil, or_false] at hs
    rcases hs with rfl | rfl <;> rfl
  cases k with
  | zero => simp [stateAfter]
  | succ k =>
    obtain ⟨h1, h2, h3, _⟩ := leaves_stateAfter n k
    have := h1.length
    rw [h3, h2]
    simp only [lev] at this
    exact ⟨by simpa using this, this⟩

example : (List.range 5).map (fun k =>
    (stateAfter Leaves.next k (Leaves.ofPreorder (Preorder.new sampleTree))).items.length) = [0, 2, 2, 2, 0] := by
  decide +kernel

end TreeIter
