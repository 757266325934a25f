import Verif.Lemmas.FailAfterCtx
import Verif.Lemmas.FailAfterFit
import Verif.Props.Fail

/-!
# C62: the iterators that lose ancestors after a caught panic

Exactly what they answer, for every tree, every set of nodes at which the user's code panics and every call.
-/

universe u v

namespace TreeIter

variable {N : Type u} {V : Type v}

/-- C62, postorder with ancestors: every answer, however many panics were caught before. -/
theorem C62_postorder_ancestors_exact [TreeNode N V] (bad : N → Bool) (n : N) :
    ∃ s, Postorder.attachAncestors (Postorder.new n) = .ok s ∧
      ∀ k, nthCall (Fail.postAncNext bad) k s = lossyAnswer ((unfold n).lossyPost bad []).1 k := by
  refine ⟨_, rfl, fun k => ?_⟩
  rw [Fail.nthCall_lossy Fail.LossyPostInv (Fail.lossyPostRem bad) (Fail.postAncNext_lossy bad)
    (by simp [Fail.LossyPostInv, Postorder.AncState.new])]
  rfl

/-- Two panics: 9 below 1 costs 1 an ancestor, 9 below 0 another one; the call for the root finds nothing. -/
example : answers (Fail.postAncNext badNine) 8
      (Postorder.AncState.new
        (.node 0 [.node 1 [.node 9 [], .node 2 []], .node 3 [.node 4 []], .node 9 [.node 5 []], .node 6 []] : Tree Nat)) =
    [some none, some (some [0, 2]), some (some [0]), some (some [3, 4]), some (some [3]), some none, some (some [6]), none] ∧
    ((unfold (.node 0 [.node 1 [.node 9 [], .node 2 []], .node 3 [.node 4 []], .node 9 [.node 5 []], .node 6 []] :
      Tree Nat)).lossyPost badNine []).1 =
    [none, some [0, 2], some [0], some [3, 4], some [3], none, some [6], some []] := by decide +kernel

/-- An answer can come after a `None`: with all ancestors lost, 1 is answered by `None`, and then comes 2. -/
example : answers (Fail.postAncNext badNine) 6
      (Postorder.AncState.new (.node 0 [.node 1 [.node 9 [], .node 9 []], .node 2 []] : Tree Nat)) =
    [some none, some none, none, some (some [2]), none, none] := by decide +kernel

/-- C62, leaves with ancestors of a preorder traversal: every answer. -/
theorem C62_leaves_ancestors_exact [TreeNode N V] (bad : N → Bool) (n : N) :
    ∃ s, Preorder.attachAncestors (Preorder.new n) = .ok s ∧
      ∀ k, nthCall (Fail.leavesAncNext bad) k (Leaves.ofPreorderAnc s) =
        lossyAnswer ((unfold n).lossyLeaves bad []).1 k := by
  refine ⟨_, rfl, fun k => ?_⟩
  rw [Fail.nthCall_lossy Fail.LossyLvInv (Fail.lossyLvRem bad) (Fail.leavesAncNext_lossy bad)
    (by simp [Fail.LossyLvInv, Leaves.ofPreorderAnc, Preorder.AncState.new])]
  rfl

/-- The same, started from a postorder iterator. -/
theorem C62_postorder_leaves_ancestors_exact [TreeNode N V] (bad : N → Bool) (n : N) :
    ∃ s, Postorder.attachAncestors (Postorder.new n) = .ok s ∧
      ∀ k, nthCall (Fail.leavesAncNext bad) k (Leaves.ofPostorderAnc s) =
        lossyAnswer ((unfold n).lossyLeaves bad []).1 k := by
  refine ⟨_, rfl, fun k => ?_⟩
  rw [Fail.nthCall_lossy Fail.LossyLvInv (Fail.lossyLvRem bad) (Fail.leavesAncNext_lossy bad)
    (by simp [Fail.LossyLvInv, Leaves.ofPostorderAnc, Postorder.AncState.new])]
  rfl

/-- 9 below 1 costs an ancestor; with it the traversal runs out of ancestors at 1 and answers `None` before 2 and 3. -/
example : answers (Fail.leavesAncNext badNine) 6
      (Leaves.ofPreorderAnc (Preorder.AncState.new (.node 0 [.node 1 [.node 9 []], .node 2 [], .node 3 []] : Tree Nat))) =
    [some none, none, some (some [2]), some (some [3]), none, none] ∧
    ((unfold (.node 0 [.node 1 [.node 9 []], .node 2 [], .node 3 []] : Tree Nat)).lossyLeaves badNine []).1 =
    [none, some [], some [2], some [3], some []] := by decide +kernel

/-- C62, postorder with context: every answer.  The iterator takes itself for finished after a call that found at most one
ancestor. -/
theorem C62_postorder_context_exact [TreeNode N V] (bad : N → Bool) (n : N) (h : ArityOk n) :
    ∃ s, Postorder.attachContext (Postorder.new n) = .ok s ∧
      ∀ k, nthCallE (Fail.postCtxNext bad) k s =
        .ok (upTo (fun anc => anc.length ≤ 1) ((unfold n).lossyPostCtx bad [] []).1)[k]? := by
  refine ⟨_, rfl, fun k => ?_⟩
  rw [nthCallE_spec Fail.LossyPostCtxInv (Fail.lossyPostCtxRem bad) (Fail.postCtxNext_lossy bad)
    (by simpa [Fail.LossyPostCtxInv, Postorder.CtxState.new] using h)]
  rfl

/-- Two panics: 2 lacks an ancestor, 1 is taken for the root, and nothing follows it. -/
example : ArityOk sampleTree ∧
    ((upTo (fun anc => anc.length ≤ 1)
      ((unfold (.node 0 [.node 5 [], .node 1 [.node 9 [], .node 2 []], .node 3 []] : Tree Nat)).lossyPostCtx badNine
        [] []).1).map (·.map Ctx.brief)) =
    [some ⟨[0], [0, 5], some 0⟩, none, some ⟨[1, 1], [0, 2], some 0⟩, some ⟨[1], [0], some 2⟩] :=
  ⟨sampleTree_arity, by decide +kernel⟩

/-- C62, preorder with context: every answer.  The iterator takes itself for finished after a panic that left no ancestor. -/
theorem C62_preorder_context_exact [TreeNode N V] (bad : N → Bool) (n : N) (h : ArityLt n) :
    ∃ s, Preorder.attachContext (Preorder.new n) = .ok s ∧
      ∀ k, nthCallE (Fail.preCtxNext bad) k s =
        .ok (upTo List.isEmpty ((unfold n).lossyPreCtx bad [] []).1)[k]? := by
  refine ⟨_, rfl, fun k => ?_⟩
  rw [nthCallE_spec Fail.LossyPreCtxInv (Fail.lossyPreCtxRem bad) (Fail.preCtxNext_lossy bad)
    (by simpa [Fail.LossyPreCtxInv, Preorder.CtxState.new] using h)]
  rfl

/-- After the panic below 1 its sibling 2 lacks an ancestor and 3 is taken for a root; the paths are right. -/
example : ArityLt sampleTree ∧
    ((upTo List.isEmpty
      ((unfold (.node 0 [.node 1 [.node 9 [], .node 2 []], .node 3 [.node 4 []], .node 9 [], .node 5 []] :
        Tree Nat)).lossyPreCtx badNine [] []).1).map (·.map Ctx.brief)) =
    [some ⟨[], [0], some 4⟩, some ⟨[0], [0, 1], some 2⟩, none, some ⟨[0, 1], [0, 2], some 0⟩,
      some ⟨[1], [3], some 1⟩, some ⟨[1, 0], [3, 4], some 0⟩, none] :=
  ⟨sampleTree_arityLt, by decide +kernel⟩

/-- C62, binary preorder with context: every answer. -/
theorem C62_preorder_context_binary_exact [BinNode N V] (bad : N → Bool) (n : N) :
    ∃ s, Preorder.binAttachContext (Preorder.new n) = .ok s ∧
      ∀ k, nthCallE (Fail.preBinCtxNext bad) k s =
        .ok (upTo List.isEmpty ((unfold2 n).lossyPreCtx bad [] []).1)[k]? := by
  refine ⟨_, rfl, fun k => ?_⟩
  rw [nthCallE_spec Fail.LossyPreBinInv (Fail.lossyPreBinRem bad) (Fail.preBinCtxNext_lossy bad)
    (by simp [Fail.LossyPreBinInv, Preorder.BinCtxState.new])]
  rfl

/-- 2 lacks an ancestor, and so does 3, which is taken for a root. -/
example :
    ((upTo List.isEmpty
      ((unfold2 (.node 0 (some (.node 1 (some (.node 9 none none)) (some (.node 2 none none))))
        (some (.node 3 none (some (.node 4 none none)))) : BinTree Nat)).lossyPreCtx badNineBin [] []).1).map
          (·.map Ctx.brief2)) =
    [some ⟨[], [0], some (true, true)⟩, some ⟨[0], [0, 1], some (true, true)⟩, none,
      some ⟨[0, 1], [0, 2], some (false, false)⟩, some ⟨[1], [3], some (false, true)⟩,
      some ⟨[1, 1], [3, 4], some (false, false)⟩] := by decide +kernel

/-! ## What is right even then

The nodes come in the right order, with the right paths and children; only ancestors are missing. -/

/-- C62, preorder with context: from some call on the answer is `None`; before that the replies are those for the nodes in
their order, with their paths and children, and the ancestors are some of the real ones, in their order. -/
theorem C62_preorder_context_order [TreeNode N V] (bad : N → Bool) (n : N) (h : ArityLt n) :
    ∃ s, Preorder.attachContext (Preorder.new n) = .ok s ∧ ∃ m, ∀ k,
      (m ≤ k → nthCallE (Fail.preCtxNext bad) k s = .ok none) ∧
      (k < m → ∃ q, ((unfold n).crop bad).located.preorder[k]? = some q ∧ ∃ anc : List V,
        anc.Sublist (q.ancestors.map val) ∧
        nthCallE (Fail.preCtxNext bad) k s = .ok (some (replyPos bad (fun q => ⟨q.path, anc, some (kids q.item)⟩) q))) := by
  obtain ⟨s, hs, hk⟩ := C62_preorder_context_exact bad n h
  refine ⟨s, hs, ?_⟩
  obtain ⟨m, hm⟩ := Fail.upTo_take List.isEmpty ((unfold n).lossyPreCtx bad [] []).1
  have hf := (Fail.lossyPreCtx_fits bad [] [] [] (List.Sublist.refl _) (unfold n)).1
  refine ⟨min m ((unfold n).lossyPreCtx bad [] []).1.length, fun k => ⟨fun h => ?_, fun h => ?_⟩⟩
  · rw [hk, hm, List.getElem?_eq_none (by simpa using h)]
  · rw [Nat.lt_min] at h
    obtain ⟨h1, h2⟩ := h
    rcases Fail.forall₂_getElem hf k with ⟨e, _⟩ | ⟨⟨anc, o⟩, q, e1, e2, e3, e4⟩
    · rw [List.getElem?_eq_none_iff] at e; omega
    · refine ⟨q, e2, anc, e4, ?_⟩
      rw [hk, hm, List.getElem?_map, List.getElem?_take_of_lt h1, e1]
      obtain rfl : o = _ := e3
      simp only [replyPos]
      split <;> rfl

/-- C62, binary preorder with context, likewise. -/
theorem C62_preorder_context_binary_order [BinNode N V] (bad : N → Bool) (n : N) :
    ∃ s, Preorder.binAttachContext (Preorder.new n) = .ok s ∧ ∃ m, ∀ k,
      (m ≤ k → nthCallE (Fail.preBinCtxNext bad) k s = .ok none) ∧
      (k < m → ∃ q, ((unfold2 n).crop bad).located.toTree.preorder[k]? = some q ∧ ∃ anc : List V,
        anc.Sublist (q.ancestors.map val2) ∧
        nthCallE (Fail.preBinCtxNext bad) k s =
          .ok (some (replyPos bad (fun q => ⟨q.path, anc, some (split2 q.item).2⟩) q))) := by
  obtain ⟨s, hs, hk⟩ := C62_preorder_context_binary_exact bad n
  refine ⟨s, hs, ?_⟩
  obtain ⟨m, hm⟩ := Fail.upTo_take List.isEmpty ((unfold2 n).lossyPreCtx bad [] []).1
  have hf := (Fail.lossyPreCtx_fits2 bad [] [] [] (List.Sublist.refl _) (unfold2 n)).1
  refine ⟨min m ((unfold2 n).lossyPreCtx bad [] []).1.length, fun k => ⟨fun h => ?_, fun h => ?_⟩⟩
  · rw [hk, hm, List.getElem?_eq_none (by simpa using h)]
  · rw [Nat.lt_min] at h
    obtain ⟨h1, h2⟩ := h
    rcases Fail.forall₂_getElem hf k with ⟨e, _⟩ | ⟨⟨anc, o⟩, q, e1, e2, e3, e4⟩
    · rw [List.getElem?_eq_none_iff] at e; omega
    · refine ⟨q, e2, anc, e4, ?_⟩
      rw [hk, hm, List.getElem?_map, List.getElem?_take_of_lt h1, e1]
      obtain rfl : o = _ := e3
      simp only [replyPos]
      split <;> rfl

/-- C62, postorder with context, likewise. -/
theorem C62_postorder_context_order [TreeNode N V] (bad : N → Bool) (n : N) (h : ArityOk n) :
    ∃ s, Postorder.attachContext (Postorder.new n) = .ok s ∧ ∃ m, ∀ k,
      (m ≤ k → nthCallE (Fail.postCtxNext bad) k s = .ok none) ∧
      (k < m → ∃ q, ((unfold n).crop bad).located.postorder[k]? = some q ∧ ∃ anc : List V,
        anc.Sublist (q.ancestors.map val) ∧
        nthCallE (Fail.postCtxNext bad) k s = .ok (some (replyPos bad (fun q => ⟨q.path, anc, some (kids q.item)⟩) q))) := by
  obtain ⟨s, hs, hk⟩ := C62_postorder_context_exact bad n h
  refine ⟨s, hs, ?_⟩
  obtain ⟨m, hm⟩ := Fail.upTo_take (fun anc => anc.length ≤ 1) ((unfold n).lossyPostCtx bad [] []).1
  have hf := (Fail.lossyPostCtx_fits bad [] [] [] (List.Sublist.refl _) (unfold n)).1
  refine ⟨min m ((unfold n).lossyPostCtx bad [] []).1.length, fun k => ⟨fun h => ?_, fun h => ?_⟩⟩
  · rw [hk, hm, List.getElem?_eq_none (by simpa using h)]
  · rw [Nat.lt_min] at h
    obtain ⟨h1, h2⟩ := h
    rcases Fail.forall₂_getElem hf k with ⟨e, _⟩ | ⟨⟨anc, o⟩, q, e1, e2, e3, e4⟩
    · rw [List.getElem?_eq_none_iff] at e; omega
    · refine ⟨q, e2, anc, e4, ?_⟩
      rw [hk, hm, List.getElem?_map, List.getElem?_take_of_lt h1, e1]
      obtain rfl : o = _ := e3
      simp only [replyPos]
      split <;> rfl

/-- C62, postorder with ancestors: call `k` is for node `k`, and gives some of the values from the root down to it, in their order; it answers `None` where none of them is left. -/
theorem C62_postorder_ancestors_order [TreeNode N V] (bad : N → Bool) (n : N) :
    ∃ s, Postorder.attachAncestors (Postorder.new n) = .ok s ∧ ∀ k,
      match ((unfold n).crop bad).located.postorder[k]? with
      | none => nthCall (Fail.postAncNext bad) k s = none
      | some q => ∃ anc : List V, anc.Sublist (q.ancestors.map val) ∧
          nthCall (Fail.postAncNext bad) k s =
            if bad q.item then some none else if anc = [] then none else some (some anc) := by
  obtain ⟨s, hs, hk⟩ := C62_postorder_ancestors_exact bad n
  refine ⟨s, hs, fun k => ?_⟩
  have hf := (Fail.lossyPostCtx_fits bad [] [] [] (List.Sublist.refl _) (unfold n)).1
  rw [hk, lossyAnswer, (Fail.lossyPost_fst bad [] [] (unfold n)).1, List.getElem?_map]
  rcases Fail.forall₂_getElem hf k with ⟨e1, e2⟩ | ⟨⟨anc, o⟩, q, e1, e2, e3, e4⟩
  · rw [Tree.located, e1, e2]; rfl
  · rw [Tree.located, e1, e2]
    refine ⟨anc, e4, ?_⟩
    obtain rfl : o = _ := e3
    simp only [replyPos]
    by_cases hb : bad q.item
    · simp [hb]
    · cases anc <;> simp [hb]

end TreeIter
