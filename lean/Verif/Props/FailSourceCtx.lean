import Verif.Props.FailPostBin
import Verif.Props.FailSource

/-!
# C76: contexts in collections when `get_value_and_children` panics

For these iterators the property is false already for a single tree (C62).  What they answer for a collection, exactly: each
tree is treated as if it stood alone, so what one tree loses does not reach the next.
-/

universe u v

namespace TreeIter

variable {N : Type u} {V : Type v}

/-- In the first tree a panic costs the nodes after it an ancestor; the collection's iterator panics before the second. -/
def lossyTrees : List (Option (Tree Nat)) :=
  [some (.node 0 [.node 1 [.node 9 [], .node 2 []], .node 3 []]), none, some (.node 7 [.node 8 []])]

/-- The same for binary trees. -/
def lossyBins : List (Option (BinTree Nat)) :=
  [some (.node 0 (some (.node 1 (some (.node 9 none none)) (some (.node 2 none none)))) (some (.node 3 none none))), none,
    some (.node 7 none (some (.node 8 none none)))]

theorem lossyTrees_arityLt : ∀ n, some n ∈ lossyTrees → ArityLt n := by
  intro n hn
  have : n = .node 0 [.node 1 [.node 9 [], .node 2 []], .node 3 []] ∨ n = .node 7 [.node 8 []] := by
    simpa [lossyTrees] using hn
  rcases this with rfl | rfl
  · intro m hm
    refine Nat.lt_of_le_of_lt ?_ (by decide : 2 < 2 ^ 64)
    revert m
    decide +kernel
  · intro m hm
    refine Nat.lt_of_le_of_lt ?_ (by decide : 1 < 2 ^ 64)
    revert m
    decide +kernel

theorem lossyTrees_arity : ∀ n, some n ∈ lossyTrees → ArityOk n := fun n hn m hm =>
  Nat.le_of_lt (lossyTrees_arityLt n hn m hm)

theorem fail_preorder_context_at [TreeNode N V] (bad : N → Bool) (n : N) (h : ArityLt n) (i k : Nat) :
    nthCallE (Fail.preCtxNext bad) k (Preorder.CtxState.new n [i]) =
      .ok (upTo List.isEmpty ((unfold n).lossyPreCtx bad [i] []).1)[k]? := by
  rw [nthCallE_spec Fail.LossyPreCtxInv (Fail.lossyPreCtxRem bad) (Fail.preCtxNext_lossy bad)
    (by simpa [Fail.LossyPreCtxInv, Preorder.CtxState.new] using h)]
  rfl

/-- C76, preorder contexts: every answer. -/
theorem C76_preorder_context_exact [TreeNode N V] (bad : N → Bool) (ns : List (Option N))
    (hl : (ns.filterMap id).length ≤ 2 ^ 64)
    (h : ∀ n, some n ∈ ns → ArityLt n) :
    ∃ s, Coll.attachContext (Coll.new (S := Preorder.State N) ns) = .ok s ∧
      ∀ k, nthCallE (Fail.srcCtxNext (fun n p => some (Preorder.CtxState.new n p)) (Fail.preCtxNext bad)) k s =
        .ok (sourceReplies (fun n i => upTo List.isEmpty ((unfold n).lossyPreCtx bad [i] []).1) 0 ns)[k]? :=
  ⟨_, rfl, Fail.srcCtxCalls _ _ _ ns hl fun n hn i k => fail_preorder_context_at bad n (h n hn) i k⟩

example : (∀ n, some n ∈ lossyTrees → ArityLt n) ∧
    (answersE (Fail.srcCtxNext (fun n p => some (Preorder.CtxState.new n p)) (Fail.preCtxNext badNine)) 11
      ⟨lossyTrees, usizeMax, none⟩).map (·.map (·.map (·.map Ctx.placing))) =
    some [some (some ([0], [0])), some (some ([0, 0], [0, 1])), some none, some (some ([0, 0, 1], [0, 2])), some
      (some ([0, 1], [3])), some none, some (some ([1], [7])), some (some ([1, 0], [7, 8])), none, none, none] :=
  ⟨lossyTrees_arityLt, by decide +kernel⟩

theorem fail_preorder_binary_context_at [BinNode N V] (bad : N → Bool) (n : N) (i k : Nat) :
    nthCallE (Fail.preBinCtxNext bad) k (Preorder.BinCtxState.new n [i]) =
      .ok (upTo List.isEmpty ((unfold2 n).lossyPreCtx bad [i] []).1)[k]? := by
  rw [nthCallE_spec Fail.LossyPreBinInv (Fail.lossyPreBinRem bad) (Fail.preBinCtxNext_lossy bad)
    (by simp [Fail.LossyPreBinInv, Preorder.BinCtxState.new])]
  rfl

/-- C76, preorder contexts of binary nodes: every answer. -/
theorem C76_preorder_binary_context_exact [BinNode N V] (bad : N → Bool) (ns : List (Option N))
    (hl : (ns.filterMap id).length ≤ 2 ^ 64) :
    ∃ s, Coll.attachContext (Coll.new (S := Preorder.State N) ns) = .ok s ∧
      ∀ k, nthCallE (Fail.srcCtxNext (fun n p => some (Preorder.BinCtxState.new n p)) (Fail.preBinCtxNext bad)) k s =
        .ok (sourceReplies (fun n i => upTo List.isEmpty ((unfold2 n).lossyPreCtx bad [i] []).1) 0 ns)[k]? :=
  ⟨_, rfl, Fail.srcCtxCalls _ _ _ ns hl fun n _ i k => fail_preorder_binary_context_at bad n i k⟩

example : (answersE (Fail.srcCtxNext (fun n p => some (Preorder.BinCtxState.new n p)) (Fail.preBinCtxNext badNineBin)) 11
      ⟨lossyBins, usizeMax, none⟩).map (·.map (·.map (·.map Ctx.placing))) =
    some [some (some ([0], [0])), some (some ([0, 0], [0, 1])), some none, some (some ([0, 0, 1], [0, 2])), some
      (some ([0, 1], [3])), some none, some (some ([1], [7])), some (some ([1, 1], [7, 8])), none, none, none] := by
  decide +kernel

theorem fail_postorder_context_at [TreeNode N V] (bad : N → Bool) (n : N) (h : ArityOk n) (i k : Nat) :
    nthCallE (Fail.postCtxNext bad) k (Postorder.CtxState.new n [i]) =
      .ok (upTo (fun anc => anc.length ≤ 1) ((unfold n).lossyPostCtx bad [i] []).1)[k]? := by
  rw [nthCallE_spec Fail.LossyPostCtxInv (Fail.lossyPostCtxRem bad) (Fail.postCtxNext_lossy bad)
    (by simpa [Fail.LossyPostCtxInv, Postorder.CtxState.new] using h)]
  rfl

/-- C76, postorder contexts: every answer. -/
theorem C76_postorder_context_exact [TreeNode N V] (bad : N → Bool) (ns : List (Option N))
    (hl : (ns.filterMap id).length ≤ 2 ^ 64)
    (h : ∀ n, some n ∈ ns → ArityOk n) :
    ∃ s, Coll.attachContext (Coll.new (S := Postorder.State N V) ns) = .ok s ∧
      ∀ k, nthCallE (Fail.srcCtxNext (fun n p => some (Postorder.CtxState.new n p)) (Fail.postCtxNext bad)) k s =
        .ok (sourceReplies (fun n i => upTo (fun anc => anc.length ≤ 1) ((unfold n).lossyPostCtx bad [i] []).1) 0 ns)[k]? :=
  ⟨_, rfl, Fail.srcCtxCalls _ _ _ ns hl fun n hn i k => fail_postorder_context_at bad n (h n hn) i k⟩

example : (∀ n, some n ∈ lossyTrees → ArityOk n) ∧
    (answersE (Fail.srcCtxNext (fun n p => some (Postorder.CtxState.new n p)) (Fail.postCtxNext badNine)) 11
      ⟨lossyTrees, usizeMax, none⟩).map (·.map (·.map (·.map Ctx.placing))) =
    some [some none, some (some ([0, 0, 1], [0, 2])), some (some ([0, 0], [0])), some none, some (some ([1, 0], [7,
      8])), some (some ([1], [7])), none, none, none, none, none] :=
  ⟨lossyTrees_arity, by decide +kernel⟩

theorem fail_postorder_owned_context_at [TreeNode N V] (bad : N → Bool) (n : N) (h : ArityOk n) (i k : Nat) :
    nthCallE (Fail.postOwnCtxNext bad) k (Postorder.OwnCtxState.new n [i]) =
      .ok ((upTo (fun anc => anc.length ≤ 1) ((unfold n).lossyPostCtx bad [i] []).1).map (Option.map Ctx.noChildren))[k]? := by
  rw [List.getElem?_map]
  exact nthCallE_sim Postorder.CtxState.own _ (fun s o s1 => Fail.postOwnCtxNext_sim bad s s1 o) k _ _
    (fail_postorder_context_at bad n h i k)

/-- C76, postorder contexts of owned nodes: every answer. -/
theorem C76_postorder_owned_context_exact [TreeNode N V] (bad : N → Bool) (ns : List (Option N))
    (hl : (ns.filterMap id).length ≤ 2 ^ 64)
    (h : ∀ n, some n ∈ ns → ArityOk n) :
    ∃ s, Coll.attachContext (Coll.new (S := Postorder.State N V) ns) = .ok s ∧
      ∀ k, nthCallE (Fail.srcCtxNext (fun n p => some (Postorder.OwnCtxState.new n p)) (Fail.postOwnCtxNext bad)) k s =
        .ok (sourceReplies (fun n i =>
          (upTo (fun anc => anc.length ≤ 1) ((unfold n).lossyPostCtx bad [i] []).1).map (Option.map Ctx.noChildren)) 0 ns)[k]? :=
  ⟨_, rfl, Fail.srcCtxCalls _ _ _ ns hl fun n hn i k => fail_postorder_owned_context_at bad n (h n hn) i k⟩

example : (∀ n, some n ∈ lossyTrees → ArityOk n) ∧
    (answersE (Fail.srcCtxNext (fun n p => some (Postorder.OwnCtxState.new n p)) (Fail.postOwnCtxNext badNine)) 11
      ⟨lossyTrees, usizeMax, none⟩).map (·.map (·.map (·.map Ctx.placing))) =
    some [some none, some (some ([0, 0, 1], [0, 2])), some (some ([0, 0], [0])), some none, some (some ([1, 0], [7,
      8])), some (some ([1], [7])), none, none, none, none, none] :=
  ⟨lossyTrees_arity, by decide +kernel⟩

theorem fail_postorder_binary_context_at [BinNode N V] (bad : N → Bool) (n : N) (i k : Nat) :
    nthCallE (Fail.postBinCtxNext bad) k (Postorder.BinCtxState.new n [i]) =
      .ok (upTo (fun anc => anc.length ≤ 1) ((unfold2 n).lossyPostCtx bad [i] []).1)[k]? := by
  rw [nthCallE_spec Fail.LossyPostBinInv (Fail.lossyPostBinRem bad) (Fail.postBinCtxNext_lossy bad)
    (by simp [Fail.LossyPostBinInv, Postorder.BinCtxState.new])]
  rfl

/-- C76, postorder contexts of binary nodes: every answer. -/
theorem C76_postorder_binary_context_exact [BinNode N V] (bad : N → Bool) (ns : List (Option N))
    (hl : (ns.filterMap id).length ≤ 2 ^ 64) :
    ∃ s, Coll.attachContext (Coll.new (S := Postorder.State N V) ns) = .ok s ∧
      ∀ k, nthCallE (Fail.srcCtxNext (fun n p => some (Postorder.BinCtxState.new n p)) (Fail.postBinCtxNext bad)) k s =
        .ok (sourceReplies (fun n i => upTo (fun anc => anc.length ≤ 1) ((unfold2 n).lossyPostCtx bad [i] []).1) 0 ns)[k]? :=
  ⟨_, rfl, Fail.srcCtxCalls _ _ _ ns hl fun n _ i k => fail_postorder_binary_context_at bad n i k⟩

example : (answersE (Fail.srcCtxNext (fun n p => some (Postorder.BinCtxState.new n p)) (Fail.postBinCtxNext badNineBin)) 11
      ⟨lossyBins, usizeMax, none⟩).map (·.map (·.map (·.map Ctx.placing))) =
    some [some none, some (some ([0, 0, 1], [0, 2])), some (some ([0, 0], [0])), some none, some (some ([1, 1], [7,
      8])), some (some ([1], [7])), none, none, none, none, none] := by
  decide +kernel

theorem fail_postorder_binary_mut_context_at [BinNode N V] (bad : N → Bool) (n : N) (i k : Nat) :
    nthCallE (Fail.postMutBinCtxNext bad) k (Postorder.BinCtxState.new n [i]) =
      .ok (upTo (fun anc => anc.length ≤ 1) ((unfold2 n).lossyPostCtx bad [i] []).1)[k]? := by
  rw [nthCallE_spec Fail.LossyPostBinInv (Fail.lossyPostBinRem bad) (Fail.postMutBinCtxNext_lossy bad)
    (by simp [Fail.LossyPostBinInv, Postorder.BinCtxState.new])]
  rfl

/-- C76, postorder contexts of mutably borrowed binary nodes: every answer. -/
theorem C76_postorder_binary_mut_context_exact [BinNode N V] (bad : N → Bool) (ns : List (Option N))
    (hl : (ns.filterMap id).length ≤ 2 ^ 64) :
    ∃ s, Coll.attachContext (Coll.new (S := Postorder.State N V) ns) = .ok s ∧
      ∀ k, nthCallE (Fail.srcCtxNext (fun n p => some (Postorder.BinCtxState.new n p)) (Fail.postMutBinCtxNext bad)) k s =
        .ok (sourceReplies (fun n i => upTo (fun anc => anc.length ≤ 1) ((unfold2 n).lossyPostCtx bad [i] []).1) 0 ns)[k]? :=
  ⟨_, rfl, Fail.srcCtxCalls _ _ _ ns hl fun n _ i k => fail_postorder_binary_mut_context_at bad n i k⟩

example : (answersE (Fail.srcCtxNext (fun n p => some (Postorder.BinCtxState.new n p)) (Fail.postMutBinCtxNext badNineBin)) 11
      ⟨lossyBins, usizeMax, none⟩).map (·.map (·.map (·.map Ctx.placing))) =
    some [some none, some (some ([0, 0, 1], [0, 2])), some (some ([0, 0], [0])), some none, some (some ([1, 1], [7,
      8])), some (some ([1], [7])), none, none, none, none, none] := by
  decide +kernel

theorem fail_postorder_binary_owned_context_at [BinNode N V] (bad : N → Bool) (n : N) (i k : Nat) :
    nthCallE (Fail.postOwnBinCtxNext bad) k (Postorder.OwnBinCtxState.new n [i]) =
      .ok ((upTo (fun anc => anc.length ≤ 1) ((unfold2 n).lossyPostCtx bad [i] []).1).map (Option.map Ctx.noChildren))[k]? := by
  rw [List.getElem?_map]
  exact nthCallE_sim Postorder.BinCtxState.own _ (fun s o s1 => Fail.postOwnBinCtxNext_sim bad s s1 o) k _ _
    (fail_postorder_binary_context_at bad n i k)

/-- C76, postorder contexts of owned binary nodes: every answer. -/
theorem C76_postorder_binary_owned_context_exact [BinNode N V] (bad : N → Bool) (ns : List (Option N))
    (hl : (ns.filterMap id).length ≤ 2 ^ 64) :
    ∃ s, Coll.attachContext (Coll.new (S := Postorder.State N V) ns) = .ok s ∧
      ∀ k, nthCallE (Fail.srcCtxNext (fun n p => some (Postorder.OwnBinCtxState.new n p)) (Fail.postOwnBinCtxNext bad)) k s =
        .ok (sourceReplies (fun n i =>
          (upTo (fun anc => anc.length ≤ 1) ((unfold2 n).lossyPostCtx bad [i] []).1).map (Option.map Ctx.noChildren)) 0 ns)[k]? :=
  ⟨_, rfl, Fail.srcCtxCalls _ _ _ ns hl fun n _ i k => fail_postorder_binary_owned_context_at bad n i k⟩

example : (answersE (Fail.srcCtxNext (fun n p => some (Postorder.OwnBinCtxState.new n p)) (Fail.postOwnBinCtxNext badNineBin)) 11
      ⟨lossyBins, usizeMax, none⟩).map (·.map (·.map (·.map Ctx.placing))) =
    some [some none, some (some ([0, 0, 1], [0, 2])), some (some ([0, 0], [0])), some none, some (some ([1, 1], [7,
      8])), some (some ([1], [7])), none, none, none, none, none] := by
  decide +kernel

end TreeIter
