import Verif.Lemmas.FailPostBin
import Verif.Lemmas.FailPostBinCrop
import Verif.Lemmas.FailBfsBin
import Verif.Props.BreadthFirstCtx
import Verif.Props.FailAfter

/-!
# C62: the other contexts after a caught panic

Postorder of binary nodes (borrowed, mutably borrowed, owned) and of owned nodes with any number of children: what every call
answers, for every tree and every set of nodes at which the user's code panics.  Breadth-first of binary nodes: up to the first
panic, and that every call after it panics.
-/

universe u v

namespace TreeIter

variable {N : Type u} {V : Type v}

/-- C62 fails for binary postorder contexts too: 2 and 1 lack an ancestor, 1 is taken for the root, 3 and the root are never
answered. -/
theorem C62_postorder_context_binary_false :
    (answersE (Fail.postBinCtxNext badNineBin) 5
        (Postorder.BinCtxState.new (.node 0 (some (.node 1 (some (.node 9 none none)) (some (.node 2 none none))))
          (some (.node 3 none none)) : BinTree Nat) [])).map (·.map (·.map (·.map Ctx.brief2))) =
      some [some none, some (some ⟨[0, 1], [0, 2], some (false, false)⟩), some (some ⟨[0], [0], some (true, true)⟩), none, none] ∧
    (((unfold2 (.node 0 (some (.node 1 (some (.node 9 none none)) (some (.node 2 none none))))
        (some (.node 3 none none)) : BinTree Nat)).crop badNineBin).located.toTree.postorder.map
          (replyPos badNineBin Pos.ctx2)).map (·.map Ctx.brief2) =
      [none, some ⟨[0, 1], [0, 1, 2], some (false, false)⟩, some ⟨[0], [0, 1], some (true, true)⟩,
        some ⟨[1], [0, 3], some (false, false)⟩, some ⟨[], [0], some (true, true)⟩] := by decide +kernel

/-- C62, binary postorder with context, up to the first panic. -/
theorem C62_postorder_context_binary_partial [BinNode N V] (bad : N → Bool) (n : N) :
    ∃ s, Postorder.binAttachContext (Postorder.new n) = .ok s ∧
      ∀ l, l = ((unfold2 n).crop bad).located.toTree.postorder.map (replyPos bad Pos.ctx2) →
        ∀ k, (∀ j < k, l[j]? ≠ some none) → nthCallE (Fail.postBinCtxNext bad) k s = .ok l[k]? := by
  refine ⟨_, rfl, ?_⟩
  rintro l rfl k hk
  rw [← Tree.postorder_map, ← BinTree.toTree_map, ← Fail.located_repC2, BinTree.toTree_map, Tree.postorder_map,
    BinTree.toTree_map, Tree.postorder_map] at hk ⊢
  obtain ⟨c, hc, hl⟩ := C12_postorder_context_binary (Fail.CropB.mk n : Fail.CropB bad)
  cases hc
  exact Fail.nthCallE_until_fail (Fail.repC2 bad) (Fail.PostBinCtxR bad) (Fail.postBinCtx_step bad) k _ _
    ⟨rfl, by simp [Postorder.BinCtxState.new]⟩ _ hl hk

/-- The first panic of `sampleBin` with `sampleBadBin` is the first call; with only 4 bad it is the third. -/
example : (((unfold2 sampleBin).crop fun n => (split2 n).1 == 4).located.toTree.postorder.map
      (replyPos (fun n => (split2 n).1 == 4) Pos.ctx2)).map (·.map Ctx.brief2) =
    [some ⟨[0, 1], [0, 1, 3], some (false, false)⟩, some ⟨[0], [0, 1], some (false, true)⟩, none,
      some ⟨[1], [0, 2], some (true, false)⟩, some ⟨[], [0], some (true, true)⟩] := by decide +kernel

/-- C62, binary postorder with context: every answer. -/
theorem C62_postorder_context_binary_exact [BinNode N V] (bad : N → Bool) (n : N) :
    ∃ s, Postorder.binAttachContext (Postorder.new n) = .ok s ∧
      ∀ k, nthCallE (Fail.postBinCtxNext bad) k s =
        .ok (upTo (fun anc => anc.length ≤ 1) ((unfold2 n).lossyPostCtx bad [] []).1)[k]? := by
  refine ⟨_, rfl, fun k => ?_⟩
  rw [nthCallE_spec Fail.LossyPostBinInv (Fail.lossyPostBinRem bad) (Fail.postBinCtxNext_lossy bad)
    (by simp [Fail.LossyPostBinInv, Postorder.BinCtxState.new])]
  rfl

/-- The same for mutably borrowed nodes. -/
theorem C62_postorder_context_binary_mut_exact [BinNode N V] (bad : N → Bool) (n : N) :
    ∃ s, Postorder.binAttachContext (Postorder.new n) = .ok s ∧
      ∀ k, nthCallE (Fail.postMutBinCtxNext bad) k s =
        .ok (upTo (fun anc => anc.length ≤ 1) ((unfold2 n).lossyPostCtx bad [] []).1)[k]? := by
  refine ⟨_, rfl, fun k => ?_⟩
  rw [nthCallE_spec Fail.LossyPostBinInv (Fail.lossyPostBinRem bad) (Fail.postMutBinCtxNext_lossy bad)
    (by simp [Fail.LossyPostBinInv, Postorder.BinCtxState.new])]
  rfl

/-- The same for owned nodes, whose contexts never have children. -/
theorem C62_postorder_context_binary_owned_exact [BinNode N V] (bad : N → Bool) (n : N) :
    ∃ s, Postorder.ownBinAttachContext (Postorder.new n) = .ok s ∧
      ∀ k, nthCallE (Fail.postOwnBinCtxNext bad) k s =
        .ok ((upTo (fun anc => anc.length ≤ 1) ((unfold2 n).lossyPostCtx bad [] []).1).map
          (Option.map Ctx.noChildren))[k]? := by
  refine ⟨_, rfl, fun k => ?_⟩
  obtain ⟨s, hs, hk⟩ := C62_postorder_context_binary_exact bad n
  cases hs
  rw [List.getElem?_map]
  exact nthCallE_sim Postorder.BinCtxState.own _ (fun s o s1 => Fail.postOwnBinCtxNext_sim bad s s1 o) k _ _ (hk k)

/-- 9 below 1 costs 2 and 1 an ancestor; 1 is taken for the root, which is not reached. -/
example :
    ((upTo (fun anc => anc.length ≤ 1)
      ((unfold2 (.node 0 (some (.node 4 none none)) (some (.node 1 (some (.node 9 none none)) (some (.node 2 none none)))) :
        BinTree Nat)).lossyPostCtx badNineBin [] []).1).map (·.map Ctx.brief2)) =
    [some ⟨[0], [0, 4], some (false, false)⟩, none, some ⟨[1, 1], [0, 2], some (false, false)⟩,
      some ⟨[1], [0], some (true, true)⟩] ∧
    (answersE (Fail.postOwnBinCtxNext badNineBin) 5
      (Postorder.OwnBinCtxState.new (.node 0 (some (.node 4 none none)) (some (.node 1 (some (.node 9 none none)) (some (.node 2 none none)))) :
        BinTree Nat) [])).map (·.map (·.map (·.map Ctx.brief2))) =
      some [some (some ⟨[0], [0, 4], none⟩), some none, some (some ⟨[1, 1], [0, 2], none⟩), some (some ⟨[1], [0], none⟩), none] ∧
    (answersE (Fail.postMutBinCtxNext badNineBin) 5
      (Postorder.BinCtxState.new (.node 0 (some (.node 4 none none)) (some (.node 1 (some (.node 9 none none)) (some (.node 2 none none)))) :
        BinTree Nat) [])).map (·.map (·.map (·.map Ctx.brief2))) =
      some [some (some ⟨[0], [0, 4], some (false, false)⟩), some none, some (some ⟨[1, 1], [0, 2], some (false, false)⟩),
        some (some ⟨[1], [0], some (true, true)⟩), none] := by decide +kernel

/-- C62, postorder with context of owned nodes with any number of children: every answer. -/
theorem C62_postorder_context_owned_exact [TreeNode N V] (bad : N → Bool) (n : N) (h : ArityOk n) :
    ∃ s, Postorder.ownAttachContext (Postorder.new n) = .ok s ∧
      ∀ k, nthCallE (Fail.postOwnCtxNext bad) k s =
        .ok ((upTo (fun anc => anc.length ≤ 1) ((unfold n).lossyPostCtx bad [] []).1).map (Option.map Ctx.noChildren))[k]? := by
  refine ⟨_, rfl, fun k => ?_⟩
  obtain ⟨s, hs, hk⟩ := C62_postorder_context_exact bad n h
  cases hs
  rw [List.getElem?_map]
  exact nthCallE_sim Postorder.CtxState.own _ (fun s o s1 => Fail.postOwnCtxNext_sim bad s s1 o) k _ _ (hk k)

/-- As for borrowed nodes: 1 is taken for the root. -/
example : ArityOk sampleTree ∧ (answersE (Fail.postOwnCtxNext badNine) 5
      (Postorder.OwnCtxState.new (.node 0 [.node 5 [], .node 1 [.node 9 [], .node 2 []], .node 3 []] : Tree Nat) [])).map
        (·.map (·.map (·.map Ctx.brief))) =
    some [some (some ⟨[0], [0, 5], none⟩), some none, some (some ⟨[1, 1], [0, 2], none⟩), some (some ⟨[1], [0], none⟩), none] :=
  ⟨sampleTree_arity, by decide +kernel⟩

/-- C62, binary postorder with context: from some call on the answer is `None`; before that the replies are those for the
nodes in their order, with their paths and children, and the ancestors are some of the real ones, in their order. -/
theorem C62_postorder_context_binary_order [BinNode N V] (bad : N → Bool) (n : N) :
    ∃ s, Postorder.binAttachContext (Postorder.new n) = .ok s ∧ ∃ m, ∀ k,
      (m ≤ k → nthCallE (Fail.postBinCtxNext bad) k s = .ok none) ∧
      (k < m → ∃ q, ((unfold2 n).crop bad).located.toTree.postorder[k]? = some q ∧ ∃ anc : List V,
        anc.Sublist (q.ancestors.map val2) ∧
        nthCallE (Fail.postBinCtxNext bad) k s =
          .ok (some (replyPos bad (fun q => ⟨q.path, anc, some (split2 q.item).2⟩) q))) := by
  obtain ⟨s, hs, hk⟩ := C62_postorder_context_binary_exact bad n
  refine ⟨s, hs, ?_⟩
  obtain ⟨m, hm⟩ := Fail.upTo_take (fun anc => anc.length ≤ 1) ((unfold2 n).lossyPostCtx bad [] []).1
  have hf := (Fail.lossyPostCtx_fits2 bad [] [] [] (List.Sublist.refl _) (unfold2 n)).1
  refine ⟨min m ((unfold2 n).lossyPostCtx bad [] []).1.length, fun k => ⟨fun h => ?_, fun h => ?_⟩⟩
  · rw [hk, hm, List.getElem?_eq_none (by simpa using h)]
  · rw [Nat.lt_min] at h
    obtain ⟨h1, h2⟩ := h
    rcases Fail.forall₂_getElem hf k with ⟨e, _⟩ | ⟨⟨anc, o⟩, q, e1, e2, e3, e4⟩
    · rw [List.getElem?_eq_none_iff] at e; omega
    · refine ⟨q, e2, anc, e4, ?_⟩
      rw [hk, hm, List.getElem?_map, List.getElem?_take_of_lt h1, e1]
      obtain rfl : o = _ := e3
      simp only [replyPos]
      split <;> rfl

/-! ## Breadth-first -/

/-- C62 fails for breadth-first contexts of binary nodes: every call after the first panic panics too. -/
theorem C62_bfs_context_binary_false :
    (List.range 5).map (fun k => (nthCallE (Fail.bfsBinCtxNext badNineBin) k
        (Bfs.CtxState.binNew (.node 0 (some (.node 9 none none)) (some (.node 1 none none)) : BinTree Nat) [])).toOption.map
          (·.map (·.map Ctx.brief2))) =
      [some (some (some ⟨[], [0], some (true, true)⟩)), some (some none), none, none, none] ∧
    (((unfold2 (.node 0 (some (.node 9 none none)) (some (.node 1 none none)) : BinTree Nat)).crop
        badNineBin).located.toTree.levelOrder.map (replyPos badNineBin Pos.ctx2)).map (·.map Ctx.brief2) =
      [some ⟨[], [0], some (true, true)⟩, none, some ⟨[1], [0, 1], some (false, false)⟩] := by decide +kernel

/-- C62, binary breadth-first with context, up to the first panic.  `attach_context` calls the user's code for the root. -/
theorem C62_bfs_context_binary_partial [BinNode N V] (bad : N → Bool) (n : N) (hb : bad n = false) :
    ∃ s, Bfs.binAttachContext (Bfs.new n) = .ok s ∧
      ∀ l, l = ((unfold2 n).crop bad).located.toTree.levelOrder.map (replyPos bad Pos.ctx2) →
        ∀ k, (∀ j < k, l[j]? ≠ some none) → nthCallE (Fail.bfsBinCtxNext bad) k s = .ok l[k]? := by
  refine ⟨_, rfl, ?_⟩
  rintro l rfl k hk
  rw [← Tree.levelOrder_map, ← BinTree.toTree_map, ← Fail.located_repC2, BinTree.toTree_map, Tree.levelOrder_map,
    BinTree.toTree_map, Tree.levelOrder_map] at hk ⊢
  obtain ⟨c, hc, hl⟩ := C14_bfs_context_binary (Fail.CropB.mk n : Fail.CropB bad)
  cases hc
  exact Fail.nthCallE_until_fail (Fail.repC2 bad) (Fail.BfsBinCtxR bad) (Fail.bfsBinCtx_step bad) k _ _
    (Fail.bfsBinCtxR_new bad n hb) _ hl hk

example : sampleBadBin sampleBin = false ∧
    (((unfold2 sampleBin).crop sampleBadBin).located.toTree.levelOrder.map (replyPos sampleBadBin Pos.ctx2)).map
      (·.map Ctx.brief2) =
      [some ⟨[], [0], some (true, true)⟩, some ⟨[0], [0, 1], some (false, true)⟩, none, none] := by decide +kernel

/-- C62 fails for binary breadth-first contexts on every tree: after the first panic the iterator is in a state in which `next`
panics at an `unwrap` before it has changed anything. -/
theorem C62_bfs_context_binary_dead [BinNode N V] (bad : N → Bool) (n : N) (hb : bad n = false) (k : Nat)
    (l : List (Option (Ctx V (Option N × Option N))))
    (hl : l = ((unfold2 n).crop bad).located.toTree.levelOrder.map (replyPos bad Pos.ctx2))
    (hk : ∀ j < k, l[j]? ≠ some none) (hlk : l[k]? = some none) :
    ∃ s s', Bfs.binAttachContext (Bfs.new n) = .ok s ∧ stateAfterE (Fail.bfsBinCtxNext bad) (k + 1) s = .ok s' ∧
      Fail.bfsBinCtxNext bad s' = .error .unwrapNone := by
  rw [← Tree.levelOrder_map, ← BinTree.toTree_map, ← Fail.located_repC2, BinTree.toTree_map, Tree.levelOrder_map,
    BinTree.toTree_map, Tree.levelOrder_map] at hl
  obtain ⟨c, hc, hcl⟩ := C14_bfs_context_binary (Fail.CropB.mk n : Fail.CropB bad)
  obtain ⟨c', hc', hlead⟩ := C15_bfs_binary (Fail.CropB.mk n : Fail.CropB bad)
  cases hc
  cases hc'
  rw [hl] at hk hlk
  obtain ⟨c1, c2, s1, s2, e1, e2, e3, e4⟩ := Fail.stateAfterE_until_fail (Fail.repC2 bad) (Fail.BfsBinCtxR bad)
    (Fail.bfsBinCtx_step bad) k _ _ (Fail.bfsBinCtxR_new bad n hb) _ hcl hk
  refine ⟨_, s2, rfl, e3, ?_⟩
  rw [hlk] at e4
  rw [List.getElem?_map] at e2 hlk
  cases hp : ((unfold2 (Fail.CropB.mk n : Fail.CropB bad)).located.toTree.levelOrder.map Pos.ctx2)[k]? with
  | none => rw [hp] at hlk; cases hlk
  | some p =>
    rw [List.getElem?_map] at hp
    rw [hp] at e2
    obtain ⟨h1, h2, h3⟩ := Fail.bfsBinCtx_failed bad _ _ _ _ _ e1 e2 e4
    refine Fail.bfsBinCtx_dead bad s2 h1 ?_ h2
    have hkp := hcl k
    rw [List.getElem?_map, hp] at hkp
    obtain ⟨m, q1, q2, -, -, q5⟩ := hlead k p hkp
    rw [List.getElem?_map, hp] at hlk
    have hpath : p.path ≠ [] := by
      intro he
      rw [he] at q1
      have q6 : Fail.CropB.mk n = m := Option.some.inj q1
      simp [Fail.repC2, q2, ← q6, Fail.val2_crop, hb] at hlk
    have h4 := List.length_pos_iff.2 hpath
    have h5 := q5 p.path.length (Nat.le_refl _)
    rw [List.take_length, q1, Option.map_some] at h5
    have h6 := (List.getElem?_eq_some_iff.1 h5).1
    intro he
    rw [he, List.length_nil] at h3
    omega

/-- In `sampleBin` with `sampleBadBin` the third call panics, and the next one panics in the crate itself. -/
example : (List.range 5).map (fun k => (nthCallE (Fail.bfsBinCtxNext sampleBadBin) k
      (Bfs.CtxState.binNew sampleBin [])).toOption.map (·.map (·.map Ctx.brief2))) =
    [some (some (some ⟨[], [0], some (true, true)⟩)), some (some (some ⟨[0], [0, 1], some (false, true)⟩)), some (some none),
      none, none] := by decide +kernel

end TreeIter
