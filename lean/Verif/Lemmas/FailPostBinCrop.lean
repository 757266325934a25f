import Verif.Lemmas.FailCropBin
import Verif.Model.FailPostBin

/-! # Binary postorder contexts up to the first panic of the user's code -/

universe u v

namespace TreeIter

namespace Fail

variable {N : Type u} {V : Type v} [BinNode N V]

theorem slots_bad {bad : N → Bool} (c : CropB bad) (h : bad c.node = true) : slots c = [none, none] := by
  rw [slots, split2_crop, if_pos h]

theorem slots_good {bad : N → Bool} (c : CropB bad) (h : bad c.node = false) :
    (slots c).map (Option.map CropB.node) = slots c.node := by
  have := split2_good c h
  simp only [pairNodes, Prod.ext_iff] at this
  simp [slots, this.1, this.2]

/-- States of the two iterators before any panic. -/
def PostBinCtxR (bad : N → Bool) (c : Postorder.BinCtxState (CropB bad) N) (s : Postorder.BinCtxState N V) : Prop :=
  s = ⟨c.root.map CropB.node, slotNodes c.stack, c.into.map pairNodes, c.path, c.ancestors.map val2,
    c.children.map pairNodes⟩ ∧ ∀ x ∈ c.ancestors, bad x = false

theorem postBinCtxLoop_sim (bad : N → Bool) (ch : Option (Option N × Option N)) (stack : List (List (Option (CropB bad))))
    (into : List (Option (CropB bad) × Option (CropB bad))) (path : List Nat) (anc : List N) (h : ∀ x ∈ anc, bad x = false)
    (r : Postorder.BinCtxState (CropB bad) N) (hr : Postorder.binCtxLoop stack into path anc = .ok r) :
    ∃ b s, postBinCtxLoop bad ch (slotNodes stack) (into.map pairNodes) path (anc.map (val2 : N → V)) = .ok (b, s) ∧
      (b = true → ∃ x xs, r.ancestors = x :: xs ∧ bad x = true) ∧ (b = false → PostBinCtxR bad r s) := by
  fun_induction Postorder.binCtxLoop stack into path anc with
  | case1 n ns rest into p path anc ih =>
    rw [val2_crop] at ih hr
    by_cases hb : bad n.node = true
    · refine ⟨true, ?_⟩
      rw [slots_bad n hb, Postorder.binCtxLoop, Postorder.binCtxLoop, Postorder.binCtxLoop] at hr
      cases hr
      simp [postBinCtxLoop, hb]
    · have hb' : bad n.node = false := by simpa using hb
      obtain ⟨b, s, e⟩ := ih (by simpa [hb'] using h) hr
      refine ⟨b, s, ?_, e.2⟩
      have e1 := e.1
      simp only [List.map_cons, slots_good n hb', split2_good n hb'] at e1
      simp only [List.map_cons, Option.map_some]
      rw [postBinCtxLoop, if_neg hb]
      exact e1
  | case2 ns rest into p path anc ih =>
    obtain ⟨b, s, e⟩ := ih h hr
    refine ⟨b, s, ?_, e.2⟩
    simp only [List.map_cons, Option.map_none]
    rw [postBinCtxLoop]
    exact e.1
  | case3 => cases hr
  | case4 rest c into path anc =>
    cases hr
    exact ⟨false, _, by simp only [List.map_cons, List.map_nil]; rw [postBinCtxLoop]; rfl, by simp, fun _ => ⟨rfl, h⟩⟩
  | case5 c into path anc =>
    cases hr
    exact ⟨false, _, by simp only [List.map_cons, List.map_nil]; rw [postBinCtxLoop]; rfl, by simp, fun _ => ⟨rfl, h⟩⟩
  | case6 => cases hr
  | case7 => cases hr

theorem postBinCtx_step (bad : N → Bool) (c : Postorder.BinCtxState (CropB bad) N) (s : Postorder.BinCtxState N V)
    (o : Option (Ctx N (Option (CropB bad) × Option (CropB bad)))) (c' : Postorder.BinCtxState (CropB bad) N)
    (h : PostBinCtxR bad c s) (hc : Postorder.binCtxNext c = .ok (o, c')) :
    ∃ s', postBinCtxNext bad s = .ok (o.map (repC2 bad), s') ∧ (o.map (repC2 bad) ≠ some none → PostBinCtxR bad c' s') := by
  have fin : ∀ (c' : Postorder.BinCtxState (CropB bad) N) (s s' : Postorder.BinCtxState N V) (b : Bool),
      postBinCtxAdvance bad s = .ok (b, s') →
      (b = true → ∃ x xs, c'.ancestors = x :: xs ∧ bad x = true) → (b = false → PostBinCtxR bad c' s') →
      ∃ s', postBinCtxNext bad s = .ok ((Postorder.binCtxGet c').map (repC2 bad), s') ∧
        ((Postorder.binCtxGet c').map (repC2 bad) ≠ some (none : Option (Ctx V (Option N × Option N))) →
          PostBinCtxR bad c' s') := by
    intro c' s s' b hs h1 h2
    refine ⟨s', ?_⟩
    rw [postBinCtxNext, streamNextE, hs]
    cases b with
    | true =>
      obtain ⟨x, xs, e1, e2⟩ := h1 rfl
      simp [Postorder.binCtxGet, e1, repC2, e2]
    | false =>
      obtain ⟨rfl, e2⟩ := h2 rfl
      refine ⟨?_, fun _ => h2 rfl⟩
      cases hr : c'.ancestors with
      | nil => simp [Postorder.binCtxGet, hr]
      | cons x xs =>
        have := e2 x (by simp [hr])
        simp [Postorder.binCtxGet, repC2, this, hr]
  have hadv : ∃ c1, Postorder.binCtxAdvance c = .ok c1 ∧ c' = c1 ∧ o = Postorder.binCtxGet c1 := by
    rw [Postorder.binCtxNext, TreeIter.streamNextE] at hc
    cases ha : Postorder.binCtxAdvance c with
    | error e => rw [ha] at hc; cases hc
    | ok c1 => rw [ha] at hc; cases hc; exact ⟨_, rfl, rfl, rfl⟩
  obtain ⟨c1, ha, rfl, rfl⟩ := hadv
  obtain ⟨root, stack, into, path, anc, ch⟩ := c
  obtain ⟨rfl, hg⟩ := h
  simp only at hg
  cases root with
  | none =>
    simp only [Postorder.binCtxAdvance] at ha
    by_cases he : anc.tail.isEmpty
    · rw [if_pos he] at ha
      cases ha
      refine fin _ _ ⟨none, slotNodes stack, into.map pairNodes, path, (anc.map val2).tail, ch.map pairNodes⟩ false ?_
        (by simp) (fun _ => ⟨by simp, fun x hx => hg x (List.mem_of_mem_tail hx)⟩)
      simp only [postBinCtxAdvance, Option.map_none]
      rw [if_pos (by rw [List.isEmpty_iff] at he ⊢; rw [← List.map_tail, he]; rfl)]
    · rw [if_neg he] at ha
      obtain ⟨b, s', e1, e2, e3⟩ := postBinCtxLoop_sim (V := V) bad (ch.map pairNodes) stack into path anc.tail
        (fun x hx => hg x (List.mem_of_mem_tail hx)) _ ha
      refine fin _ _ s' b ?_ e2 e3
      simp only [postBinCtxAdvance, Option.map_none]
      rw [← List.map_tail, if_neg (fun hh => he (by
        rw [List.isEmpty_iff] at hh ⊢
        exact List.map_eq_nil_iff.1 hh))]
      exact e1
  | some r =>
    simp only [Postorder.binCtxAdvance] at ha
    rw [val2_crop] at ha
    by_cases hb : bad r.node = true
    · rw [slots_bad r hb, Postorder.binCtxLoop, Postorder.binCtxLoop, Postorder.binCtxLoop] at ha
      cases ha
      refine fin _ _ ⟨none, slotNodes stack, into.map pairNodes, path, anc.map val2, ch.map pairNodes⟩ true ?_
        (fun _ => ⟨_, _, rfl, hb⟩) (by simp)
      simp [postBinCtxAdvance, hb]
    · have hb' : bad r.node = false := by simpa using hb
      obtain ⟨b, s', e1, e2, e3⟩ := postBinCtxLoop_sim (V := V) bad (ch.map pairNodes) _ _ _ _
        (by simpa [hb'] using hg) _ ha
      refine fin _ _ s' b ?_ e2 e3
      simp only [List.map_cons, slots_good r hb', split2_good r hb'] at e1
      simp only [postBinCtxAdvance, Option.map_some]
      rw [if_neg hb]
      exact e1

end Fail

end TreeIter
