import Verif.Spec.Shared

/-!
# Nodes that share state: helper lemmas
-/

universe u v w x y

namespace TreeIter

namespace Shared

variable {W : Type x} {N : Type u} {V : Type v} {I : Type w} {S : Type y} {O : Type v}

/-! ## The visitor with an explicit stack -/

/-- A call of the visitor that is under way. -/
structure Frame (V : Type v) (I : Type w) where
  value : V
  had : Bool
  iter : I

/-- The visitor, with the calls under way on a stack. -/
inductive Run (N : Type u) [SharedNode W N V I] (h : Hooks W V) : List (Frame V I) → W → Bool → W → Prop
  | ended {w : W} : Run N h [] w true w
  | halt {f : Frame V I} {fs : List (Frame V I)} {i' : I} {w w1 w2 : W} : pollW (N := N) f.iter w = (none, i', w1) →
      h.leave f.had f.value (fs.map Frame.value) w1 = (false, w2) → Run N h (f :: fs) w false w2
  | done {f : Frame V I} {fs : List (Frame V I)} {i' : I} {w w1 w2 w3 : W} {b : Bool} :
      pollW (N := N) f.iter w = (none, i', w1) → h.leave f.had f.value (fs.map Frame.value) w1 = (true, w2) →
      Run N h fs w2 b w3 → Run N h (f :: fs) w b w3
  | stop {f : Frame V I} {fs : List (Frame V I)} {c : N} {i' j : I} {v : V} {w w1 w2 w3 : W} :
      pollW f.iter w = (some c, i', w1) → splitW c w1 = (v, j, w2) →
      h.enter v (f.value :: fs.map Frame.value) w2 = (false, w3) → Run N h (f :: fs) w false w3
  | child {f : Frame V I} {fs : List (Frame V I)} {c : N} {i' j : I} {v : V} {w w1 w2 w3 w4 : W} {b : Bool} :
      pollW f.iter w = (some c, i', w1) → splitW c w1 = (v, j, w2) →
      h.enter v (f.value :: fs.map Frame.value) w2 = (true, w3) →
      Run N h (⟨v, false, j⟩ :: ⟨f.value, true, i'⟩ :: fs) w3 b w4 → Run N h (f :: fs) w b w4

/-- The calls under way, one after the other. -/
def Each (N : Type u) [SharedNode W N V I] (h : Hooks W V) : List (Frame V I) → W → Bool → W → Prop
  | [], w, b, w' => b = true ∧ w' = w
  | f :: fs, w, b, w' =>
    (b = false ∧ Visit (N := N) h (.rest f.value (fs.map Frame.value) f.had f.iter) w false w') ∨
      ∃ w1, Visit (N := N) h (.rest f.value (fs.map Frame.value) f.had f.iter) w true w1 ∧ Each N h fs w1 b w'

theorem each_of_run [SharedNode W N V I] {h : Hooks W V} {fs : List (Frame V I)} {w w' : W} {b : Bool}
    (hr : Run N h fs w b w') : Each N h fs w b w' := by
  induction hr with
  | ended => exact ⟨rfl, rfl⟩
  | halt h1 h2 => exact .inl ⟨rfl, .done h1 h2⟩
  | done h1 h2 _ ih => exact .inr ⟨_, .done h1 h2, ih⟩
  | stop h1 h2 h3 => exact .inl ⟨rfl, .stop h1 (.halt h2 h3)⟩
  | child h1 h2 h3 _ ih =>
    rcases ih with ⟨rfl, hv⟩ | ⟨w5, hv, ⟨rfl, hv'⟩ | ⟨w6, hv', he⟩⟩
    · exact .inl ⟨rfl, .stop h1 (.node h2 h3 hv)⟩
    · exact .inl ⟨rfl, .child h1 (.node h2 h3 hv) hv'⟩
    · exact .inr ⟨w6, .child h1 (.node h2 h3 hv) hv', he⟩

/-- Visiting leads from what is visited to what comes after it. -/
def Leads (N : Type u) [SharedNode W N V I] (h : Hooks W V) : Task N V I → W → Bool → W → Prop
  | .rest v as had i, w, b, w' => ∀ fs : List (Frame V I), fs.map Frame.value = as →
      (b = false → Run N h (⟨v, had, i⟩ :: fs) w false w') ∧
        ∀ b' w'', b = true → Run N h fs w' b' w'' → Run N h (⟨v, had, i⟩ :: fs) w b' w''
  | .node as n, w, b, w' => ∀ (v : V) (i : I) (w1 : W), splitW n w = (v, i, w1) →
      (∃ w2, h.enter v as w1 = (false, w2) ∧ b = false ∧ w' = w2) ∨
        ∃ w2, h.enter v as w1 = (true, w2) ∧ ∀ fs : List (Frame V I), fs.map Frame.value = as →
          (b = false → Run N h (⟨v, false, i⟩ :: fs) w2 false w') ∧
            ∀ b' w'', b = true → Run N h fs w' b' w'' → Run N h (⟨v, false, i⟩ :: fs) w2 b' w''

theorem leads_of_visit [SharedNode W N V I] {h : Hooks W V} {t : Task N V I} {w w' : W} {b : Bool}
    (hv : Visit h t w b w') : Leads N h t w b w' := by
  induction hv with
  | halt h1 h2 =>
    intro v i w1 hs
    rw [h1] at hs
    cases hs
    exact .inl ⟨_, h2, rfl, rfl⟩
  | node h1 h2 _ ih =>
    intro v i w1 hs
    rw [h1] at hs
    cases hs
    exact .inr ⟨_, h2, ih⟩
  | done h1 h2 =>
    intro fs hf
    subst hf
    refine ⟨fun hb => ?_, fun b' w'' hb hr => ?_⟩
    · subst hb; exact .halt h1 h2
    · subst hb; exact .done h1 h2 hr
  | @stop as v had i i' c w w1 w2 h1 _ ih =>
    intro fs hf
    subst hf
    refine ⟨fun _ => ?_, fun _ _ hb => by cases hb⟩
    rcases hs : splitW (I := I) c w1 with ⟨v', j, w3⟩
    rcases ih v' j w3 hs with ⟨w4, h2, -, rfl⟩ | ⟨w4, h2, h3⟩
    · exact .stop h1 hs h2
    · exact .child h1 hs h2 ((h3 (⟨v, true, i'⟩ :: fs) rfl).1 rfl)
  | @child as v had i i' c w w1 w2 w3 b h1 _ _ ih1 ih2 =>
    intro fs hf
    subst hf
    rcases hs : splitW (I := I) c w1 with ⟨v', j, w4⟩
    rcases ih1 v' j w4 hs with ⟨w5, h2, hb, -⟩ | ⟨w5, h2, h3⟩
    · cases hb
    · refine ⟨fun hb => ?_, fun b' w'' hb hr => ?_⟩
      · exact .child h1 hs h2 ((h3 (⟨v, true, i'⟩ :: fs) rfl).2 _ _ rfl ((ih2 fs rfl).1 hb))
      · exact .child h1 hs h2 ((h3 (⟨v, true, i'⟩ :: fs) rfl).2 _ _ rfl ((ih2 fs rfl).2 _ _ hb hr))

/-- A visit from the root, when the root has been asked and `enter` has gone on. -/
theorem visit_root_iff [SharedNode W N V I] {h : Hooks W V} {v : V} {i : I} {w w' : W} {b : Bool} :
    Visit (N := N) h (.rest v [] false i) w b w' ↔ Run N h [⟨v, false, i⟩] w b w' := by
  constructor
  · intro hv
    have hl := leads_of_visit hv [] rfl
    cases b with
    | false => exact hl.1 rfl
    | true => exact hl.2 _ _ rfl .ended
  · intro hr
    rcases each_of_run hr with ⟨rfl, hv⟩ | ⟨w1, hv, rfl, rfl⟩
    · exact hv
    · exact hv

/-! ## `for` loops -/

theorem conclude_mono {again again' : S → W → Option (Bool × W)} {body : Body W O} {x x' : Option (Option O × S × W)}
    (h : ∀ s w r, again s w = some r → again' s w = some r) (hx : ∀ y, x = some y → x' = some y) {r : Bool × W}
    (hc : conclude again body x = some r) : conclude again' body x' = some r := by
  cases x with
  | none => simp [conclude] at hc
  | some y =>
    rw [hx y rfl]
    obtain ⟨_ | o, s, w⟩ := y
    · exact hc
    · simp only [conclude] at hc ⊢
      rcases hb : body o w with ⟨_ | _, w1⟩
      · simpa [hb] using hc
      · simp only [hb] at hc ⊢
        exact h _ _ _ hc

theorem forLoop_mono {next next' : S → W → Option (Option O × S × W)} {body : Body W O}
    (h : ∀ s w r, next s w = some r → next' s w = some r) (k : Nat) :
    ∀ s w r, forLoop next body k s w = some r → forLoop next' body k s w = some r := by
  induction k with
  | zero => intro s w r hr; simp [forLoop] at hr
  | succ k ih =>
    intro s w r hr
    exact conclude_mono ih (fun y hy => h s w y hy) hr

/-! ## Preorder -/

/-- The body as a hook. -/
def plain (body : Body W V) : V → List V → W → Bool × W := fun v _ => body v

theorem pre_frames [SharedNode W N V I] (body : Body W V) (k : Nat) : ∀ (fs : List (Frame V I)) (w : W) (b : Bool) (w' : W),
    forLoop preNext body k (⟨none, fs.map Frame.iter⟩ : Pre N I) w = some (b, w') →
      Run N (.before (plain body)) fs w b w' := by
  induction k with
  | zero => intro fs w b w' h; simp [forLoop] at h
  | succ k ih =>
    intro fs
    induction fs with
    | nil =>
      intro w b w' h
      simp only [forLoop, preNext, preLoop, List.map_nil, conclude, Option.some.injEq, Prod.mk.injEq] at h
      obtain ⟨rfl, rfl⟩ := h
      exact .ended
    | cons f fs ihf =>
      intro w b w' h
      rcases hp : pollW (N := N) f.iter w with ⟨_ | c, i', w1⟩
      · refine .done hp rfl (ihf w1 b w' ?_)
        simpa only [forLoop, preNext, preLoop, List.map_cons, hp] using h
      · rcases hs : splitW (I := I) c w1 with ⟨v, j, w2⟩
        simp only [forLoop, preNext, preLoop, List.map_cons, hp, hs, conclude] at h
        rcases hb : body v w2 with ⟨_ | _, w3⟩
        · simp only [hb, Option.some.injEq, Prod.mk.injEq] at h
          obtain ⟨rfl, rfl⟩ := h
          exact .stop hp hs hb
        · simp only [hb] at h
          exact .child hp hs hb (ih (⟨v, false, j⟩ :: ⟨f.value, true, i'⟩ :: fs) w3 b w' h)

theorem pre_loop [SharedNode W N V I] {body : Body W V} {fs : List (Frame V I)} {w w' : W} {b : Bool}
    (h : Run N (.before (plain body)) fs w b w') :
    ∃ k, forLoop preNext body (k + 1) (⟨none, fs.map Frame.iter⟩ : Pre N I) w = some (b, w') := by
  induction h with
  | ended => exact ⟨0, by simp [forLoop, preNext, preLoop, conclude]⟩
  | halt _ h2 => cases h2
  | done h1 h2 _ ih =>
    obtain ⟨k, hk⟩ := ih
    cases h2
    exact ⟨k, by simpa only [forLoop, preNext, preLoop, List.map_cons, h1] using hk⟩
  | stop h1 h2 h3 =>
    have h3 : body _ _ = _ := h3
    exact ⟨0, by simp only [forLoop, preNext, preLoop, List.map_cons, h1, h2, conclude, h3]⟩
  | child h1 h2 h3 _ ih =>
    obtain ⟨k, hk⟩ := ih
    have h3 : body _ _ = _ := h3
    refine ⟨k + 1, ?_⟩
    rw [forLoop]
    simp only [preNext, preLoop, List.map_cons, h1, h2, conclude, h3]
    exact hk

end Shared

end TreeIter
