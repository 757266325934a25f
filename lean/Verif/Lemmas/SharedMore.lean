import Verif.Lemmas.Shared

/-!
# Nodes that share state: helper lemmas for the other iterators
-/

universe u v w x y

namespace TreeIter

namespace Shared

variable {W : Type x} {N : Type u} {V : Type v} {I : Type w} {S : Type y} {O : Type v}

/-! ## Preorder with ancestors -/

/-- A body that is given slices, as a hook. -/
def sliced (body : Body W (List V)) : V → List V → W → Bool × W := fun v as => body (v :: as).reverse

theorem preAncNext_done [SharedNode W N V I] {i i' : I} {w w1 : W} (h : pollW (N := N) i w = (none, i', w1)) (st : List I)
    (v : V) (it : List V) :
    preAncNext (⟨none, i :: st, v :: it⟩ : PreAnc N V I) w = preAncNext ⟨none, st, it⟩ w1 := by
  have : preAncAdvance (⟨none, i :: st, v :: it⟩ : PreAnc N V I) w = preAncAdvance ⟨none, st, it⟩ w1 := by
    simp only [preAncAdvance, preAncLoop, h, List.tail_cons]
  simp only [preAncNext, this]

theorem preAnc_frames [SharedNode W N V I] (body : Body W (List V)) (k : Nat) :
    ∀ (fs : List (Frame V I)) (w : W) (b : Bool) (w' : W),
    forLoop preAncNext body k (⟨none, fs.map Frame.iter, fs.map Frame.value⟩ : PreAnc N V I) w = some (b, w') →
      Run N (.before (sliced body)) fs w b w' := by
  induction k with
  | zero => intro fs w b w' h; simp [forLoop] at h
  | succ k ih =>
    intro fs
    induction fs with
    | nil =>
      intro w b w' h
      simp only [forLoop, preAncNext, preAncAdvance, preAncLoop, List.map_nil, conclude, List.length_nil, gt_iff_lt,
        Nat.lt_irrefl, if_false, Option.some.injEq, Prod.mk.injEq] at h
      obtain ⟨rfl, rfl⟩ := h
      exact .ended
    | cons f fs ihf =>
      intro w b w' h
      rcases hp : pollW (N := N) f.iter w with ⟨_ | c, i', w1⟩
      · refine .done hp rfl (ihf w1 b w' ?_)
        rwa [forLoop, List.map_cons, List.map_cons, preAncNext_done hp] at h
      · rcases hs : splitW (I := I) c w1 with ⟨v, j, w2⟩
        simp only [forLoop, preAncNext, preAncAdvance, preAncLoop, List.map_cons, hp, hs, conclude, List.length_cons, gt_iff_lt,
          Nat.zero_lt_succ, if_true] at h
        rcases hb : body (v :: f.value :: fs.map Frame.value).reverse w2 with ⟨_ | _, w3⟩
        · simp only [hb, Option.some.injEq, Prod.mk.injEq] at h
          obtain ⟨rfl, rfl⟩ := h
          exact .stop hp hs hb
        · simp only [hb] at h
          exact .child hp hs hb (ih (⟨v, false, j⟩ :: ⟨f.value, true, i'⟩ :: fs) w3 b w' h)

theorem preAnc_loop [SharedNode W N V I] {body : Body W (List V)} {fs : List (Frame V I)} {w w' : W} {b : Bool}
    (h : Run N (.before (sliced body)) fs w b w') :
    ∃ k, forLoop preAncNext body (k + 1) (⟨none, fs.map Frame.iter, fs.map Frame.value⟩ : PreAnc N V I) w =
      some (b, w') := by
  induction h with
  | ended => exact ⟨0, by simp [forLoop, preAncNext, preAncAdvance, preAncLoop, conclude]⟩
  | halt _ h2 => cases h2
  | done h1 h2 _ ih =>
    obtain ⟨k, hk⟩ := ih
    cases h2
    exact ⟨k, by rwa [forLoop, List.map_cons, List.map_cons, preAncNext_done h1]⟩
  | stop h1 h2 h3 =>
    have h3 : body _ _ = _ := h3
    exact ⟨0, by simp only [forLoop, preAncNext, preAncAdvance, preAncLoop, List.map_cons, h1, h2, conclude, List.length_cons,
      gt_iff_lt, Nat.zero_lt_succ, if_true, h3]⟩
  | child h1 h2 h3 _ ih =>
    obtain ⟨k, hk⟩ := ih
    have h3 : body _ _ = _ := h3
    refine ⟨k + 1, ?_⟩
    rw [forLoop]
    simp only [preAncNext, preAncAdvance, preAncLoop, List.map_cons, h1, h2, conclude, List.length_cons, gt_iff_lt,
      Nat.zero_lt_succ, if_true, h3]
    exact hk

/-! ## Postorder -/

theorem postLoop_mono [SharedNode W N V I] (fuel : Nat) : ∀ (st : List I) (items : List V) (w : W)
    (r : Option V × Post N V I × W), postLoop fuel st items w = some r → postLoop (fuel + 1) st items w = some r := by
  induction fuel with
  | zero => intro st items w r h; simp [postLoop] at h
  | succ fuel ih =>
    intro st items w r h
    cases st with
    | nil => simpa [postLoop] using h
    | cons i rest =>
      rw [postLoop] at h ⊢
      rcases hp : pollW (N := N) i w with ⟨_ | c, i', w1⟩
      · simpa only [hp] using h
      · simp only [hp] at h ⊢
        exact ih _ _ _ _ h

theorem postNext_mono [SharedNode W N V I] {fuel : Nat} {s : Post N V I} {w : W} {r : Option V × Post N V I × W}
    (h : postNext fuel s w = some r) : postNext (fuel + 1) s w = some r := by
  cases hs : s.root <;> simp only [postNext, hs] at h ⊢ <;> exact postLoop_mono _ _ _ _ _ h

theorem post_frames [SharedNode W N V I] (body : Body W V) (fuel k : Nat) :
    ∀ (f' : Nat) (fs : List (Frame V I)) (w : W) (b : Bool) (w' : W),
    conclude (forLoop (postNext fuel) body k) body (postLoop (N := N) f' (fs.map Frame.iter) (fs.map Frame.value) w) =
        some (b, w') →
      Run N (.after (plain body)) fs w b w' := by
  induction k with
  | zero =>
    intro f'
    induction f' with
    | zero => intro fs w b w' h; simp [postLoop, conclude] at h
    | succ f' ihf =>
      intro fs w b w' h
      cases fs with
      | nil =>
        simp only [postLoop, List.map_nil, List.head?_nil, conclude, Option.some.injEq, Prod.mk.injEq] at h
        obtain ⟨rfl, rfl⟩ := h
        exact .ended
      | cons f fs =>
        rw [List.map_cons, postLoop] at h
        rcases hp : pollW (N := N) f.iter w with ⟨_ | c, i', w1⟩
        · simp only [hp, List.map_cons, List.head?_cons, conclude] at h
          rcases hb : body f.value w1 with ⟨_ | _, w3⟩
          · simp only [hb, Option.some.injEq, Prod.mk.injEq] at h
            obtain ⟨rfl, rfl⟩ := h
            exact .halt hp hb
          · simp [hb, forLoop] at h
        · rcases hs : splitW (I := I) c w1 with ⟨v, j, w2⟩
          simp only [hp, hs] at h
          exact .child hp hs rfl (ihf (⟨v, false, j⟩ :: ⟨f.value, true, i'⟩ :: fs) w2 b w' h)
  | succ k ih =>
    intro f'
    induction f' with
    | zero => intro fs w b w' h; simp [postLoop, conclude] at h
    | succ f' ihf =>
      intro fs w b w' h
      cases fs with
      | nil =>
        simp only [postLoop, List.map_nil, List.head?_nil, conclude, Option.some.injEq, Prod.mk.injEq] at h
        obtain ⟨rfl, rfl⟩ := h
        exact .ended
      | cons f fs =>
        rw [List.map_cons, postLoop] at h
        rcases hp : pollW (N := N) f.iter w with ⟨_ | c, i', w1⟩
        · simp only [hp, List.map_cons, List.head?_cons, conclude] at h
          rcases hb : body f.value w1 with ⟨_ | _, w3⟩
          · simp only [hb, Option.some.injEq, Prod.mk.injEq] at h
            obtain ⟨rfl, rfl⟩ := h
            exact .halt hp hb
          · simp only [hb] at h
            exact .done hp hb (ih fuel fs w3 b w' h)
        · rcases hs : splitW (I := I) c w1 with ⟨v, j, w2⟩
          simp only [hp, hs] at h
          exact .child hp hs rfl (ihf (⟨v, false, j⟩ :: ⟨f.value, true, i'⟩ :: fs) w2 b w' h)

theorem post_loop [SharedNode W N V I] {body : Body W V} {fs : List (Frame V I)} {w w' : W} {b : Bool}
    (h : Run N (.after (plain body)) fs w b w') :
    ∃ fuel k, forLoop (postNext fuel) body (k + 1) (⟨none, fs.map Frame.value, fs.map Frame.iter⟩ : Post N V I) w =
      some (b, w') := by
  induction h with
  | ended => exact ⟨1, 0, by simp [forLoop, postNext, postLoop, conclude]⟩
  | halt h1 h2 =>
    have h2 : body _ _ = _ := h2
    exact ⟨1, 0, by simp only [forLoop, postNext, postLoop, List.map_cons, h1, List.head?_cons, conclude, h2]⟩
  | done h1 h2 _ ih =>
    obtain ⟨fuel, k, hk⟩ := ih
    have h2 : body _ _ = _ := h2
    refine ⟨fuel + 1, k + 1, ?_⟩
    rw [forLoop]
    simp only [postNext, postLoop, List.map_cons, h1, List.head?_cons, conclude, h2]
    exact forLoop_mono (fun s w r => postNext_mono) _ _ _ _ hk
  | stop _ _ h3 => cases h3
  | child h1 h2 h3 _ ih =>
    obtain ⟨fuel, k, hk⟩ := ih
    cases h3
    refine ⟨fuel + 1, k, ?_⟩
    rw [forLoop] at hk ⊢
    refine conclude_mono (forLoop_mono (fun s w r => postNext_mono) k) (fun y hy => ?_) hk
    simpa only [postNext, postLoop, List.map_cons, h1, h2] using hy

/-! ## Postorder with ancestors -/

theorem postAncLoop_mono [SharedNode W N V I] (fuel : Nat) : ∀ (st : List I) (items : List V) (w : W)
    (r : Post N V I × W), postAncLoop fuel st items w = some r → postAncLoop (fuel + 1) st items w = some r := by
  induction fuel with
  | zero => intro st items w r h; simp [postAncLoop] at h
  | succ fuel ih =>
    intro st items w r h
    cases st with
    | nil => simpa [postAncLoop] using h
    | cons i rest =>
      rw [postAncLoop] at h ⊢
      rcases hp : pollW (N := N) i w with ⟨_ | c, i', w1⟩
      · simpa only [hp] using h
      · simp only [hp] at h ⊢
        exact ih _ _ _ _ h

/-- What `next` answers when `advance` leaves this state. -/
def postAncShow : Option (Post N V I × W) → Option (Option (List V) × Post N V I × W)
  | none => none
  | some (s, w) => some (if s.items.length > 0 then some s.items.reverse else none, s, w)

theorem postAncNext_eq [SharedNode W N V I] (fuel : Nat) (s : Post N V I) (w : W) :
    postAncNext fuel s w = postAncShow (postAncAdvance fuel s w) := by
  cases h : postAncAdvance fuel s w <;> simp only [postAncNext, h, postAncShow]

theorem postAncShow_mono {x x' : Option (Post N V I × W)} (h : ∀ y, x = some y → x' = some y)
    {r : Option (List V) × Post N V I × W} (hr : postAncShow x = some r) : postAncShow x' = some r := by
  cases x with
  | none => simp [postAncShow] at hr
  | some y => rw [h y rfl]; exact hr

theorem postAncNext_mono [SharedNode W N V I] {fuel : Nat} {s : Post N V I} {w : W} {r : Option (List V) × Post N V I × W}
    (h : postAncNext fuel s w = some r) : postAncNext (fuel + 1) s w = some r := by
  rw [postAncNext_eq] at h ⊢
  refine postAncShow_mono (fun y hy => ?_) h
  cases hs : s.root <;> simp only [postAncAdvance, hs] at hy ⊢ <;> exact postAncLoop_mono _ _ _ _ _ hy

theorem postAnc_frames [SharedNode W N V I] (body : Body W (List V)) (fuel k : Nat) :
    ∀ (f' : Nat) (fs : List (Frame V I)) (w : W) (b : Bool) (w' : W),
    conclude (forLoop (postAncNext fuel) body k) body
        (postAncShow (postAncLoop (N := N) f' (fs.map Frame.iter) (fs.map Frame.value) w)) = some (b, w') →
      Run N (.after (sliced body)) fs w b w' := by
  induction k with
  | zero =>
    intro f'
    induction f' with
    | zero => intro fs w b w' h; simp [postAncLoop, postAncShow, conclude] at h
    | succ f' ihf =>
      intro fs w b w' h
      cases fs with
      | nil =>
        simp only [postAncLoop, postAncShow, List.map_nil, List.length_nil, gt_iff_lt, Nat.lt_irrefl, if_false, conclude,
          Option.some.injEq, Prod.mk.injEq] at h
        obtain ⟨rfl, rfl⟩ := h
        exact .ended
      | cons f fs =>
        rw [List.map_cons, postAncLoop] at h
        rcases hp : pollW (N := N) f.iter w with ⟨_ | c, i', w1⟩
        · simp only [hp, List.map_cons, postAncShow, List.length_cons, gt_iff_lt, Nat.zero_lt_succ, if_true, conclude] at h
          rcases hb : body (f.value :: fs.map Frame.value).reverse w1 with ⟨_ | _, w3⟩
          · simp only [hb, Option.some.injEq, Prod.mk.injEq] at h
            obtain ⟨rfl, rfl⟩ := h
            exact .halt hp hb
          · simp only [hb, forLoop, reduceCtorEq] at h
        · rcases hs : splitW (I := I) c w1 with ⟨v, j, w2⟩
          simp only [hp, hs] at h
          exact .child hp hs rfl (ihf (⟨v, false, j⟩ :: ⟨f.value, true, i'⟩ :: fs) w2 b w' h)
  | succ k ih =>
    intro f'
    induction f' with
    | zero => intro fs w b w' h; simp [postAncLoop, postAncShow, conclude] at h
    | succ f' ihf =>
      intro fs w b w' h
      cases fs with
      | nil =>
        simp only [postAncLoop, postAncShow, List.map_nil, List.length_nil, gt_iff_lt, Nat.lt_irrefl, if_false, conclude,
          Option.some.injEq, Prod.mk.injEq] at h
        obtain ⟨rfl, rfl⟩ := h
        exact .ended
      | cons f fs =>
        rw [List.map_cons, postAncLoop] at h
        rcases hp : pollW (N := N) f.iter w with ⟨_ | c, i', w1⟩
        · simp only [hp, List.map_cons, postAncShow, List.length_cons, gt_iff_lt, Nat.zero_lt_succ, if_true, conclude] at h
          rcases hb : body (f.value :: fs.map Frame.value).reverse w1 with ⟨_ | _, w3⟩
          · simp only [hb, Option.some.injEq, Prod.mk.injEq] at h
            obtain ⟨rfl, rfl⟩ := h
            exact .halt hp hb
          · simp only [hb, forLoop, postAncNext_eq, postAncAdvance, List.tail_cons] at h
            exact .done hp hb (ih fuel fs w3 b w' h)
        · rcases hs : splitW (I := I) c w1 with ⟨v, j, w2⟩
          simp only [hp, hs] at h
          exact .child hp hs rfl (ihf (⟨v, false, j⟩ :: ⟨f.value, true, i'⟩ :: fs) w2 b w' h)

theorem postAnc_loop [SharedNode W N V I] {body : Body W (List V)} {fs : List (Frame V I)} {w w' : W} {b : Bool}
    (h : Run N (.after (sliced body)) fs w b w') :
    ∃ fuel k, conclude (forLoop (postAncNext fuel) body k) body
      (postAncShow (postAncLoop (N := N) fuel (fs.map Frame.iter) (fs.map Frame.value) w)) = some (b, w') := by
  induction h with
  | ended => exact ⟨1, 0, by simp [postAncLoop, postAncShow, conclude]⟩
  | halt h1 h2 =>
    have h2 : body _ _ = _ := h2
    exact ⟨1, 0, by simp only [postAncLoop, postAncShow, List.map_cons, h1, List.length_cons, gt_iff_lt, Nat.zero_lt_succ,
      if_true, conclude, h2]⟩
  | done h1 h2 _ ih =>
    obtain ⟨fuel, k, hk⟩ := ih
    have h2 : body _ _ = _ := h2
    refine ⟨fuel + 1, k + 1, ?_⟩
    simp only [postAncLoop, postAncShow, List.map_cons, h1, List.length_cons, gt_iff_lt, Nat.zero_lt_succ, if_true, conclude,
      h2, forLoop, postAncNext_eq, postAncAdvance, List.tail_cons]
    exact conclude_mono (forLoop_mono (fun s w r => postAncNext_mono) k)
      (fun y hy => postAncShow_mono (fun z hz => postAncLoop_mono _ _ _ _ _ hz) hy) hk
  | stop _ _ h3 => cases h3
  | child h1 h2 h3 _ ih =>
    obtain ⟨fuel, k, hk⟩ := ih
    cases h3
    refine ⟨fuel + 1, k, ?_⟩
    refine conclude_mono (forLoop_mono (fun s w r => postAncNext_mono) k) (fun y hy => ?_) hk
    simpa only [postAncLoop, List.map_cons, h1, h2] using hy

/-! ## Depth-first leaves -/

theorem leavesLoop_mono [SharedNode W N V I] (fuel : Nat) : ∀ (bottom top : List I) (items : List V) (just : Bool) (w : W)
    (r : Option V × Lv N V I × W), leavesLoop fuel bottom top items just w = some r →
      leavesLoop (fuel + 1) bottom top items just w = some r := by
  induction fuel with
  | zero => intro bottom top items just w r h; simp [leavesLoop] at h
  | succ fuel ih =>
    intro bottom top items just w r h
    cases top with
    | nil =>
      cases bottom with
      | nil => simpa [leavesLoop] using h
      | cons i rest =>
        rw [leavesLoop] at h ⊢
        rcases hp : pollW (N := N) i w with ⟨_ | c, i', w1⟩
        · simp only [hp] at h ⊢
          exact ih _ _ _ _ _ _ h
        · simp only [hp] at h ⊢
          exact ih _ _ _ _ _ _ h
    | cons i rest =>
      rw [leavesLoop] at h ⊢
      rcases hp : pollW (N := N) i w with ⟨_ | c, i', w1⟩
      · cases just
        · simp only [hp, Bool.false_eq_true, if_false] at h ⊢
          exact ih _ _ _ _ _ _ h
        · simpa only [hp, if_true] using h
      · simp only [hp] at h ⊢
        exact ih _ _ _ _ _ _ h

theorem leavesNext_mono [SharedNode W N V I] {fuel : Nat} {s : Lv N V I} {w : W} {r : Option V × Lv N V I × W}
    (h : leavesNext fuel s w = some r) : leavesNext (fuel + 1) s w = some r := by
  cases hs : s.root <;> simp only [leavesNext, hs] at h ⊢ <;> exact leavesLoop_mono _ _ _ _ _ _ _ h

/-- Only the last node entered may have had no child yet, and `just_added` tells. -/
def Fine (just : Bool) : List (Frame V I) → Prop
  | [] => True
  | f :: fs => f.had = !just ∧ ∀ g ∈ fs, g.had = true

theorem Fine.below {just : Bool} {f : Frame V I} {fs : List (Frame V I)} (h : Fine just (f :: fs)) : Fine false fs := by
  cases fs with
  | nil => trivial
  | cons g gs => exact ⟨h.2 g List.mem_cons_self, fun x hx => h.2 x (List.mem_cons_of_mem _ hx)⟩

theorem Fine.push {just : Bool} {f : Frame V I} {fs : List (Frame V I)} (h : Fine just (f :: fs)) (v : V) (i j : I) :
    Fine true (⟨v, false, j⟩ :: ⟨f.value, true, i⟩ :: fs) := by
  refine ⟨rfl, fun g hg => ?_⟩
  rcases List.mem_cons.1 hg with rfl | hg
  · rfl
  · exact h.2 g hg

theorem leaves_frames [SharedNode W N V I] (body : Body W V) (fuel k : Nat)
    (ih : ∀ (fs : List (Frame V I)) (w : W) (b : Bool) (w' : W), Fine false fs →
      forLoop (leavesNext fuel) body k (⟨none, [], fs.map Frame.iter, fs.map Frame.value⟩ : Lv N V I) w = some (b, w') →
        Run N (.childless (plain body)) fs w b w') :
    ∀ (f' : Nat) (fs : List (Frame V I)) (just : Bool) (w : W) (b : Bool) (w' : W), Fine just fs →
    conclude (forLoop (leavesNext fuel) body k) body
        (leavesLoop (N := N) f' [] (fs.map Frame.iter) (fs.map Frame.value) just w) = some (b, w') →
      Run N (.childless (plain body)) fs w b w' := by
  intro f'
  induction f' with
  | zero => intro fs just w b w' _ h; simp [leavesLoop, conclude] at h
  | succ f' ihf =>
    intro fs just w b w' hf h
    cases fs with
    | nil =>
      simp only [leavesLoop, List.map_nil, conclude, Option.some.injEq, Prod.mk.injEq] at h
      obtain ⟨rfl, rfl⟩ := h
      exact .ended
    | cons f fs =>
      rw [List.map_cons, leavesLoop] at h
      rcases hp : pollW (N := N) f.iter w with ⟨_ | c, i', w1⟩
      · cases just with
        | false =>
          have hh : f.had = true := hf.1
          simp only [hp, Bool.false_eq_true, if_false, List.map_cons, List.tail_cons] at h
          exact .done hp (by simp [Hooks.childless, hh]) (ihf fs false w1 b w' hf.below h)
        | true =>
          have hh : f.had = false := hf.1
          simp only [hp, if_true, List.map_cons, List.head?_cons, List.tail_cons, conclude] at h
          rcases hb : body f.value w1 with ⟨_ | _, w3⟩
          · simp only [hb, Option.some.injEq, Prod.mk.injEq] at h
            obtain ⟨rfl, rfl⟩ := h
            exact .halt hp (by simpa [Hooks.childless, hh, plain] using hb)
          · simp only [hb] at h
            exact .done hp (by simpa [Hooks.childless, hh, plain] using hb) (ih fs w3 b w' hf.below h)
      · rcases hs : splitW (I := I) c w1 with ⟨v, j, w2⟩
        simp only [hp, hs] at h
        exact .child hp hs rfl (ihf (⟨v, false, j⟩ :: ⟨f.value, true, i'⟩ :: fs) true w2 b w' (hf.push ..) h)

theorem leaves_frames_all [SharedNode W N V I] (body : Body W V) (fuel k : Nat) :
    ∀ (fs : List (Frame V I)) (w : W) (b : Bool) (w' : W), Fine false fs →
      forLoop (leavesNext fuel) body k (⟨none, [], fs.map Frame.iter, fs.map Frame.value⟩ : Lv N V I) w = some (b, w') →
        Run N (.childless (plain body)) fs w b w' := by
  induction k with
  | zero => intro fs w b w' _ h; simp [forLoop] at h
  | succ k ih =>
    intro fs w b w' hf h
    exact leaves_frames body fuel k ih fuel fs false w b w' hf h

theorem leaves_loop [SharedNode W N V I] {body : Body W V} {fs : List (Frame V I)} {w w' : W} {b : Bool}
    (h : Run N (.childless (plain body)) fs w b w') : ∀ just, Fine just fs →
    ∃ fuel k, conclude (forLoop (leavesNext fuel) body k) body
      (leavesLoop (N := N) fuel [] (fs.map Frame.iter) (fs.map Frame.value) just w) = some (b, w') := by
  induction h with
  | ended => exact fun just _ => ⟨1, 0, by simp [leavesLoop, conclude]⟩
  | @halt f fs i' w w1 w2 h1 h2 =>
    intro just hf
    cases just with
    | false =>
      have hh := hf.1
      simp [Hooks.childless, hh] at h2
    | true =>
      have hh := hf.1
      have h2 : body f.value w1 = (false, w2) := by simpa [Hooks.childless, hh, plain] using h2
      exact ⟨1, 0, by simp only [leavesLoop, List.map_cons, h1, if_true, List.head?_cons, conclude, h2]⟩
  | @done f fs i' w w1 w2 w3 b h1 h2 _ ih =>
    intro just hf
    obtain ⟨fuel, k, hk⟩ := ih false hf.below
    cases just with
    | false =>
      have hh := hf.1
      simp only [Hooks.childless, hh, Bool.not_false, if_true, Prod.mk.injEq, true_and] at h2
      subst h2
      refine ⟨fuel + 1, k, ?_⟩
      refine conclude_mono (forLoop_mono (fun s w r => leavesNext_mono) k) (fun y hy => ?_) hk
      simpa only [leavesLoop, List.map_cons, h1, Bool.false_eq_true, if_false, List.tail_cons] using hy
    | true =>
      have hh := hf.1
      have h2 : body f.value w1 = (true, w2) := by simpa [Hooks.childless, hh, plain] using h2
      refine ⟨fuel + 1, k + 1, ?_⟩
      simp only [leavesLoop, List.map_cons, h1, if_true, List.head?_cons, List.tail_cons, conclude, h2, forLoop, leavesNext]
      exact conclude_mono (forLoop_mono (fun s w r => leavesNext_mono) k)
        (fun y hy => leavesLoop_mono _ _ _ _ _ _ _ hy) hk
  | stop _ _ h3 => cases h3
  | child h1 h2 h3 _ ih =>
    intro just hf
    obtain ⟨fuel, k, hk⟩ := ih true (hf.push ..)
    cases h3
    refine ⟨fuel + 1, k, ?_⟩
    refine conclude_mono (forLoop_mono (fun s w r => leavesNext_mono) k) (fun y hy => ?_) hk
    simpa only [leavesLoop, List.map_cons, h1, h2] using hy

/-! ## In order -/

/-- The visitor in order, with the calls under way on a stack: what is to be visited first, then values with their right
subtrees. -/
inductive RunIn [SharedBin W N V] (body : Body W V) : Option N → List (V × Option N) → W → Bool → W → Prop
  | ended {w : W} : RunIn body none [] w true w
  | halt {v : V} {r : Option N} {ks : List (V × Option N)} {w w1 : W} : body v w = (false, w1) →
      RunIn body none ((v, r) :: ks) w false w1
  | self {v : V} {r : Option N} {ks : List (V × Option N)} {w w1 w' : W} {b : Bool} : body v w = (true, w1) →
      RunIn body r ks w1 b w' → RunIn body none ((v, r) :: ks) w b w'
  | down {n : N} {v : V} {l r : Option N} {ks : List (V × Option N)} {w w1 w' : W} {b : Bool} :
      split2W n w = (v, l, r, w1) → RunIn body l ((v, r) :: ks) w1 b w' → RunIn body (some n) ks w b w'

/-- What is left once the current subtree is done. -/
def EachIn [SharedBin W N V] (body : Body W V) : List (V × Option N) → W → Bool → W → Prop
  | [], w, b, w' => b = true ∧ w' = w
  | (v, r) :: ks, w, b, w' =>
    (b = false ∧ body v w = (false, w')) ∨
      ∃ w1, body v w = (true, w1) ∧
        ((b = false ∧ VisitIn body r w1 false w') ∨ ∃ w2, VisitIn body r w1 true w2 ∧ EachIn body ks w2 b w')

theorem each_of_runIn [SharedBin W N V] {body : Body W V} {cur : Option N} {ks : List (V × Option N)} {w w' : W} {b : Bool}
    (h : RunIn body cur ks w b w') :
    (b = false ∧ VisitIn body cur w false w') ∨ ∃ w1, VisitIn body cur w true w1 ∧ EachIn body ks w1 b w' := by
  induction h with
  | ended => exact .inr ⟨_, .absent, rfl, rfl⟩
  | halt h => exact .inr ⟨_, .absent, .inl ⟨rfl, h⟩⟩
  | self h _ ih => exact .inr ⟨_, .absent, .inr ⟨_, h, ih⟩⟩
  | down h _ ih =>
    rcases ih with ⟨rfl, hv⟩ | ⟨w1, hv, ⟨rfl, hb⟩ | ⟨w2, hb, ⟨rfl, hr⟩ | ⟨w3, hr, he⟩⟩⟩
    · exact .inl ⟨rfl, .left h hv⟩
    · exact .inl ⟨rfl, .self h hv hb⟩
    · exact .inl ⟨rfl, .right h hv hb hr⟩
    · exact .inr ⟨w3, .right h hv hb hr, he⟩

theorem runIn_of_visit [SharedBin W N V] {body : Body W V} {cur : Option N} {w w' : W} {b : Bool}
    (h : VisitIn body cur w b w') : ∀ ks : List (V × Option N),
      (b = false → RunIn body cur ks w false w') ∧
        ∀ b' w'', b = true → RunIn body none ks w' b' w'' → RunIn body cur ks w b' w'' := by
  induction h with
  | absent => exact fun ks => ⟨fun h => (by cases h), fun _ _ _ h => h⟩
  | left h1 _ ih => exact fun ks => ⟨fun _ => .down h1 ((ih _).1 rfl), fun _ _ h => (by cases h)⟩
  | self h1 _ h3 ih =>
    exact fun ks => ⟨fun _ => .down h1 ((ih _).2 _ _ rfl (.halt h3)), fun _ _ h => (by cases h)⟩
  | right h1 _ h3 _ ih1 ih2 =>
    exact fun ks => ⟨fun hb => .down h1 ((ih1 _).2 _ _ rfl (.self h3 ((ih2 ks).1 hb))),
      fun _ _ hb hr => .down h1 ((ih1 _).2 _ _ rfl (.self h3 ((ih2 ks).2 _ _ hb hr)))⟩

theorem visitIn_iff [SharedBin W N V] {body : Body W V} {cur : Option N} {w w' : W} {b : Bool} :
    VisitIn body cur w b w' ↔ RunIn body cur [] w b w' := by
  constructor
  · intro h
    cases b with
    | false => exact (runIn_of_visit h []).1 rfl
    | true => exact (runIn_of_visit h []).2 _ _ rfl .ended
  · intro h
    rcases each_of_runIn h with ⟨rfl, hv⟩ | ⟨w1, hv, rfl, rfl⟩
    · exact hv
    · exact hv

theorem inDescend_mono [SharedBin W N V] (fuel : Nat) : ∀ (cur : Option N) (right : List (Option N)) (items : List V) (w : W)
    (r : List (Option N) × List V × W), inDescend fuel cur right items w = some r →
      inDescend (fuel + 1) cur right items w = some r := by
  induction fuel with
  | zero => intro cur right items w r h; simp [inDescend] at h
  | succ fuel ih =>
    intro cur right items w r h
    cases cur with
    | none => simpa [inDescend] using h
    | some n =>
      rw [inDescend] at h ⊢
      exact ih _ _ _ _ _ h

/-- What `next` answers after the walk to the left. -/
def inShow : Option (List (Option N) × List V × W) → Option (Option V × Inorder.State N V × W)
  | none => none
  | some (right, items, w) => some (items.head?, ⟨right, items.tail, true⟩, w)

theorem inShow_mono {x x' : Option (List (Option N) × List V × W)} (h : ∀ y, x = some y → x' = some y)
    {r : Option V × Inorder.State N V × W} (hr : inShow x = some r) : inShow x' = some r := by
  cases x with
  | none => simp [inShow] at hr
  | some y => rw [h y rfl]; exact hr

/-- The first loop of `next` finds the subtree to visit, or sees that it is empty. -/
theorem inNext_cases [SharedBin W N V] (fuel : Nat) (cur : Option N) (ks : List (V × Option N)) (m : Bool) (w : W) :
    inNext fuel (⟨cur :: ks.map Prod.snd, ks.map Prod.fst, m⟩ : Inorder.State N V) w =
      inShow (inDescend (if cur = none ∧ ks ≠ [] then 1 else fuel) cur (ks.map Prod.snd) (ks.map Prod.fst) w) := by
  cases ks with
  | nil =>
    simp only [inNext, Inorder.find, List.map_nil, List.length_cons, List.length_nil, Nat.zero_add, Nat.one_ne_zero, if_false,
      List.isEmpty_nil, if_true, ne_eq, not_true_eq_false, and_false]
    cases h : inDescend fuel cur [] [] w <;> simp [inShow]
  | cons k ks =>
    cases cur with
    | some n =>
      simp only [inNext, Inorder.find, List.map_cons, List.length_cons, List.length_map, Nat.succ_ne_self, if_false,
        List.isEmpty_cons, Bool.false_eq_true, reduceCtorEq, false_and]
      cases h : inDescend fuel (some n) (k.2 :: ks.map Prod.snd) (k.1 :: ks.map Prod.fst) w <;> simp [inShow]
    | none =>
      simp only [inNext, Inorder.find, List.map_cons, List.length_cons, List.length_map, Nat.succ_ne_self, if_false,
        List.isEmpty_cons, Bool.false_eq_true, if_true, ne_eq, reduceCtorEq, not_false_eq_true, and_self, inDescend, inShow]

theorem inNext_mono [SharedBin W N V] {fuel : Nat} {s : Inorder.State N V} {w : W} {r : Option V × Inorder.State N V × W}
    (h : inNext fuel s w = some r) : inNext (fuel + 1) s w = some r := by
  unfold inNext at h ⊢
  rcases hf : Inorder.find s.items s.right with ⟨_ | cur, right⟩
  · simpa only [hf] using h
  · simp only [hf] at h ⊢
    cases hd : inDescend fuel cur right s.items w with
    | none => simp [hd] at h
    | some y =>
      rw [inDescend_mono _ _ _ _ _ _ hd]
      simpa only [hd] using h

theorem in_frames [SharedBin W N V] (body : Body W V) (fuel k : Nat)
    (ih : ∀ (m : Bool) (cur : Option N) (ks : List (V × Option N)) (w : W) (b : Bool) (w' : W),
      forLoop (inNext fuel) body k (⟨cur :: ks.map Prod.snd, ks.map Prod.fst, m⟩ : Inorder.State N V) w = some (b, w') →
        RunIn body cur ks w b w') :
    ∀ (f' : Nat) (cur : Option N) (ks : List (V × Option N)) (w : W) (b : Bool) (w' : W),
      conclude (forLoop (inNext fuel) body k) body
          (inShow (inDescend f' cur (ks.map Prod.snd) (ks.map Prod.fst) w)) = some (b, w') →
        RunIn body cur ks w b w' := by
  intro f'
  induction f' with
  | zero => intro cur ks w b w' h; simp [inDescend, inShow, conclude] at h
  | succ f' ihf =>
    intro cur ks w b w' h
    cases cur with
    | none =>
      cases ks with
      | nil =>
        simp only [inDescend, inShow, List.map_nil, List.head?_nil, conclude, Option.some.injEq, Prod.mk.injEq] at h
        obtain ⟨rfl, rfl⟩ := h
        exact .ended
      | cons p ks =>
        obtain ⟨v, r⟩ := p
        simp only [inDescend, inShow, List.map_cons, List.head?_cons, List.tail_cons, conclude] at h
        rcases hb : body v w with ⟨_ | _, w1⟩
        · simp only [hb, Option.some.injEq, Prod.mk.injEq] at h
          obtain ⟨rfl, rfl⟩ := h
          exact .halt hb
        · simp only [hb] at h
          exact .self hb (ih true r ks w1 b w' h)
    | some n =>
      rcases hs : split2W n w with ⟨v, l, r, w1⟩
      simp only [inDescend, hs] at h
      exact .down hs (ihf l ((v, r) :: ks) w1 b w' h)

theorem in_frames_all [SharedBin W N V] (body : Body W V) (fuel k : Nat) :
    ∀ (m : Bool) (cur : Option N) (ks : List (V × Option N)) (w : W) (b : Bool) (w' : W),
      forLoop (inNext fuel) body k (⟨cur :: ks.map Prod.snd, ks.map Prod.fst, m⟩ : Inorder.State N V) w = some (b, w') →
        RunIn body cur ks w b w' := by
  induction k with
  | zero => intro m cur ks w b w' h; simp [forLoop] at h
  | succ k ih =>
    intro m cur ks w b w' h
    rw [forLoop, inNext_cases] at h
    exact in_frames body fuel k ih _ cur ks w b w' h

theorem in_loop [SharedBin W N V] {body : Body W V} {cur : Option N} {ks : List (V × Option N)} {w w' : W} {b : Bool}
    (h : RunIn body cur ks w b w') :
    ∃ fuel k, conclude (forLoop (inNext (fuel + 1)) body k) body
      (inShow (inDescend (fuel + 1) cur (ks.map Prod.snd) (ks.map Prod.fst) w)) = some (b, w') := by
  induction h with
  | ended => exact ⟨0, 0, by simp [inDescend, inShow, conclude]⟩
  | halt h => exact ⟨0, 0, by simp only [inDescend, inShow, List.map_cons, List.head?_cons, conclude, h]⟩
  | @self v r ks w w1 w' b h _ ih =>
    obtain ⟨fuel, k, hk⟩ := ih
    refine ⟨fuel, k + 1, ?_⟩
    have hd : inShow (inDescend (fuel + 1) none (((v, r) :: ks).map Prod.snd) (((v, r) :: ks).map Prod.fst) w) =
        some (some v, ⟨r :: ks.map Prod.snd, ks.map Prod.fst, true⟩, w) := rfl
    rw [hd, conclude, h]
    change forLoop (inNext (fuel + 1)) body (k + 1) _ w1 = _
    rw [forLoop, inNext_cases]
    by_cases hc : r = none ∧ ks ≠ []
    · rw [if_pos hc]
      obtain ⟨rfl, -⟩ := hc
      exact hk
    · rw [if_neg hc]
      exact hk
  | down h _ ih =>
    obtain ⟨fuel, k, hk⟩ := ih
    refine ⟨fuel + 1, k, ?_⟩
    refine conclude_mono (forLoop_mono (fun s w r => inNext_mono) k) (fun y hy => ?_) hk
    rw [inDescend]
    simp only [h]
    exact hy

/-! ## Breadth first -/

theorem bfs_frames [SharedNode W N V I] (body : Body W V) (k : Nat)
    (ih : ∀ (is js : List I) (w : W) (b : Bool) (w' : W),
      forLoop bfsNext body k (⟨none, is ++ js⟩ : Wide N I) w = some (b, w') → VisitLevels (N := N) body is js w b w') :
    ∀ (q is js : List I) (w : W) (b : Bool) (w' : W), is ++ js = q →
      conclude (forLoop bfsNext body k) body (bfsLoop (N := N) q w) = some (b, w') →
        VisitLevels (N := N) body is js w b w' := by
  intro q
  induction q with
  | nil =>
    intro is js w b w' hq h
    obtain ⟨rfl, rfl⟩ := List.append_eq_nil_iff.1 hq
    simp only [bfsLoop, conclude, Option.some.injEq, Prod.mk.injEq] at h
    obtain ⟨rfl, rfl⟩ := h
    exact .ended
  | cons i q ihq =>
    have main : ∀ (is js : List I) (w : W) (b : Bool) (w' : W), is ++ js = q →
        conclude (forLoop bfsNext body k) body (bfsLoop (N := N) (i :: q) w) = some (b, w') →
          VisitLevels (N := N) body (i :: is) js w b w' := by
      intro is js w b w' hq h
      rw [bfsLoop] at h
      rcases hp : pollW (N := N) i w with ⟨_ | c, i', w1⟩
      · simp only [hp] at h
        exact .done hp (ihq is js w1 b w' hq h)
      · rcases hs : splitW (I := I) c w1 with ⟨v, j, w2⟩
        simp only [hp, hs, conclude] at h
        rcases hb : body v w2 with ⟨_ | _, w3⟩
        · simp only [hb, Option.some.injEq, Prod.mk.injEq] at h
          obtain ⟨rfl, rfl⟩ := h
          exact .stop hp hs hb
        · simp only [hb] at h
          refine .child hp hs hb (ih (i' :: is) (js ++ [j]) w3 b w' ?_)
          rw [← h, ← hq]
          simp
    intro is js w b w' hq h
    cases is with
    | cons i0 is =>
      rw [List.cons_append, List.cons.injEq] at hq
      obtain ⟨rfl, hq⟩ := hq
      exact main is js w b w' hq h
    | nil =>
      rw [List.nil_append] at hq
      subst hq
      exact .level (main q [] w b w' (List.append_nil q) h)

theorem bfs_frames_all [SharedNode W N V I] (body : Body W V) (k : Nat) : ∀ (is js : List I) (w : W) (b : Bool) (w' : W),
    forLoop bfsNext body k (⟨none, is ++ js⟩ : Wide N I) w = some (b, w') → VisitLevels (N := N) body is js w b w' := by
  induction k with
  | zero => intro is js w b w' h; simp [forLoop] at h
  | succ k ih =>
    intro is js w b w' h
    exact bfs_frames body k ih (is ++ js) is js w b w' rfl h

theorem bfs_loop [SharedNode W N V I] {body : Body W V} {is js : List I} {w w' : W} {b : Bool}
    (h : VisitLevels (N := N) body is js w b w') :
    ∃ k, forLoop bfsNext body (k + 1) (⟨none, is ++ js⟩ : Wide N I) w = some (b, w') := by
  induction h with
  | ended => exact ⟨0, by simp [forLoop, bfsNext, bfsLoop, conclude]⟩
  | level _ ih => simpa using ih
  | done h1 _ ih =>
    obtain ⟨k, hk⟩ := ih
    exact ⟨k, by simpa only [forLoop, bfsNext, List.cons_append, bfsLoop, h1] using hk⟩
  | stop h1 h2 h3 =>
    exact ⟨0, by simp only [forLoop, bfsNext, List.cons_append, bfsLoop, h1, h2, conclude, h3]⟩
  | child h1 h2 h3 _ ih =>
    obtain ⟨k, hk⟩ := ih
    refine ⟨k + 1, ?_⟩
    rw [forLoop]
    simp only [bfsNext, List.cons_append, bfsLoop, h1, h2, conclude, h3]
    simpa using hk

end Shared

end TreeIter
