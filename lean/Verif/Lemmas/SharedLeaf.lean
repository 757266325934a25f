import Verif.Model.SharedLeaf
import Verif.Lemmas.SharedMore
import Verif.Lemmas.SharedPlain

/-!
# Depth-first leaves with ancestors over nodes that share state: helper lemmas
-/

universe u v w x

namespace TreeIter

namespace Shared

variable {W : Type x} {N : Type u} {V : Type v} {I : Type w}

theorem lfAncLoop_mono [SharedNode W N V I] (fuel : Nat) : ∀ (old new : List I) (items : List V) (pushed : Bool) (w : W)
    (r : LfAnc N V I × W), lfAncLoop fuel old new items pushed w = some r →
      lfAncLoop (fuel + 1) old new items pushed w = some r := by
  induction fuel with
  | zero => intro old new items pushed w r h; simp [lfAncLoop] at h
  | succ fuel ih =>
    intro old new items pushed w r h
    rw [lfAncLoop] at h ⊢
    rcases hp : askTop N new w with ⟨_ | n, new1, w1⟩ <;> simp only [hp] at h ⊢
    · cases pushed with
      | true => simpa only [if_true] using h
      | false =>
        simp only [Bool.false_eq_true, if_false] at h ⊢
        rcases hq : askTop N old w1 with ⟨_ | n, old1, w2⟩ <;> simp only [hq] at h ⊢
        · by_cases ht : items.tail.isEmpty
          · simpa only [ht, if_true] using h
          · simp only [ht, Bool.false_eq_true, if_false] at h ⊢
            exact ih _ _ _ _ _ _ h
        · exact ih _ _ _ _ _ _ h
    · exact ih _ _ _ _ _ _ h

theorem lfAncNext_mono [SharedNode W N V I] {fuel : Nat} {s : LfAnc N V I} {w : W} {r : Option (List V) × LfAnc N V I × W}
    (h : lfAncNext fuel s w = some r) : lfAncNext (fuel + 1) s w = some r := by
  rw [lfAncNext] at h ⊢
  cases ha : lfAncAdvance fuel s w with
  | none => simp [ha] at h
  | some y =>
    have : lfAncAdvance (fuel + 1) s w = some y := by
      rw [lfAncAdvance] at ha ⊢
      cases hs : s.root <;> simp only [hs] at ha ⊢ <;> exact lfAncLoop_mono _ _ _ _ _ _ _ ha
    rw [this]
    rw [ha] at h
    exact h

/-- What `next` answers when `advance` leaves this state. -/
def lfShow : Option (LfAnc N V I × W) → Option (Option (List V) × LfAnc N V I × W)
  | none => none
  | some (s, w) => some (if s.items.isEmpty then none else some s.items.reverse, s, w)

theorem lfShow_mono {x x' : Option (LfAnc N V I × W)} (h : ∀ y, x = some y → x' = some y) :
    ∀ z, lfShow x = some z → lfShow x' = some z := by
  intro z hz
  cases x with
  | none => simp [lfShow] at hz
  | some y => rw [h y rfl]; exact hz

theorem lfAncNext_none [SharedNode W N V I] (fuel : Nat) (items : List V) (old new : List I) (w : W) :
    lfAncNext fuel (⟨none, items, old, new⟩ : LfAnc N V I) w = lfShow (lfAncLoop fuel old new items.tail false w) := by
  simp only [lfAncNext, lfAncAdvance]
  cases lfAncLoop (N := N) fuel old new items.tail false w <;> rfl

theorem lfAnc_frames [SharedNode W N V I] (body : Body W (List V)) (fuel k : Nat)
    (ih : ∀ (x : V) (fs : List (Frame V I)) (w : W) (b : Bool) (w' : W), Fine false fs →
      forLoop (lfAncNext fuel) body k (⟨none, x :: fs.map Frame.value, [], fs.map Frame.iter⟩ : LfAnc N V I) w = some (b, w') →
        Run N (.childless (sliced body)) fs w b w') :
    ∀ (f' : Nat) (fs : List (Frame V I)) (just : Bool) (w : W) (b : Bool) (w' : W), Fine just fs → (just = true → fs ≠ []) →
    conclude (forLoop (lfAncNext fuel) body k) body
        (lfShow (lfAncLoop (N := N) f' [] (fs.map Frame.iter) (fs.map Frame.value) just w)) = some (b, w') →
      Run N (.childless (sliced body)) fs w b w' := by
  intro f'
  induction f' with
  | zero => intro fs just w b w' _ _ h; simp [lfAncLoop, lfShow, conclude] at h
  | succ f' ihf =>
    intro fs just w b w' hf hj h
    cases fs with
    | nil =>
      cases just with
      | true => exact absurd rfl (hj rfl)
      | false =>
        simp only [lfAncLoop, List.map_nil, askTop, Bool.false_eq_true, if_false, List.tail_nil, List.isEmpty_nil, if_true,
          lfShow, conclude, Option.some.injEq, Prod.mk.injEq] at h
        obtain ⟨rfl, rfl⟩ := h
        exact .ended
    | cons f fs =>
      rw [List.map_cons, lfAncLoop, askTop] at h
      rcases hp : pollW (N := N) f.iter w with ⟨_ | c, i', w1⟩
      · cases just with
        | false =>
          have hh : f.had = true := hf.1
          simp only [hp, Bool.false_eq_true, if_false, List.map_cons, List.tail_cons, askTop] at h
          refine .done hp (w2 := w1) (by simp [Hooks.childless, hh]) ?_
          cases fs with
          | nil =>
            simp only [List.map_nil, List.isEmpty_nil, if_true, lfShow, conclude, Option.some.injEq, Prod.mk.injEq] at h
            obtain ⟨rfl, rfl⟩ := h
            exact .ended
          | cons g gs =>
            exact ihf (g :: gs) false w1 b w' hf.below (fun h => by cases h) h
        | true =>
          have hh : f.had = false := hf.1
          simp only [hp, if_true, List.map_cons, lfShow, List.isEmpty_cons, Bool.false_eq_true, if_false, conclude] at h
          rcases hb : body (f.value :: fs.map Frame.value).reverse w1 with ⟨_ | _, w3⟩
          · simp only [hb, Option.some.injEq, Prod.mk.injEq] at h
            obtain ⟨rfl, rfl⟩ := h
            exact .halt hp (by simpa [Hooks.childless, hh, sliced] using hb)
          · simp only [hb] at h
            exact .done hp (by simpa [Hooks.childless, hh, sliced] using hb) (ih f.value fs w3 b w' hf.below h)
      · rcases hs : splitW (I := I) c w1 with ⟨v, j, w2⟩
        simp only [hp, hs] at h
        exact .child hp hs rfl
          (ihf (⟨v, false, j⟩ :: ⟨f.value, true, i'⟩ :: fs) true w2 b w' (hf.push ..) (fun _ => by simp) h)

theorem lfAnc_frames_all [SharedNode W N V I] (body : Body W (List V)) (fuel k : Nat) :
    ∀ (x : V) (fs : List (Frame V I)) (w : W) (b : Bool) (w' : W), Fine false fs →
      forLoop (lfAncNext fuel) body k (⟨none, x :: fs.map Frame.value, [], fs.map Frame.iter⟩ : LfAnc N V I) w = some (b, w') →
        Run N (.childless (sliced body)) fs w b w' := by
  induction k with
  | zero => intro x fs w b w' _ h; simp [forLoop] at h
  | succ k ih =>
    intro x fs w b w' hf h
    rw [forLoop, lfAncNext_none] at h
    exact lfAnc_frames body fuel k ih fuel fs false w b w' hf (fun h => by cases h) h

theorem lfAnc_loop [SharedNode W N V I] {body : Body W (List V)} {fs : List (Frame V I)} {w w' : W} {b : Bool}
    (h : Run N (.childless (sliced body)) fs w b w') : ∀ just, Fine just fs → (just = true → fs ≠ []) →
    ∃ fuel k, conclude (forLoop (lfAncNext fuel) body k) body
      (lfShow (lfAncLoop (N := N) fuel [] (fs.map Frame.iter) (fs.map Frame.value) just w)) = some (b, w') := by
  induction h with
  | ended =>
    intro just _ hj
    cases just with
    | true => exact absurd rfl (hj rfl)
    | false => exact ⟨1, 0, by simp [lfAncLoop, askTop, lfShow, conclude]⟩
  | @halt f fs i' w w1 w2 h1 h2 =>
    intro just hf _
    cases just with
    | false =>
      have hh := hf.1
      simp [Hooks.childless, hh] at h2
    | true =>
      have hh := hf.1
      have h2 : body (f.value :: fs.map Frame.value).reverse w1 = (false, w2) := by
        simpa [Hooks.childless, hh, sliced] using h2
      exact ⟨1, 0, by simp only [lfAncLoop, askTop, List.map_cons, h1, if_true, lfShow, List.isEmpty_cons,
        Bool.false_eq_true, if_false, conclude, h2]⟩
  | @done f fs i' w w1 w2 w3 b h1 h2 hrun ih =>
    intro just hf _
    obtain ⟨fuel, k, hk⟩ := ih false hf.below (fun h => by cases h)
    cases just with
    | false =>
      have hh := hf.1
      simp only [Hooks.childless, hh, Bool.not_false, if_true, Prod.mk.injEq, true_and] at h2
      subst h2
      cases fs with
      | nil =>
        cases hrun
        exact ⟨1, 0, by simp [lfAncLoop, askTop, h1, lfShow, conclude]⟩
      | cons g gs =>
        refine ⟨fuel + 1, k, ?_⟩
        refine conclude_mono (forLoop_mono (fun s w r => lfAncNext_mono) k) (lfShow_mono fun y hy => ?_) hk
        simpa only [lfAncLoop, askTop, List.map_cons, h1, Bool.false_eq_true, if_false, List.tail_cons,
          List.isEmpty_cons] using hy
    | true =>
      have hh := hf.1
      have h2 : body (f.value :: fs.map Frame.value).reverse w1 = (true, w2) := by
        simpa [Hooks.childless, hh, sliced] using h2
      refine ⟨fuel + 1, k + 1, ?_⟩
      simp only [lfAncLoop, askTop, List.map_cons, h1, if_true, lfShow, List.isEmpty_cons, Bool.false_eq_true, if_false,
        conclude, h2, forLoop, lfAncNext_none, List.tail_cons]
      exact conclude_mono (forLoop_mono (fun s w r => lfAncNext_mono) k)
        (lfShow_mono fun y hy => lfAncLoop_mono _ _ _ _ _ _ _ hy) hk
  | stop _ _ h3 => cases h3
  | child h1 h2 h3 _ ih =>
    intro just hf _
    obtain ⟨fuel, k, hk⟩ := ih true (hf.push ..) (fun _ => by simp)
    cases h3
    refine ⟨fuel + 1, k, ?_⟩
    refine conclude_mono (forLoop_mono (fun s w r => lfAncNext_mono) k) (lfShow_mono fun y hy => ?_) hk
    simpa only [lfAncLoop, askTop, List.map_cons, h1, h2] using hy

section General
variable [TreeNode N V]
attribute [local instance] plainNode

theorem askTop_plain {st : List (List N)} (h : ∀ (n : N) (ns : List N) (r : List (List N)), st = (n :: ns) :: r → False) (w : W) :
    askTop N st w = (none, st.tail, w) := by
  rcases st with _ | ⟨_ | ⟨n, ns⟩, st⟩
  · rfl
  · rfl
  · exact absurd rfl (h n ns st)

theorem lfAncLoop_plain (old new : List (List N)) (items : List V) (pushed : Bool) (w : W) : ∃ fuel,
    lfAncLoop (N := N) fuel old new items pushed w = some (⟨(Leaves.ancLoop old new items pushed).root,
      (Leaves.ancLoop old new items pushed).items, (Leaves.ancLoop old new items pushed).old,
      (Leaves.ancLoop old new items pushed).new⟩, w) := by
  induction old, new, items, pushed using Leaves.ancLoop.induct with
  | case1 old items pushed n ns new ih =>
    obtain ⟨fuel, h⟩ := ih
    exact ⟨fuel + 1, by rw [Leaves.ancLoop, ← h]; rfl⟩
  | case2 old items new hn =>
    refine ⟨1, ?_⟩
    rw [lfAncLoop, askTop_plain hn]
    rcases new with _ | ⟨_ | ⟨m, ms⟩, new⟩
    · rw [Leaves.ancLoop.eq_def]; rfl
    · rw [Leaves.ancLoop.eq_def]; rfl
    · exact absurd rfl (hn m ms new)
  | case3 items pushed new hn hp n ns old ih =>
    obtain ⟨fuel, h⟩ := ih
    obtain rfl : pushed = false := by simpa using hp
    refine ⟨fuel + 1, ?_⟩
    rw [lfAncLoop, askTop_plain hn]
    have e : Leaves.ancLoop ((n :: ns) :: old) new items false =
        Leaves.ancLoop (ns :: old) (kids n :: new.tail) (val n :: items) true := by
      rcases new with _ | ⟨_ | ⟨m, ms⟩, new⟩
      · rw [Leaves.ancLoop.eq_def]; simp
      · rw [Leaves.ancLoop.eq_def]; simp
      · exact absurd rfl (hn m ms new)
    rw [e]
    exact h
  | case4 items pushed new hn hp old ho hi =>
    obtain rfl : pushed = false := by simpa using hp
    refine ⟨1, ?_⟩
    rw [lfAncLoop, askTop_plain hn]
    simp only [Bool.false_eq_true, if_false, askTop_plain ho, hi, List.isEmpty_nil, if_true]
    have e : Leaves.ancLoop old new items false = ⟨none, [], old.tail, new.tail⟩ := by
      rcases new with _ | ⟨_ | ⟨m, ms⟩, new⟩
      · rcases old with _ | ⟨_ | ⟨m, ms⟩, old⟩
        · rw [Leaves.ancLoop.eq_def]; simp only [Bool.false_eq_true, if_false]; split <;> simp_all
        · rw [Leaves.ancLoop.eq_def]; simp only [Bool.false_eq_true, if_false]; split <;> simp_all
        · exact absurd rfl (ho m ms old)
      · rcases old with _ | ⟨_ | ⟨m, ms⟩, old⟩
        · rw [Leaves.ancLoop.eq_def]; simp only [Bool.false_eq_true, if_false]; split <;> simp_all
        · rw [Leaves.ancLoop.eq_def]; simp only [Bool.false_eq_true, if_false]; split <;> simp_all
        · exact absurd rfl (ho m ms old)
      · exact absurd rfl (hn m ms new)
    rw [e]
  | case5 items pushed new hn hp old ho i is hi ih =>
    obtain ⟨fuel, h⟩ := ih
    obtain rfl : pushed = false := by simpa using hp
    refine ⟨fuel + 1, ?_⟩
    rw [lfAncLoop, askTop_plain hn]
    simp only [Bool.false_eq_true, if_false, askTop_plain ho, hi, List.isEmpty_cons]
    have e : Leaves.ancLoop old new items false = Leaves.ancLoop old.tail new.tail (i :: is) false := by
      rcases new with _ | ⟨_ | ⟨m, ms⟩, new⟩
      · rcases old with _ | ⟨_ | ⟨m, ms⟩, old⟩
        · rw [Leaves.ancLoop.eq_def]; simp only [Bool.false_eq_true, if_false]; split <;> simp_all
        · rw [Leaves.ancLoop.eq_def]; simp only [Bool.false_eq_true, if_false]; split <;> simp_all
        · exact absurd rfl (ho m ms old)
      · rcases old with _ | ⟨_ | ⟨m, ms⟩, old⟩
        · rw [Leaves.ancLoop.eq_def]; simp only [Bool.false_eq_true, if_false]; split <;> simp_all
        · rw [Leaves.ancLoop.eq_def]; simp only [Bool.false_eq_true, if_false]; split <;> simp_all
        · exact absurd rfl (ho m ms old)
      · exact absurd rfl (hn m ms new)
    rw [e]
    exact h

theorem lfAncNext_plain (t : Leaves.AncState N V) (w : W) : ∃ fuel,
    lfAncNext fuel (⟨t.root, t.items, t.old, t.new⟩ : LfAnc N V (List N)) w = some ((Leaves.ancNext t).1,
      ⟨(Leaves.ancNext t).2.root, (Leaves.ancNext t).2.items, (Leaves.ancNext t).2.old, (Leaves.ancNext t).2.new⟩, w) := by
  cases hr : t.root with
  | some r =>
    obtain ⟨fuel, h⟩ := lfAncLoop_plain t.old (kids r :: t.new) (val r :: t.items) true w
    refine ⟨fuel, ?_⟩
    simp only [lfAncNext, lfAncAdvance, Leaves.ancNext, streamNext, Leaves.ancAdvance, Leaves.ancGet, hr, splitW_plain, h]
  | none =>
    obtain ⟨fuel, h⟩ := lfAncLoop_plain t.old t.new t.items.tail false w
    refine ⟨fuel, ?_⟩
    simp only [lfAncNext, lfAncAdvance, Leaves.ancNext, streamNext, Leaves.ancAdvance, Leaves.ancGet, hr, h]

end General

end Shared

end TreeIter
