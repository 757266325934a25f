import Verif.Lemmas.SharedMore

/-!
# Nodes that share state: helper lemmas for breadth-first leaves and collections
-/

universe u v w x y z

namespace TreeIter

namespace Shared

variable {W : Type x} {N : Type u} {V : Type v} {I : Type w} {S : Type y} {O : Type v}

theorem forLoop_more {next : S → W → Option (Option O × S × W)} {body : Body W O} (k : Nat) :
    ∀ s w r, forLoop next body k s w = some r → forLoop next body (k + 1) s w = some r := by
  induction k with
  | zero => intro s w r hr; simp [forLoop] at hr
  | succ k ih =>
    intro s w r hr
    rw [forLoop] at hr ⊢
    exact conclude_mono ih (fun y hy => hy) hr

theorem forLoop_le {next : S → W → Option (Option O × S × W)} {body : Body W O} {k k' : Nat} (h : k ≤ k') {s : S} {w : W}
    {r : Bool × W} (hr : forLoop next body k s w = some r) : forLoop next body k' s w = some r := by
  induction h with
  | refl => exact hr
  | step _ ih => exact forLoop_more _ _ _ _ ih

/-! ## Breadth-first leaves -/

/-- The iterators of the queue that still have to be asked; the others are known to be exhausted. -/
def liveOf : List (Peeked N I) → List (Started N I)
  | [] => []
  | ⟨some none, _⟩ :: q => liveOf q
  | ⟨some (some d), i⟩ :: q => (some (some d), i) :: liveOf q
  | ⟨none, i⟩ :: q => (none, i) :: liveOf q

theorem liveOf_append (q q' : List (Peeked N I)) : liveOf (q ++ q') = liveOf q ++ liveOf q' := by
  fun_induction liveOf q with
  | case1 => rfl
  | case2 i q ih => simpa [liveOf] using ih
  | case3 d i q ih => simpa [liveOf] using ih
  | case4 i q ih => simpa [liveOf] using ih

/-- A live entry. -/
def Peeked.live (p : Peeked N I) : Prop := p.ahead ≠ some none

theorem liveOf_cons {p : Peeked N I} (h : p.live) (q : List (Peeked N I)) :
    liveOf (p :: q) = (p.ahead, p.iter) :: liveOf q := by
  obtain ⟨_ | _ | d, i⟩ := p
  · rfl
  · exact absurd rfl h
  · rfl

theorem Peeked.ask [SharedNode W N V I] {p p' : Peeked N I} {w w1 : W} {o : Option N} (h : p.next w = (o, p', w1)) :
    Ask (W := W) (p.ahead, p.iter) w o (p'.ahead, p'.iter) w1 ∧ p'.live := by
  obtain ⟨_ | o0, i⟩ := p
  · rcases hp : pollW (N := N) i w with ⟨o1, i1, w2⟩
    simp only [Peeked.next, hp, Prod.mk.injEq] at h
    obtain ⟨rfl, rfl, rfl⟩ := h
    exact ⟨.fresh hp, by simp [Peeked.live]⟩
  · simp only [Peeked.next, Prod.mk.injEq] at h
    obtain ⟨rfl, rfl, rfl⟩ := h
    exact ⟨.known, by simp [Peeked.live]⟩

theorem Peeked.next_of_ask [SharedNode W N V I] {p : Peeked N I} {i' : Started N I} {w w1 : W} {o : Option N}
    (h : Ask (W := W) (p.ahead, p.iter) w o i' w1) : p.next w = (o, ⟨none, i'.2⟩, w1) ∧ i'.1 = none := by
  obtain ⟨a, i⟩ := p
  cases h with
  | known => exact ⟨rfl, rfl⟩
  | fresh h => exact ⟨by simp only [Peeked.next, h], rfl⟩

theorem wideLvStep_skip [SharedNode W N V I] {p p' : Peeked N I} {w w1 : W} (h : p.next w = (none, p', w1))
    (q : List (Peeked N I)) : wideLvStep (⟨none, p :: q⟩ : WideLv N I) w = wideLvStep ⟨none, q⟩ w1 := by
  simp only [wideLvStep, wideLvLoop, h]

theorem wideLvNext_skip [SharedNode W N V I] {p p' : Peeked N I} {w w1 : W} (h : p.next w = (none, p', w1))
    (q : List (Peeked N I)) (fuel : Nat) : wideLvNext fuel (⟨none, p :: q⟩ : WideLv N I) w = wideLvNext fuel ⟨none, q⟩ w1 := by
  cases fuel with
  | zero => rfl
  | succ fuel => simp only [wideLvNext, wideLvStep_skip h]

/-- What a node does that is met in the queue. -/
theorem wideLvNext_meet [SharedNode W N V I] {p p' : Peeked N I} {n : N} {w w1 w2 w3 : W} {v : V} {j j' : I} {o : Option N}
    (h : p.next w = (some n, p', w1)) (hs : splitW n w1 = (v, j, w2)) (hp : pollW (N := N) j w2 = (o, j', w3))
    (q : List (Peeked N I)) (fuel : Nat) :
    wideLvNext (fuel + 1) (⟨none, p :: q⟩ : WideLv N I) w =
      match o with
      | some _ => wideLvNext fuel ⟨none, (p' :: q) ++ [⟨some o, j'⟩]⟩ w3
      | none => some (some v, ⟨none, (p' :: q) ++ [⟨some o, j'⟩]⟩, w3) := by
  cases o <;> simp [wideLvNext, wideLvStep, wideLvLoop, h, openPeek, hs, hp]

theorem wideLvNext_mono [SharedNode W N V I] (fuel : Nat) : ∀ (s : WideLv N I) (w : W) (r : Option V × WideLv N I × W),
    wideLvNext fuel s w = some r → wideLvNext (fuel + 1) s w = some r := by
  induction fuel with
  | zero => intro s w r h; simp [wideLvNext] at h
  | succ fuel ih =>
    intro s w r h
    rw [wideLvNext] at h ⊢
    rcases hs : wideLvStep s w with ⟨_ | ⟨_ | _, v⟩, s1, w1⟩
    · simpa only [hs] using h
    · simpa only [hs] using h
    · simp only [hs] at h ⊢
      exact ih _ _ _ h

theorem wideLv_frames [SharedNode W N V I] (body : Body W V) (fuel k : Nat)
    (ih : ∀ (q : List (Peeked N I)) (is js : List (Started N I)) (w : W) (b : Bool) (w' : W), is ++ js = liveOf q →
      forLoop (wideLvNext fuel) body k (⟨none, q⟩ : WideLv N I) w = some (b, w') → VisitLeafLevels body is js w b w') :
    ∀ (f' : Nat) (q : List (Peeked N I)) (is js : List (Started N I)) (w : W) (b : Bool) (w' : W), is ++ js = liveOf q →
      conclude (forLoop (wideLvNext fuel) body k) body (wideLvNext f' (⟨none, q⟩ : WideLv N I) w) = some (b, w') →
        VisitLeafLevels body is js w b w' := by
  intro f'
  induction f' with
  | zero => intro q is js w b w' _ h; simp [wideLvNext, conclude] at h
  | succ f' ihf =>
    intro q
    induction q with
    | nil =>
      intro is js w b w' hq h
      obtain ⟨rfl, rfl⟩ := List.append_eq_nil_iff.1 hq
      simp only [wideLvNext, wideLvStep, wideLvLoop, conclude, Option.some.injEq, Prod.mk.injEq] at h
      obtain ⟨rfl, rfl⟩ := h
      exact .ended
    | cons p q ihq =>
      by_cases hl : p.live
      · have main : ∀ (is js : List (Started N I)) (w : W) (b : Bool) (w' : W), is ++ js = liveOf q →
            conclude (forLoop (wideLvNext fuel) body k) body (wideLvNext (f' + 1) (⟨none, p :: q⟩ : WideLv N I) w) =
              some (b, w') →
            VisitLeafLevels body ((p.ahead, p.iter) :: is) js w b w' := by
          intro is js w b w' hq h
          rcases hn : p.next w with ⟨_ | n, p', w1⟩
          · rw [wideLvNext_skip hn] at h
            exact .done (Peeked.ask hn).1 (ihq is js w1 b w' hq h)
          · rcases hs : splitW (I := I) n w1 with ⟨v, j, w2⟩
            obtain ⟨ha, hl'⟩ := Peeked.ask hn
            rcases hp : pollW (N := N) j w2 with ⟨_ | d, j', w3⟩
            · rw [wideLvNext_meet hn hs hp] at h
              simp only [conclude] at h
              have hq' : ((p'.ahead, p'.iter) :: is) ++ js = liveOf ((p' :: q) ++ [⟨some none, j'⟩]) := by
                rw [liveOf_append, liveOf_cons hl', ← hq]
                simp [liveOf]
              rcases hb : body v w3 with ⟨_ | _, w4⟩
              · simp only [hb, Option.some.injEq, Prod.mk.injEq] at h
                obtain ⟨rfl, rfl⟩ := h
                exact .stop ha hs hp hb
              · simp only [hb] at h
                exact .leaf ha hs hp hb (ih _ _ _ w4 b w' hq' h)
            · rw [wideLvNext_meet hn hs hp] at h
              have hq' : ((p'.ahead, p'.iter) :: is) ++ (js ++ [(some (some d), j')]) =
                  liveOf ((p' :: q) ++ [⟨some (some d), j'⟩]) := by
                rw [liveOf_append, liveOf_cons hl', ← hq]
                simp [liveOf]
              exact .inner ha hs hp (ihf _ _ _ w3 b w' hq' h)
        intro is js w b w' hq h
        rw [liveOf_cons hl] at hq
        cases is with
        | cons i0 is =>
          rw [List.cons_append, List.cons.injEq] at hq
          obtain ⟨rfl, hq⟩ := hq
          exact main is js w b w' hq h
        | nil =>
          rw [List.nil_append] at hq
          subst hq
          exact .level (main (liveOf q) [] w b w' (List.append_nil _) h)
      · obtain ⟨a, i⟩ := p
        have hl := Classical.not_not.1 hl
        simp only at hl
        subst hl
        intro is js w b w' hq h
        rw [wideLvNext_skip (w1 := w) (p' := ⟨none, i⟩) rfl] at h
        exact ihq is js w b w' hq h

theorem wideLv_frames_all [SharedNode W N V I] (body : Body W V) (fuel k : Nat) :
    ∀ (q : List (Peeked N I)) (is js : List (Started N I)) (w : W) (b : Bool) (w' : W), is ++ js = liveOf q →
      forLoop (wideLvNext fuel) body k (⟨none, q⟩ : WideLv N I) w = some (b, w') → VisitLeafLevels body is js w b w' := by
  induction k with
  | zero => intro q is js w b w' _ h; simp [forLoop] at h
  | succ k ih =>
    intro q is js w b w' hq h
    exact wideLv_frames body fuel k ih fuel q is js w b w' hq h

/-- The entries known to be exhausted are passed over without a trace. -/
theorem wideLv_front [SharedNode W N V I] {i : Started N I} {l : List (Started N I)} : ∀ {q : List (Peeked N I)},
    liveOf q = i :: l → ∃ p r, p.live ∧ (p.ahead, p.iter) = i ∧ liveOf r = l ∧
      ∀ (fuel : Nat) (w : W), wideLvNext fuel (⟨none, q⟩ : WideLv N I) w = wideLvNext fuel ⟨none, p :: r⟩ w := by
  intro q
  induction q with
  | nil => intro h; cases h
  | cons p q ih =>
    intro h
    by_cases hl : p.live
    · rw [liveOf_cons hl, List.cons.injEq] at h
      exact ⟨p, q, hl, h.1, h.2, fun _ _ => rfl⟩
    · obtain ⟨a, j⟩ := p
      have hl := Classical.not_not.1 hl
      simp only at hl
      subst hl
      obtain ⟨p, r, h1, h2, h3, h4⟩ := ih h
      exact ⟨p, r, h1, h2, h3, fun fuel w => by
        rw [wideLvNext_skip (w1 := w) (p' := ⟨none, j⟩) rfl]; exact h4 fuel w⟩

theorem wideLv_none [SharedNode W N V I] {w : W} : ∀ {q : List (Peeked N I)}, liveOf q = [] →
    wideLvNext 1 (⟨none, q⟩ : WideLv N I) w = some (none, ⟨none, []⟩, w) := by
  intro q
  induction q with
  | nil => intro _; rfl
  | cons p q ih =>
    intro h
    by_cases hl : p.live
    · rw [liveOf_cons hl] at h; cases h
    · obtain ⟨a, j⟩ := p
      have hl := Classical.not_not.1 hl
      simp only at hl
      subst hl
      rw [wideLvNext_skip (w1 := w) (p' := ⟨none, j⟩) rfl]
      exact ih h

theorem wideLv_loop [SharedNode W N V I] {body : Body W V} {is js : List (Started N I)} {w w' : W} {b : Bool}
    (h : VisitLeafLevels body is js w b w') : ∀ q : List (Peeked N I), is ++ js = liveOf q →
    ∃ fuel k, conclude (forLoop (wideLvNext fuel) body k) body (wideLvNext fuel (⟨none, q⟩ : WideLv N I) w) = some (b, w') := by
  induction h with
  | ended => exact fun q hq => ⟨1, 0, by rw [wideLv_none hq.symm]; rfl⟩
  | level _ ih => exact fun q hq => ih q (by simpa using hq)
  | done ha _ ih =>
    intro q hq
    obtain ⟨p, r, -, rfl, hr, he⟩ := wideLv_front (W := W) hq.symm
    obtain ⟨hn, -⟩ := Peeked.next_of_ask ha
    obtain ⟨fuel, k, hk⟩ := ih r hr.symm
    exact ⟨fuel, k, by rw [he, wideLvNext_skip hn]; exact hk⟩
  | @inner i i' is js c d v j j' w w1 w2 w3 w' b ha hs hp _ ih =>
    intro q hq
    obtain ⟨p, r, -, rfl, hr, he⟩ := wideLv_front (W := W) hq.symm
    obtain ⟨hn, hi⟩ := Peeked.next_of_ask ha
    obtain ⟨a', i'⟩ := i'
    subst hi
    obtain ⟨fuel, k, hk⟩ := ih ((⟨none, i'⟩ :: r) ++ [⟨some (some d), j'⟩]) (by
      rw [liveOf_append, liveOf_cons (by simp [Peeked.live]), hr]; simp [liveOf])
    refine ⟨fuel + 1, k, ?_⟩
    rw [he, wideLvNext_meet hn hs hp]
    exact conclude_mono (forLoop_mono (wideLvNext_mono fuel) k) (fun y hy => hy) hk
  | stop ha hs hp hb =>
    intro q hq
    obtain ⟨p, r, -, rfl, hr, he⟩ := wideLv_front (W := W) hq.symm
    obtain ⟨hn, hi⟩ := Peeked.next_of_ask ha
    exact ⟨1, 0, by rw [he, wideLvNext_meet hn hs hp]; simp only [conclude, hb]⟩
  | @leaf i i' is js c v j j' w w1 w2 w3 w4 w' b ha hs hp hb _ ih =>
    intro q hq
    obtain ⟨p, r, -, rfl, hr, he⟩ := wideLv_front (W := W) hq.symm
    obtain ⟨hn, hi⟩ := Peeked.next_of_ask ha
    obtain ⟨a', i'⟩ := i'
    subst hi
    obtain ⟨fuel, k, hk⟩ := ih ((⟨none, i'⟩ :: r) ++ [⟨some none, j'⟩]) (by
      rw [liveOf_append, liveOf_cons (by simp [Peeked.live]), hr]; simp [liveOf])
    refine ⟨fuel + 1, k + 1, ?_⟩
    rw [he, wideLvNext_meet hn hs hp]
    simp only [conclude, hb]
    rw [forLoop]
    exact conclude_mono (forLoop_mono (wideLvNext_mono fuel) k) (fun y hy => wideLvNext_mono _ _ _ _ hy) hk

/-! ## Collections -/

variable {C : Type z} {ask : C → W → Option N × C × W} {mk : N → S}

theorem collPull_mono {next next' : S → W → Option (Option O × S × W)}
    (h : ∀ s w r, next s w = some r → next' s w = some r) (fuel : Nat) : ∀ {fuel' : Nat}, fuel ≤ fuel' →
    ∀ (c : C) (w : W) (r : Option O × Coll C S × W), collPull ask mk next fuel c w = some r →
      collPull ask mk next' fuel' c w = some r := by
  induction fuel with
  | zero => intro fuel' _ c w r hr; simp [collPull] at hr
  | succ fuel ih =>
    intro fuel' hf c w r hr
    obtain ⟨fuel', rfl⟩ : ∃ m, fuel' = m + 1 := ⟨fuel' - 1, by omega⟩
    rw [collPull] at hr ⊢
    rcases ha : ask c w with ⟨_ | n, c1, w1⟩
    · simpa only [ha] using hr
    · simp only [ha] at hr ⊢
      cases hn : next (mk n) w1 with
      | none => simp [hn] at hr
      | some y =>
        rw [h _ _ _ hn]
        obtain ⟨_ | o, s, w2⟩ := y
        · simp only [hn] at hr ⊢
          exact ih (by omega) _ _ _ hr
        · simpa only [hn] using hr

theorem collNext_mono {next next' : S → W → Option (Option O × S × W)}
    (h : ∀ s w r, next s w = some r → next' s w = some r) {fuel fuel' : Nat} (hf : fuel ≤ fuel') (s : Coll C S) (w : W)
    (r : Option O × Coll C S × W) (hr : collNext ask mk next fuel s w = some r) :
    collNext ask mk next' fuel' s w = some r := by
  rcases s with ⟨c, _ | i⟩
  · exact collPull_mono h fuel hf c w r hr
  · simp only [collNext] at hr ⊢
    cases hn : next i w with
    | none => simp [hn] at hr
    | some y =>
      rw [h _ _ _ hn]
      obtain ⟨_ | o, s, w2⟩ := y
      · simp only [hn] at hr ⊢
        exact collPull_mono h fuel hf _ _ _ hr
      · simpa only [hn] using hr

/-- From the loop over a collection to nested loops. -/
theorem coll_frames (next : S → W → Option (Option O × S × W)) (body : Body W O) (one : N → W → Bool → W → Prop)
    (hone : ∀ n w b w' k, forLoop next body k (mk n) w = some (b, w') → one n w b w') (fuel k : Nat) :
    (∀ (c : C) (i : S) (w : W) (b : Bool) (w' : W),
      forLoop (collNext ask mk next fuel) body k ⟨c, some i⟩ w = some (b, w') →
        (b = false ∧ ∃ k', forLoop next body k' i w = some (false, w')) ∨
          ∃ k' w1, forLoop next body k' i w = some (true, w1) ∧ VisitAll ask one c w1 b w') ∧
    ∀ (f' : Nat) (c : C) (w : W) (b : Bool) (w' : W),
      conclude (forLoop (collNext ask mk next fuel) body k) body (collPull ask mk next f' c w) = some (b, w') →
        VisitAll ask one c w b w' := by
  induction k with
  | zero =>
    refine ⟨fun c i w b w' h => by simp [forLoop] at h, fun f' => ?_⟩
    induction f' with
    | zero => intro c w b w' h; simp [collPull, conclude] at h
    | succ f' ihf =>
      intro c w b w' h
      rw [collPull] at h
      rcases ha : ask c w with ⟨_ | n, c1, w1⟩
      · simp only [ha, conclude, Option.some.injEq, Prod.mk.injEq] at h
        obtain ⟨rfl, rfl⟩ := h
        exact .ended ha
      · simp only [ha] at h
        cases hn : next (mk n) w1 with
        | none => simp [hn, conclude] at h
        | some y =>
          obtain ⟨_ | o, s, w2⟩ := y
          · simp only [hn] at h
            exact .tree ha (hone n w1 true w2 1 (by rw [forLoop, hn, conclude])) (ihf c1 w2 b w' h)
          · simp only [hn, conclude] at h
            rcases hb : body o w2 with ⟨_ | _, w3⟩
            · simp only [hb, Option.some.injEq, Prod.mk.injEq] at h
              obtain ⟨rfl, rfl⟩ := h
              exact .stop ha (hone n w1 false w3 1 (by rw [forLoop, hn, conclude, hb]))
            · simp [hb, forLoop] at h
  | succ k ih =>
    have first : ∀ (c : C) (i : S) (w : W) (b : Bool) (w' : W),
        forLoop (collNext ask mk next fuel) body (k + 1) ⟨c, some i⟩ w = some (b, w') →
        (b = false ∧ ∃ k', forLoop next body k' i w = some (false, w')) ∨
          ∃ k' w1, forLoop next body k' i w = some (true, w1) ∧ VisitAll ask one c w1 b w' := by
      intro c i w b w' h
      rw [forLoop] at h
      simp only [collNext] at h
      cases hn : next i w with
      | none => simp [hn, conclude] at h
      | some y =>
        obtain ⟨_ | o, s, w2⟩ := y
        · simp only [hn] at h
          exact .inr ⟨1, w2, by rw [forLoop, hn, conclude], ih.2 fuel c w2 b w' h⟩
        · simp only [hn, conclude] at h
          rcases hb : body o w2 with ⟨_ | _, w3⟩
          · simp only [hb, Option.some.injEq, Prod.mk.injEq] at h
            obtain ⟨rfl, rfl⟩ := h
            exact .inl ⟨rfl, 1, by rw [forLoop, hn, conclude, hb]⟩
          · simp only [hb] at h
            rcases ih.1 c s w3 b w' h with ⟨rfl, k', hk⟩ | ⟨k', w4, hk, hv⟩
            · exact .inl ⟨rfl, k' + 1, by rw [forLoop, hn, conclude, hb]; exact hk⟩
            · exact .inr ⟨k' + 1, w4, by rw [forLoop, hn, conclude, hb]; exact hk, hv⟩
    refine ⟨first, fun f' => ?_⟩
    induction f' with
    | zero => intro c w b w' h; simp [collPull, conclude] at h
    | succ f' ihf =>
      intro c w b w' h
      rw [collPull] at h
      rcases ha : ask c w with ⟨_ | n, c1, w1⟩
      · simp only [ha, conclude, Option.some.injEq, Prod.mk.injEq] at h
        obtain ⟨rfl, rfl⟩ := h
        exact .ended ha
      · simp only [ha] at h
        cases hn : next (mk n) w1 with
        | none => simp [hn, conclude] at h
        | some y =>
          obtain ⟨_ | o, s, w2⟩ := y
          · simp only [hn] at h
            exact .tree ha (hone n w1 true w2 1 (by rw [forLoop, hn, conclude])) (ihf c1 w2 b w' h)
          · simp only [hn, conclude] at h
            rcases hb : body o w2 with ⟨_ | _, w3⟩
            · simp only [hb, Option.some.injEq, Prod.mk.injEq] at h
              obtain ⟨rfl, rfl⟩ := h
              exact .stop ha (hone n w1 false w3 1 (by rw [forLoop, hn, conclude, hb]))
            · simp only [hb] at h
              rcases first c1 s w3 b w' h with ⟨rfl, k', hk⟩ | ⟨k', w4, hk, hv⟩
              · exact .stop ha (hone n w1 false w' (k' + 1) (by rw [forLoop, hn, conclude, hb]; exact hk))
              · exact .tree ha (hone n w1 true w4 (k' + 1) (by rw [forLoop, hn, conclude, hb]; exact hk)) hv

/-- A loop over one tree, inside the loop over the collection. -/
theorem coll_inside {next : S → W → Option (Option O × S × W)} {body : Body W O} {fuel : Nat} {c : C} (k : Nat) :
    ∀ (i : S) (w : W) (b : Bool) (w1 : W), forLoop next body k i w = some (b, w1) →
      (b = false → forLoop (collNext ask mk next fuel) body k ⟨c, some i⟩ w = some (false, w1)) ∧
      ∀ (k2 : Nat) (r : Bool × W), b = true →
        conclude (forLoop (collNext ask mk next fuel) body k2) body (collPull ask mk next fuel c w1) = some r →
        forLoop (collNext ask mk next fuel) body (k + k2) ⟨c, some i⟩ w = some r := by
  induction k with
  | zero => intro i w b w1 h; simp [forLoop] at h
  | succ k ih =>
    intro i w b w1 h
    rw [forLoop] at h
    cases hn : next i w with
    | none => simp [hn, conclude] at h
    | some y =>
      obtain ⟨_ | o, s, w2⟩ := y
      · simp only [hn, conclude, Option.some.injEq, Prod.mk.injEq] at h
        obtain ⟨rfl, rfl⟩ := h
        refine ⟨fun h => (by cases h), fun k2 r _ hr => ?_⟩
        refine forLoop_le (k := k2 + 1) (by omega) ?_
        rw [forLoop]
        simpa only [collNext, hn] using hr
      · simp only [hn, conclude] at h
        rcases hb : body o w2 with ⟨_ | _, w3⟩
        · simp only [hb, Option.some.injEq, Prod.mk.injEq] at h
          obtain ⟨rfl, rfl⟩ := h
          refine ⟨fun _ => ?_, fun _ _ h => (by cases h)⟩
          rw [forLoop]
          simp only [collNext, hn, conclude, hb]
        · simp only [hb] at h
          have := ih s w3 b w1 h
          refine ⟨fun h => ?_, fun k2 r h hr => ?_⟩
          · rw [forLoop]
            simp only [collNext, hn, conclude, hb]
            exact this.1 h
          · rw [Nat.add_right_comm, forLoop]
            simp only [collNext, hn, conclude, hb]
            exact this.2 k2 r h hr

theorem fuel_le {next : Nat → S → W → Option (Option O × S × W)}
    (hm : ∀ fuel s w r, next fuel s w = some r → next (fuel + 1) s w = some r) {f f' : Nat} (h : f ≤ f') :
    ∀ s w r, next f s w = some r → next f' s w = some r := by
  induction h with
  | refl => exact fun _ _ _ h => h
  | step _ ih => exact fun s w r h => hm _ _ _ _ (ih s w r h)

theorem coll_loop {next : Nat → S → W → Option (Option O × S × W)} {body : Body W O} {one : N → W → Bool → W → Prop}
    (hm : ∀ fuel s w r, next fuel s w = some r → next (fuel + 1) s w = some r)
    (hone : ∀ n w b w', one n w b w' → ∃ fuel k, forLoop (next fuel) body k (mk n) w = some (b, w'))
    {c : C} {w w' : W} {b : Bool} (h : VisitAll ask one c w b w') :
    ∃ fuel k, conclude (forLoop (collNext ask mk (next fuel) fuel) body k) body (collPull ask mk (next fuel) fuel c w) =
      some (b, w') := by
  -- the first call on a tree, inside the loop that looks for a tree
  have step : ∀ {fuel k : Nat} {c c1 : C} {n : N} {w w1 : W} {r : Bool × W},
      forLoop (collNext ask mk (next fuel) fuel) body (k + 1) ⟨c1, some (mk n)⟩ w1 = some r →
      ask c w = (some n, c1, w1) →
      conclude (forLoop (collNext ask mk (next (fuel + 1)) (fuel + 1)) body k) body
        (collPull ask mk (next (fuel + 1)) (fuel + 1) c w) = some r := by
    intro fuel k c c1 n w w1 r hr ha
    rw [forLoop] at hr
    refine conclude_mono (forLoop_mono (collNext_mono (hm fuel) (Nat.le_succ fuel)) k) (fun y hy => ?_) hr
    rw [collPull]
    simp only [ha]
    simp only [collNext] at hy
    cases hn : next fuel (mk n) w1 with
    | none => simp [hn] at hy
    | some z =>
      rw [hm _ _ _ _ hn]
      obtain ⟨_ | o, s, w2⟩ := z
      · simp only [hn] at hy ⊢
        exact collPull_mono (hm fuel) fuel (Nat.le_refl _) _ _ _ hy
      · simpa only [hn] using hy
  induction h with
  | ended ha => exact ⟨1, 0, by simp only [collPull, ha, conclude]⟩
  | stop ha h1 =>
    obtain ⟨f, _ | k, hk⟩ := hone _ _ _ _ h1
    · simp [forLoop] at hk
    · exact ⟨f + 1, k, step ((coll_inside (k + 1) _ _ _ _ hk).1 rfl) ha⟩
  | tree ha h1 _ ih =>
    obtain ⟨f1, _ | k1, hk1⟩ := hone _ _ _ _ h1
    · simp [forLoop] at hk1
    · obtain ⟨f2, k2, hk2⟩ := ih
      have l1 : f1 ≤ f1 + f2 := by omega
      have l2 : f2 ≤ f1 + f2 := by omega
      have e1 := forLoop_mono (fuel_le hm l1) _ _ _ _ hk1
      have e2 := conclude_mono (forLoop_mono (collNext_mono (fuel_le hm l2) l2) k2)
        (fun y hy => collPull_mono (fuel_le hm l2) f2 l2 _ _ y hy) hk2
      have e3 := (coll_inside (k1 + 1) _ _ _ _ e1).2 k2 _ rfl e2
      rw [Nat.add_right_comm] at e3
      exact ⟨f1 + f2 + 1, k1 + k2, step e3 ha⟩

/-- From one tree to collections. -/
theorem coll_iff
    {next : Nat → S → W → Option (Option O × S × W)} {body : Body W O} {one : N → W → Bool → W → Prop}
    (hm : ∀ fuel s w r, next fuel s w = some r → next (fuel + 1) s w = some r)
    (h : ∀ n w b w', (∃ fuel k, forLoop (next fuel) body k (mk n) w = some (b, w')) ↔ one n w b w')
    (c : C) (w : W) (b : Bool) (w' : W) :
    (∃ fuel k, forLoop (collNext ask mk (next fuel) fuel) body k ⟨c, none⟩ w = some (b, w')) ↔
      VisitAll ask one c w b w' := by
  constructor
  · rintro ⟨fuel, _ | k, hk⟩
    · simp [forLoop] at hk
    · exact (coll_frames (next fuel) body one (fun n w b w' k hk => (h n w b w').1 ⟨fuel, k, hk⟩) fuel k).2 fuel c w b w' hk
  · intro hv
    obtain ⟨fuel, k, hk⟩ := coll_loop hm (fun n w b w' ho => (h n w b w').2 ho) hv
    exact ⟨fuel, k + 1, hk⟩

end Shared

end TreeIter
