import Verif.Spec.SharedWide
import Verif.Lemmas.BfsAnc
import Verif.Lemmas.BfsCtx

/-!
# Breadth-first ancestors and contexts over nodes that share state: helper lemmas
-/

universe u v w x y

namespace TreeIter

namespace Shared

open Bfs

variable {W : Type x} {N : Type u} {V : Type v} {C : Type y} {I : Type w}

/-! ## Ancestors -/

/-- The visitor with one queue. -/
inductive RunWideAnc (N : Type u) [SharedNode W N V I] (body : Body W (List V)) : List (List V × I) → W → Ending W → Prop
  | ended {w : W} : RunWideAnc N body [] w (.ended w)
  | done {as : List V} {i i' : I} {q : List (List V × I)} {w w1 : W} {e : Ending W} :
      pollW (N := N) i w = (none, i', w1) → RunWideAnc N body q w1 e → RunWideAnc N body ((as, i) :: q) w e
  | stop {as : List V} {i i' j : I} {q : List (List V × I)} {c : N} {v : V} {w w1 w2 w3 : W} :
      pollW i w = (some c, i', w1) → splitW c w1 = (v, j, w2) → body (as ++ [v]) w2 = (false, w3) →
      RunWideAnc N body ((as, i) :: q) w (.broke w3)
  | child {as : List V} {i i' j : I} {q : List (List V × I)} {c : N} {v : V} {w w1 w2 w3 : W} {e : Ending W} :
      pollW i w = (some c, i', w1) → splitW c w1 = (v, j, w2) → body (as ++ [v]) w2 = (true, w3) →
      RunWideAnc N body ((as, i') :: q ++ [(as ++ [v], j)]) w3 e → RunWideAnc N body ((as, i) :: q) w e

theorem runWideAnc_of_visit [SharedNode W N V I] {body : Body W (List V)} {is js : List (List V × I)} {w : W} {e : Ending W}
    (h : VisitLevelsAnc N body is js w e) : RunWideAnc N body (is ++ js) w e := by
  induction h with
  | ended => exact .ended
  | level _ ih => simpa using ih
  | done h1 _ ih => exact .done h1 ih
  | stop h1 h2 h3 => exact .stop h1 h2 h3
  | child h1 h2 h3 _ ih => exact .child h1 h2 h3 (by simpa using ih)

theorem visit_of_runWideAnc [SharedNode W N V I] {body : Body W (List V)} {q : List (List V × I)} {w : W} {e : Ending W}
    (h : RunWideAnc N body q w e) : ∀ is js, q = is ++ js → VisitLevelsAnc N body is js w e := by
  have shift : ∀ (x : List V × I) (q : List (List V × I)) (w : W) (e : Ending W),
      (∀ is js, q = is ++ js → VisitLevelsAnc N body (x :: is) js w e) →
      ∀ is js, x :: q = is ++ js → VisitLevelsAnc N body is js w e := by
    intro x q w e hq is js he
    cases is with
    | nil =>
      obtain rfl : js = x :: q := by simpa using he.symm
      exact .level (hq q [] (by simp))
    | cons y is =>
      obtain ⟨rfl, rfl⟩ : x = y ∧ q = is ++ js := by simpa using he
      exact hq is js rfl
  induction h with
  | ended =>
    intro is js he
    obtain ⟨rfl, rfl⟩ : is = [] ∧ js = [] := by simpa using he
    exact .ended
  | done h1 _ ih => exact shift _ _ _ _ fun is js he => .done h1 (ih is js he)
  | stop h1 h2 h3 => exact shift _ _ _ _ fun is js he => .stop h1 h2 h3
  | child h1 h2 h3 _ ih => exact shift _ _ _ _ fun is js he => .child h1 h2 h3 (ih _ _ (by simp [he]))

/-- The cache stands for the ancestors of the iterators in the queue. -/
def WideInv (cs : CacheState V) (queue : List I) (q : List (List V × I)) : Prop :=
  ∃ z : Zip V, settle cs = .ok z.enc ∧ q.map Prod.fst = (z.cur :: z.others).map List.reverse ∧
    Levels (z.cur :: z.others) ∧ queue = q.map Prod.snd

/-- One round of the loop. -/
theorem wideAncLoop_step [SharedNode W N V I] {cs : CacheState V} {queue : List I} {q : List (List V × I)}
    (h : WideInv cs queue q) (w : W) :
    ∃ as i q', q = (as, i) :: q' ∧
      (∀ i' w1, pollW (N := N) i w = (none, i', w1) →
        (q' = [] → ∃ s, s.cs.items = [] ∧ wideAncLoop N queue cs w = .ok (s, w1)) ∧
        (q' ≠ [] → ∃ cs' queue', WideInv cs' queue' q' ∧ wideAncLoop N queue cs w = wideAncLoop N queue' cs' w1)) ∧
      ∀ (c : N) i' w1 v j w2, pollW i w = (some c, i', w1) → splitW c w1 = (v, j, w2) →
        ∃ cs' queue', cs'.items.reverse = as ++ [v] ∧ WideInv cs' queue' ((as, i') :: q' ++ [(as ++ [v], j)]) ∧
          wideAncLoop N queue cs w = .ok (⟨false, cs', queue'⟩, w2) := by
  obtain ⟨z, h1, h2, h3, rfl⟩ := h
  rcases q with _ | ⟨⟨as, i⟩, q'⟩
  · simp at h2
  simp only [List.map_cons, List.cons.injEq] at h2
  obtain ⟨rfl, h2⟩ := h2
  refine ⟨_, i, q', rfl, ?_, ?_⟩
  · intro i' w1 hp
    obtain ⟨r1, r2⟩ := retire_spec z h3.le
    have hoq : z.others = [] ↔ q' = [] := by
      constructor
      · intro ho
        simpa [ho] using h2
      · rintro rfl
        simpa using h2.symm
    constructor
    · intro hq
      obtain ⟨s, hs⟩ := r1 (hoq.2 hq)
      refine ⟨⟨false, { s with items := [] }, []⟩, rfl, ?_⟩
      rw [wideAncLoop, h1]
      simp [hp, hs, hq]
    · intro hq
      obtain ⟨z', e1, e2⟩ := r2 (fun h => hq (hoq.1 h))
      refine ⟨z'.enc, q'.map Prod.snd, ⟨z', settle_enc z', by rw [e2, h2], by rw [e2]; exact h3.tail, rfl⟩, ?_⟩
      rw [wideAncLoop, h1]
      simp [hp, e1, hq]
  · intro c i' w1 v j w2 hp hs
    refine ⟨{ z.enc with items := v :: z.enc.items }, (i' :: q'.map Prod.snd) ++ [j], by simp [Zip.items_enc], ?_, ?_⟩
    · refine ⟨z.push v, settle_push z v, ?_, ?_, by simp⟩
      · simp [Zip.cur_push, Zip.others_push, h2]
      · rw [Zip.cur_push, Zip.others_push]
        exact h3.push _
    · rw [wideAncLoop, h1]
      simp only [List.map_cons, hp, hs]

theorem wideAnc_sound [SharedNode W N V I] {body : Body W (List V)} (k : Nat) (q : List (List V × I)) :
    ∀ (cs : CacheState V) (queue : List I) (w : W) (e : Ending W), WideInv cs queue q →
      wideAncConclude (wideAncWhile N body k) body (wideAncLoop N queue cs w) = some e → RunWideAnc N body q w e := by
  induction k generalizing q with
  | zero =>
    induction q with
    | nil => rintro cs queue w e ⟨z, _, h2, _⟩; simp at h2
    | cons x q ih =>
      intro cs queue w e hI h
      obtain ⟨as, i, q', hq, hd, hc⟩ := wideAncLoop_step (N := N) hI w
      obtain ⟨rfl, rfl⟩ : x = (as, i) ∧ q = q' := by simpa using hq
      rcases hp : pollW (N := N) i w with ⟨_ | c, i', w1⟩
      · obtain ⟨d1, d2⟩ := hd i' w1 hp
        by_cases hqe : q = []
        · obtain ⟨s, hs, hl⟩ := d1 hqe
          simp only [hl, wideAncConclude, hs, List.length_nil, if_true, Option.some.injEq] at h
          subst h hqe
          exact .done hp .ended
        · obtain ⟨cs', queue', hI', hl⟩ := d2 hqe
          rw [hl] at h
          exact .done hp (ih cs' queue' w1 e hI' h)
      · rcases hs : splitW c w1 with ⟨v, j, w2⟩
        obtain ⟨cs', queue', hr, hI', hl⟩ := hc c i' w1 v j w2 hp hs
        have hne : cs'.items.length ≠ 0 := by
          rw [← List.length_reverse, hr]
          simp
        simp only [hl, wideAncConclude, hne, if_false, hr] at h
        rcases hb : body (as ++ [v]) w2 with ⟨_ | _, w3⟩
        · simp only [hb, Option.some.injEq] at h
          subst h
          exact .stop hp hs hb
        · simp [hb, wideAncWhile] at h
  | succ k ihk =>
    induction q with
    | nil => rintro cs queue w e ⟨z, _, h2, _⟩; simp at h2
    | cons x q ih =>
      intro cs queue w e hI h
      obtain ⟨as, i, q', hq, hd, hc⟩ := wideAncLoop_step (N := N) hI w
      obtain ⟨rfl, rfl⟩ : x = (as, i) ∧ q = q' := by simpa using hq
      rcases hp : pollW (N := N) i w with ⟨_ | c, i', w1⟩
      · obtain ⟨d1, d2⟩ := hd i' w1 hp
        by_cases hqe : q = []
        · obtain ⟨s, hs, hl⟩ := d1 hqe
          simp only [hl, wideAncConclude, hs, List.length_nil, if_true, Option.some.injEq] at h
          subst h hqe
          exact .done hp .ended
        · obtain ⟨cs', queue', hI', hl⟩ := d2 hqe
          rw [hl] at h
          exact .done hp (ih cs' queue' w1 e hI' h)
      · rcases hs : splitW c w1 with ⟨v, j, w2⟩
        obtain ⟨cs', queue', hr, hI', hl⟩ := hc c i' w1 v j w2 hp hs
        have hne : cs'.items.length ≠ 0 := by
          rw [← List.length_reverse, hr]
          simp
        simp only [hl, wideAncConclude, hne, if_false, hr] at h
        rcases hb : body (as ++ [v]) w2 with ⟨_ | _, w3⟩
        · simp only [hb, Option.some.injEq] at h
          subst h
          exact .stop hp hs hb
        · simp only [hb, wideAncWhile, wideAncAdvance, Bool.false_eq_true, if_false] at h
          exact .child hp hs hb (ihk _ cs' queue' w3 e hI' h)

theorem wideAnc_complete [SharedNode W N V I] {body : Body W (List V)} {q : List (List V × I)} {w : W} {e : Ending W}
    (h : RunWideAnc N body q w e) : ∀ (cs : CacheState V) (queue : List I), WideInv cs queue q →
      ∃ k, wideAncConclude (wideAncWhile N body k) body (wideAncLoop N queue cs w) = some e := by
  induction h with
  | ended => rintro cs queue ⟨z, _, h2, _⟩; simp at h2
  | @done as i i' q w w1 e hp hrun ih =>
    intro cs queue hI
    obtain ⟨as', j', q', hq, hd, hc⟩ := wideAncLoop_step (N := N) hI w
    obtain ⟨⟨rfl, rfl⟩, rfl⟩ : (as = as' ∧ i = j') ∧ q = q' := by simpa using hq
    obtain ⟨d1, d2⟩ := hd i' w1 hp
    by_cases hqe : q = []
    · obtain ⟨s, hs, hl⟩ := d1 hqe
      subst hqe
      cases hrun
      exact ⟨0, by simp [hl, wideAncConclude, hs]⟩
    · obtain ⟨cs', queue', hI', hl⟩ := d2 hqe
      rw [hl]
      exact ih cs' queue' hI'
  | @stop as i i' j q c v w w1 w2 w3 hp hs hb =>
    intro cs queue hI
    obtain ⟨as', j', q', hq, hd, hc⟩ := wideAncLoop_step (N := N) hI w
    obtain ⟨⟨rfl, rfl⟩, rfl⟩ : (as = as' ∧ i = j') ∧ q = q' := by simpa using hq
    obtain ⟨cs', queue', hr, hI', hl⟩ := hc c i' w1 v j w2 hp hs
    have hne : cs'.items.length ≠ 0 := by
      rw [← List.length_reverse, hr]
      simp
    exact ⟨0, by simp only [hl, wideAncConclude, hne, if_false, hr, hb]⟩
  | @child as i i' j q c v w w1 w2 w3 e hp hs hb hrun ih =>
    intro cs queue hI
    obtain ⟨as', j', q', hq, hd, hc⟩ := wideAncLoop_step (N := N) hI w
    obtain ⟨⟨rfl, rfl⟩, rfl⟩ : (as = as' ∧ i = j') ∧ q = q' := by simpa using hq
    obtain ⟨cs', queue', hr, hI', hl⟩ := hc c i' w1 v j w2 hp hs
    have hne : cs'.items.length ≠ 0 := by
      rw [← List.length_reverse, hr]
      simp
    obtain ⟨k, hk⟩ := ih cs' queue' hI'
    refine ⟨k + 1, ?_⟩
    simp only [hl, wideAncConclude, hne, if_false, hr, hb, wideAncWhile, wideAncAdvance, Bool.false_eq_true]
    exact hk

theorem wideInv_root (v : V) (i : I) : WideInv (⟨[v], [], .mk none []⟩ : CacheState V) [i] [([v], i)] :=
  ⟨.root v [], settle_enc (.root v []), by simp [Zip.cur, Zip.others],
    ⟨by simp [Zip.cur, Zip.others], by simp [Zip.others]⟩, rfl⟩

/-! ## Contexts -/

/-- The visitor with one queue. -/
inductive RunWideCtx (N : Type u) [CtxNode W N V C I] (body : WideBody W V C) : List (Below V I) → W → Ending W → Prop
  | ended {w : W} : RunWideCtx N body [] w (.ended w)
  | done {p : List Nat} {as : List V} {k : Nat} {i i' : I} {q : List (Below V I)} {w w1 : W} {e : Ending W} :
      pollC (N := N) i w = (none, i', w1) → RunWideCtx N body q w1 e → RunWideCtx N body (⟨p, as, k, i⟩ :: q) w e
  | overflow {p : List Nat} {as : List V} {k : Nat} {i i' : I} {o : Option N} {q : List (Below V I)} {w w1 : W} :
      pollC i w = (some o, i', w1) → 2 ^ 64 ≤ k + 1 → RunWideCtx N body (⟨p, as, k, i⟩ :: q) w .panicked
  | empty {p : List Nat} {as : List V} {k : Nat} {i i' : I} {q : List (Below V I)} {w w1 : W} {e : Ending W} :
      pollC (N := N) i w = (some none, i', w1) → k + 1 < 2 ^ 64 → RunWideCtx N body (⟨p, as, k + 1, i'⟩ :: q) w1 e →
      RunWideCtx N body (⟨p, as, k, i⟩ :: q) w e
  | stop {p : List Nat} {as : List V} {k : Nat} {i i' : I} {q : List (Below V I)} {d : N} {v : V} {c c1 : C}
      {w w1 w2 w3 : W} : pollC i w = (some (some d), i', w1) → k + 1 < 2 ^ 64 → splitC d w1 = (v, c, w2) →
      body (p ++ [k]) (as ++ [v]) c w2 = (false, c1, w3) → RunWideCtx N body (⟨p, as, k, i⟩ :: q) w (.broke w3)
  | child {p : List Nat} {as : List V} {k : Nat} {i i' j : I} {q : List (Below V I)} {d : N} {v : V} {c c1 : C}
      {w w1 w2 w3 w4 : W} {e : Ending W} : pollC i w = (some (some d), i', w1) → k + 1 < 2 ^ 64 →
      splitC d w1 = (v, c, w2) → body (p ++ [k]) (as ++ [v]) c w2 = (true, c1, w3) → intoC (N := N) c1 w3 = (j, w4) →
      RunWideCtx N body (⟨p, as, k + 1, i'⟩ :: q ++ [⟨p ++ [k], as ++ [v], 0, j⟩]) w4 e →
      RunWideCtx N body (⟨p, as, k, i⟩ :: q) w e

theorem runWideCtx_of_visit [CtxNode W N V C I] {body : WideBody W V C} {is js : List (Below V I)} {w : W} {e : Ending W}
    (h : VisitLevelsCtx N body is js w e) : RunWideCtx N body (is ++ js) w e := by
  induction h with
  | ended => exact .ended
  | level _ ih => simpa using ih
  | done h1 _ ih => exact .done h1 ih
  | overflow h1 h2 => exact .overflow h1 h2
  | empty h1 h2 _ ih => exact .empty h1 h2 ih
  | stop h1 h2 h3 h4 => exact .stop h1 h2 h3 h4
  | child h1 h2 h3 h4 h5 _ ih => exact .child h1 h2 h3 h4 h5 (by simpa using ih)

theorem visit_of_runWideCtx [CtxNode W N V C I] {body : WideBody W V C} {q : List (Below V I)} {w : W} {e : Ending W}
    (h : RunWideCtx N body q w e) : ∀ is js, q = is ++ js → VisitLevelsCtx N body is js w e := by
  have shift : ∀ (x : Below V I) (q : List (Below V I)) (w : W) (e : Ending W),
      (∀ is js, q = is ++ js → VisitLevelsCtx N body (x :: is) js w e) →
      ∀ is js, x :: q = is ++ js → VisitLevelsCtx N body is js w e := by
    intro x q w e hq is js he
    cases is with
    | nil =>
      obtain rfl : js = x :: q := by simpa using he.symm
      exact .level (hq q [] (by simp))
    | cons y is =>
      obtain ⟨rfl, rfl⟩ : x = y ∧ q = is ++ js := by simpa using he
      exact hq is js rfl
  induction h with
  | ended =>
    intro is js he
    obtain ⟨rfl, rfl⟩ : is = [] ∧ js = [] := by simpa using he
    exact .ended
  | done h1 _ ih => exact shift _ _ _ _ fun is js he => .done h1 (ih is js he)
  | overflow h1 h2 => exact shift _ _ _ _ fun is js he => .overflow h1 h2
  | empty h1 h2 _ ih => exact shift _ _ _ _ fun is js he => .empty h1 h2 (ih _ _ (by simp [he]))
  | stop h1 h2 h3 h4 => exact shift _ _ _ _ fun is js he => .stop h1 h2 h3 h4
  | child h1 h2 h3 h4 h5 _ ih => exact shift _ _ _ _ fun is js he => .child h1 h2 h3 h4 h5 (ih _ _ (by simp [he]))

/-! ### The scan -/

theorem checkedSucc_ok {k : Nat} (h : k + 1 < 2 ^ 64) : checkedSucc k = .ok (k + 1) := by rw [checkedSucc, if_pos h]

theorem checkedSucc_error {k : Nat} (h : 2 ^ 64 ≤ k + 1) : checkedSucc k = .error .overflow := by
  rw [checkedSucc, if_neg (by omega)]

theorem wideScan_mono [CtxNode W N V C I] {f f' : Nat} {i : I} {k : Nat} {w : W}
    {r : Except Panic (Option N × I × Nat × W)} (hf : f ≤ f') (h : wideScan N f i k w = some r) :
    wideScan N f' i k w = some r := by
  induction f generalizing f' i k w with
  | zero => simp [wideScan] at h
  | succ f ih =>
    obtain ⟨f', rfl⟩ : ∃ g, f' = g + 1 := ⟨f' - 1, by omega⟩
    rw [wideScan] at h ⊢
    rcases hp : pollC (N := N) i w with ⟨_ | _ | n, i', w1⟩ <;> simp only [hp] at h ⊢
    · exact h
    · cases hk : checkedSucc k with
      | error e => simpa only [hk] using h
      | ok k' =>
        simp only [hk] at h ⊢
        exact ih (by omega) h
    · exact h

/-- What the scan finds, the visitor finds. -/
theorem run_of_scan [CtxNode W N V C I] {body : WideBody W V C} {p : List Nat} {as : List V} {q : List (Below V I)}
    {e : Ending W} (f : Nat) : ∀ (i : I) (k : Nat) (w : W),
      (∀ x, wideScan N f i k w = some (.error x) → RunWideCtx N body (⟨p, as, k, i⟩ :: q) w .panicked) ∧
      ∀ o i' k' w1, wideScan N f i k w = some (.ok (o, i', k', w1)) →
        (∀ i0 w0, pollC i0 w0 = (o.map some, i', w1) → RunWideCtx N body (⟨p, as, k', i0⟩ :: q) w0 e) →
        RunWideCtx N body (⟨p, as, k, i⟩ :: q) w e := by
  induction f with
  | zero => intro i k w; simp [wideScan]
  | succ f ih =>
    intro i k w
    rw [wideScan]
    rcases hp : pollC (N := N) i w with ⟨_ | _ | n, i', w1⟩ <;> simp only
    · refine ⟨by simp, ?_⟩
      rintro o i2 k' w2 h hrun
      simp only [Option.some.injEq, Except.ok.injEq, Prod.mk.injEq] at h
      obtain ⟨rfl, rfl, rfl, rfl⟩ := h
      exact hrun i w hp
    · by_cases hk : k + 1 < 2 ^ 64
      · simp only [checkedSucc_ok hk]
        exact ⟨fun x h => .empty hp hk ((ih i' (k + 1) w1).1 x h),
          fun o i2 k' w2 h hrun => .empty hp hk ((ih i' (k + 1) w1).2 o i2 k' w2 h hrun)⟩
      · simp only [checkedSucc_error (Nat.le_of_not_lt hk)]
        exact ⟨fun x _ => .overflow hp (Nat.le_of_not_lt hk), by simp⟩
    · refine ⟨by simp, ?_⟩
      rintro o i2 k' w2 h hrun
      simp only [Option.some.injEq, Except.ok.injEq, Prod.mk.injEq] at h
      obtain ⟨rfl, rfl, rfl, rfl⟩ := h
      exact hrun i w hp

/-! ### More rounds -/

theorem wideCtxLoop_mono [CtxNode W N V C I] {f f' : Nat} (hf : f ≤ f') (queue : List I) :
    ∀ (cc : CtxCache V) (k : Nat) (w : W) (r : Except Panic (WideCtx V C I × W)), wideCtxLoop N f queue cc k w = some r →
      wideCtxLoop N f' queue cc k w = some r := by
  induction queue with
  | nil =>
    intro cc k w r h
    rw [wideCtxLoop] at h ⊢
    exact h
  | cons i q ih =>
    intro cc k w r h
    rw [wideCtxLoop] at h ⊢
    cases hs : cc.settle with
    | error e => simpa only [hs] using h
    | ok c1 =>
      simp only [hs] at h ⊢
      cases hx : wideScan N f i k w with
      | none => simp [hx] at h
      | some x =>
        rw [hx] at h
        rw [wideScan_mono hf hx]
        rcases x with e | ⟨_ | n, i', k', w1⟩
        · exact h
        · simp only at h ⊢
          cases hr : c1.retire with
          | error e => simpa only [hr] using h
          | ok c2 =>
            simp only [hr] at h ⊢
            by_cases hq : q.isEmpty
            · simpa only [hq, if_true] using h
            · simp only [hq, Bool.false_eq_true, if_false] at h ⊢
              exact ih _ _ _ _ h
        · exact h

/-- One more empty slot in front. -/
theorem wideCtxLoop_empty [CtxNode W N V C I] {f : Nat} {i i' : I} {k : Nat} {w w1 : W}
    (hp : pollC (N := N) i w = (some none, i', w1)) (hk : k + 1 < 2 ^ 64) (q : List I) (cc : CtxCache V)
    (r : Except Panic (WideCtx V C I × W)) (h : wideCtxLoop N f (i' :: q) cc (k + 1) w1 = some r) :
    wideCtxLoop N (f + 1) (i :: q) cc k w = some r := by
  have hscan : wideScan N (f + 1) i k w = wideScan N f i' (k + 1) w1 := by
    rw [wideScan]
    simp only [hp, checkedSucc_ok hk]
  rw [wideCtxLoop] at h ⊢
  cases hs : cc.settle with
  | error e => simpa only [hs] using h
  | ok c1 =>
    simp only [hs, hscan] at h ⊢
    rcases hx : wideScan N f i' (k + 1) w1 with _ | e | ⟨_ | n, i2, k', w2⟩ <;> simp only [hx] at h ⊢
    · simp at h
    · exact h
    · cases hr : c1.retire with
      | error e => simpa only [hr] using h
      | ok c2 =>
        simp only [hr] at h ⊢
        by_cases hq : q.isEmpty
        · simpa only [hq, if_true] using h
        · simp only [hq, Bool.false_eq_true, if_false] at h ⊢
          exact wideCtxLoop_mono (Nat.le_succ f) q _ _ _ _ h
    · exact h

theorem wideCtxConclude_mono {again again' : WideCtx V C I → W → Option (Ending W)} {body : WideBody W V C}
    {o o' : Option (Except Panic (WideCtx V C I × W))} {e : Ending W}
    (ha : ∀ s w e, again s w = some e → again' s w = some e) (ho : ∀ r, o = some r → o' = some r)
    (h : wideCtxConclude again body o = some e) : wideCtxConclude again' body o' = some e := by
  cases o with
  | none => simp [wideCtxConclude] at h
  | some r =>
    rw [ho r rfl]
    rcases r with x | ⟨s, w⟩
    · exact h
    · simp only [wideCtxConclude] at h ⊢
      by_cases hs : s.cc.ancestors.isEmpty
      · simpa only [hs, if_true] using h
      · simp only [hs, Bool.false_eq_true, if_false] at h ⊢
        cases hc : s.children with
        | none => simpa only [hc] using h
        | some c =>
          simp only [hc] at h ⊢
          rcases hb : body s.cc.path.reverse s.cc.ancestors.reverse c w with ⟨_ | _, c1, w1⟩
          · simpa only [hb] using h
          · simp only [hb] at h ⊢
            exact ha _ _ _ h

theorem wideCtxWhile_mono [CtxNode W N V C I] {body : WideBody W V C} {f f' : Nat} (hf : f ≤ f') (k : Nat) :
    ∀ (s : WideCtx V C I) (w : W) (e : Ending W), wideCtxWhile N f body k s w = some e →
      wideCtxWhile N f' body k s w = some e := by
  induction k with
  | zero => intro s w e h; simp [wideCtxWhile] at h
  | succ k ih =>
    intro s w e h
    rw [wideCtxWhile] at h ⊢
    refine wideCtxConclude_mono ih (fun r hr => ?_) h
    rw [wideCtxAdvance] at hr ⊢
    by_cases h1 : s.isRoot
    · simpa only [h1, if_true] using hr
    · simp only [h1, Bool.false_eq_true, if_false] at hr ⊢
      by_cases h2 : s.cc.ancestors.isEmpty
      · simpa only [h2, if_true] using hr
      · simp only [h2, Bool.false_eq_true, if_false] at hr ⊢
        cases hc : s.children with
        | none => simpa only [hc] using hr
        | some c =>
          simp only [hc] at hr ⊢
          exact wideCtxLoop_mono hf _ _ _ _ _ hr

/-! ### The invariant -/

/-- The cache stands for the paths and the ancestors of the iterators in the queue; only the first of these has been asked. -/
def WideCtxInv (cc : CtxCache V) (queue : List I) (k : Nat) (q : List (Below V I)) : Prop :=
  ∃ z : Zip (V × Nat), cc.settle = .ok (ofCache [] z.enc) ∧
    q.map (fun b => (b.path, b.anc)) = (z.cur :: z.others).map (fun p => (pathOf [] p, valsOf p)) ∧
    Levels (z.cur :: z.others) ∧ queue = q.map Below.iter ∧ ∀ b q', q = b :: q' → b.seen = k ∧ ∀ b' ∈ q', b'.seen = 0

theorem wideCtxInv_next {cc : CtxCache V} {queue : List I} {k : Nat} {p : List Nat} {as : List V} {i : I}
    {q : List (Below V I)} (h : WideCtxInv cc queue k (⟨p, as, k, i⟩ :: q)) (k' : Nat) (i' : I) :
    WideCtxInv cc (i' :: q.map Below.iter) k' (⟨p, as, k', i'⟩ :: q) := by
  obtain ⟨z, h1, h2, h3, _, h5⟩ := h
  refine ⟨z, h1, h2, h3, rfl, ?_⟩
  intro b q' hb
  obtain ⟨rfl, rfl⟩ : (⟨p, as, k', i'⟩ : Below V I) = b ∧ q = q' := by simpa using hb
  exact ⟨rfl, (h5 _ _ rfl).2⟩

/-- One round of the loop. -/
theorem wideCtxLoop_step [CtxNode W N V C I] {cc : CtxCache V} {queue : List I} {k : Nat} {q : List (Below V I)}
    (h : WideCtxInv cc queue k q) :
    ∃ p as i q', q = ⟨p, as, k, i⟩ :: q' ∧ queue = i :: q'.map Below.iter ∧
      (∀ f (w : W), wideScan N f i k w = none → wideCtxLoop N f queue cc k w = none) ∧
      (∀ f (w : W) x, wideScan N f i k w = some (.error x) → wideCtxLoop N f queue cc k w = some (.error x)) ∧
      (q' = [] → ∃ s : WideCtx V C I, s.cc.ancestors = [] ∧ ∀ f (w : W) i' k' w1,
        wideScan N f i k w = some (.ok (none, i', k', w1)) → wideCtxLoop N f queue cc k w = some (.ok (s, w1))) ∧
      (q' ≠ [] → ∃ cc' queue', WideCtxInv cc' queue' 0 q' ∧ ∀ f (w : W) i' k' w1,
        wideScan N f i k w = some (.ok (none, i', k', w1)) →
          wideCtxLoop N f queue cc k w = wideCtxLoop N f queue' cc' 0 w1) ∧
      (∀ f (w : W) (n : N) i' k' w1, wideScan N f i k w = some (.ok (some n, i', k', w1)) → 2 ^ 64 ≤ k' + 1 →
        wideCtxLoop N f queue cc k w = some (.error .overflow)) ∧
      ∀ k' v i', ∃ cc' queue', cc'.path.reverse = p ++ [k'] ∧ cc'.ancestors.reverse = as ++ [v] ∧
        (∀ j, WideCtxInv cc' (queue' ++ [j]) (k' + 1) (⟨p, as, k' + 1, i'⟩ :: q' ++ [⟨p ++ [k'], as ++ [v], 0, j⟩])) ∧
        ∀ f (w : W) (n : N) w1 c w2, wideScan N f i k w = some (.ok (some n, i', k', w1)) → k' + 1 < 2 ^ 64 →
          splitC n w1 = (v, c, w2) →
          wideCtxLoop N f queue cc k w = some (.ok (⟨false, cc', some c, queue', k' + 1⟩, w2)) := by
  obtain ⟨z, h1, h2, h3, rfl, h5⟩ := h
  rcases q with _ | ⟨⟨p, as, k0, i⟩, q'⟩
  · simp at h2
  obtain ⟨rfl, h6⟩ := h5 _ _ rfl
  simp only [List.map_cons, List.cons.injEq, Prod.mk.injEq] at h2
  obtain ⟨⟨rfl, rfl⟩, h2⟩ := h2
  have hlt : z.enc.stack.length < z.enc.items.length := by cases z <;> simp [Zip.enc, ancOf]
  have hne : z.enc.items ≠ [] := by rw [Zip.items_enc]; cases z <;> simp [Zip.cur, ancOf]
  have hne' : z.cur ≠ [] := by rw [← Zip.items_enc]; exact hne
  obtain ⟨r1, r2⟩ := retire_spec z h3.le
  have hoq : z.others = [] ↔ q' = [] := by
    constructor
    · intro ho
      simpa [ho] using h2
    · rintro rfl
      simpa using h2.symm
  refine ⟨_, _, i, q', rfl, rfl, ?_, ?_, ?_, ?_, ?_, ?_⟩
  · intro f w hx
    rw [wideCtxLoop, h1]
    simp only [List.map_cons, hx]
  · intro f w x hx
    rw [wideCtxLoop, h1]
    simp only [List.map_cons, hx]
  · intro hq
    obtain ⟨s, hs⟩ := r1 (hoq.2 hq)
    refine ⟨⟨false, { ofCache [] s with ancestors := [] }, none, [], 0⟩, rfl, ?_⟩
    intro f w i' k' w1 hx
    rw [wideCtxLoop, h1]
    simp [hx, ofCache_retire _ _ hlt, hs, hq, Except.map]
  · intro hq
    obtain ⟨z', e1, e2⟩ := r2 (fun h => hq (hoq.1 h))
    refine ⟨ofCache [] z'.enc, q'.map Below.iter, ⟨z', by rw [ofCache_settle, settle_enc]; rfl, by rw [e2, h2],
      by rw [e2]; exact h3.tail, rfl, ?_⟩, ?_⟩
    · rintro b q2 rfl
      exact ⟨h6 b (by simp), fun b' hb => h6 b' (by simp [hb])⟩
    · intro f w i' k' w1 hx
      rw [wideCtxLoop, h1]
      simp [hx, ofCache_retire _ _ hlt, e1, hq, Except.map]
  · intro f w n i' k' w1 hx hk
    rw [wideCtxLoop, h1]
    simp only [List.map_cons, hx, checkedSucc_error hk]
  · intro k' v i'
    refine ⟨⟨v :: (ofCache [] z.enc).ancestors, k' :: (ofCache [] z.enc).path, (ofCache [] z.enc).stack,
      (ofCache [] z.enc).cache⟩, i' :: q'.map Below.iter, ?_, ?_, ?_, ?_⟩
    · simp [ofCache, pathOf, Zip.items_enc]
    · simp [ofCache, valsOf, Zip.items_enc]
    · intro j
      refine ⟨z.push (v, k'), ?_, ?_, ?_, by simp, ?_⟩
      · have e : (⟨v :: (ofCache [] z.enc).ancestors, k' :: (ofCache [] z.enc).path, (ofCache [] z.enc).stack,
            (ofCache [] z.enc).cache⟩ : CtxCache V) = ofCache [] { z.enc with items := (v, k') :: z.enc.items } := by
          simp [ofCache, List.dropLast_cons_of_ne_nil hne]
        rw [e, ofCache_settle, settle_push]
        rfl
      · simp [Zip.cur_push, Zip.others_push, h2, pathOf, valsOf, List.dropLast_cons_of_ne_nil (by simpa using hne' : z.cur.map Prod.snd ≠ [])]
      · rw [Zip.cur_push, Zip.others_push]
        exact h3.push _
      · intro b q2 hb
        obtain ⟨rfl, rfl⟩ := List.cons.inj hb
        refine ⟨rfl, fun b' hb' => ?_⟩
        rcases List.mem_append.1 hb' with hb' | hb'
        · exact h6 b' hb'
        · obtain rfl := List.mem_singleton.1 hb'
          rfl
    · intro f w n w1 c w2 hx hk hs
      rw [wideCtxLoop, h1]
      simp only [List.map_cons, hx, checkedSucc_ok hk, hs]

theorem wideCtx_found [CtxNode W N V C I] {body : WideBody W V C} {f m : Nat} {cc : CtxCache V} {queue : List I}
    {k' : Nat} {p : List Nat} {as : List V} {v : V} {c : C} {w : W} (hp : cc.path.reverse = p) (ha : cc.ancestors.reverse = as ++ [v]) :
    wideCtxConclude (wideCtxWhile N f body m) body (some (.ok (⟨false, cc, some c, queue, k'⟩, w))) =
      match body p (as ++ [v]) c w with
      | (false, _, w) => some (.broke w)
      | (true, c, w) => wideCtxWhile N f body m ⟨false, cc, some c, queue, k'⟩ w := by
  have hne : cc.ancestors.isEmpty = false := by
    cases h : cc.ancestors with
    | nil => simp [h] at ha
    | cons => rfl
  simp only [wideCtxConclude, hne, Bool.false_eq_true, if_false, hp, ha]
  rcases body p (as ++ [v]) c w with ⟨_ | _, _, _⟩ <;> rfl

theorem wideCtx_again [CtxNode W N V C I] {body : WideBody W V C} {f m : Nat} {cc : CtxCache V} {queue : List I}
    {k' : Nat} {as : List V} {v : V} {c : C} {w : W} (ha : cc.ancestors.reverse = as ++ [v]) :
    wideCtxWhile N f body (m + 1) ⟨false, cc, some c, queue, k'⟩ w =
      wideCtxConclude (wideCtxWhile N f body m) body
        (wideCtxLoop N f (queue ++ [(intoC (N := N) c w).1]) cc k' (intoC (N := N) c w).2) := by
  have hne : cc.ancestors.isEmpty = false := by
    cases h : cc.ancestors with
    | nil => simp [h] at ha
    | cons => rfl
  simp only [wideCtxWhile, wideCtxAdvance, hne, Bool.false_eq_true, if_false]

theorem wideCtx_sound [CtxNode W N V C I] {body : WideBody W V C} (f m : Nat) : ∀ (l : Nat) (q : List (Below V I)),
    q.length = l → ∀ (cc : CtxCache V) (queue : List I) (k : Nat) (w : W) (e : Ending W), WideCtxInv cc queue k q →
      wideCtxConclude (wideCtxWhile N f body m) body (wideCtxLoop N f queue cc k w) = some e →
      RunWideCtx N body q w e := by
  induction m with
  | zero =>
    intro l
    induction l with
    | zero =>
      rintro q hl cc queue k w e ⟨z, _, h2, _⟩
      obtain rfl : q = [] := by simpa using hl
      simp at h2
    | succ l ih =>
      intro q hl cc queue k w e hI h
      obtain ⟨p, as, i, q', rfl, -, s1, s2, s3, s4, s5, s6⟩ := wideCtxLoop_step (W := W) (N := N) (C := C) hI
      rcases hx : wideScan N f i k w with _ | x | ⟨_ | n, i', k', w1⟩
      · simp [s1 f w hx, wideCtxConclude] at h
      · simp only [s2 f w x hx, wideCtxConclude, Option.some.injEq] at h
        subst h
        exact (run_of_scan (e := .panicked) f i k w).1 x hx
      · refine (run_of_scan f i k w).2 none i' k' w1 hx fun i0 w0 hp => .done hp ?_
        by_cases hq : q' = []
        · obtain ⟨s, hs, hl⟩ := s3 hq
          simp only [hl f w i' k' w1 hx, wideCtxConclude, hs, List.isEmpty_nil, if_true, Option.some.injEq] at h
          subst h hq
          exact .ended
        · obtain ⟨cc', queue', hI', hl'⟩ := s4 hq
          rw [hl' f w i' k' w1 hx] at h
          exact ih q' (by simpa using hl) cc' queue' 0 w1 e hI' h
      · refine (run_of_scan f i k w).2 (some n) i' k' w1 hx fun i0 w0 hp => ?_
        by_cases hk : k' + 1 < 2 ^ 64
        · rcases hs : splitC n w1 with ⟨v, c, w2⟩
          obtain ⟨cc', queue', hr1, hr2, hI', hl'⟩ := s6 k' v i'
          rw [hl' f w n w1 c w2 hx hk hs, wideCtx_found hr1 hr2] at h
          rcases hb : body (p ++ [k']) (as ++ [v]) c w2 with ⟨_ | _, c1, w3⟩
          · simp only [hb, Option.some.injEq] at h
            subst h
            exact .stop hp hk hs hb
          · simp [hb, wideCtxWhile] at h
        · have hk := Nat.le_of_not_lt hk
          simp only [s5 f w n i' k' w1 hx hk, wideCtxConclude, Option.some.injEq] at h
          subst h
          exact .overflow hp hk
  | succ m ihm =>
    intro l
    induction l with
    | zero =>
      rintro q hl cc queue k w e ⟨z, _, h2, _⟩
      obtain rfl : q = [] := by simpa using hl
      simp at h2
    | succ l ih =>
      intro q hl cc queue k w e hI h
      obtain ⟨p, as, i, q', rfl, -, s1, s2, s3, s4, s5, s6⟩ := wideCtxLoop_step (W := W) (N := N) (C := C) hI
      rcases hx : wideScan N f i k w with _ | x | ⟨_ | n, i', k', w1⟩
      · simp [s1 f w hx, wideCtxConclude] at h
      · simp only [s2 f w x hx, wideCtxConclude, Option.some.injEq] at h
        subst h
        exact (run_of_scan (e := .panicked) f i k w).1 x hx
      · refine (run_of_scan f i k w).2 none i' k' w1 hx fun i0 w0 hp => .done hp ?_
        by_cases hq : q' = []
        · obtain ⟨s, hs, hl⟩ := s3 hq
          simp only [hl f w i' k' w1 hx, wideCtxConclude, hs, List.isEmpty_nil, if_true, Option.some.injEq] at h
          subst h hq
          exact .ended
        · obtain ⟨cc', queue', hI', hl'⟩ := s4 hq
          rw [hl' f w i' k' w1 hx] at h
          exact ih q' (by simpa using hl) cc' queue' 0 w1 e hI' h
      · refine (run_of_scan f i k w).2 (some n) i' k' w1 hx fun i0 w0 hp => ?_
        by_cases hk : k' + 1 < 2 ^ 64
        · rcases hs : splitC n w1 with ⟨v, c, w2⟩
          obtain ⟨cc', queue', hr1, hr2, hI', hl'⟩ := s6 k' v i'
          rw [hl' f w n w1 c w2 hx hk hs, wideCtx_found hr1 hr2] at h
          rcases hb : body (p ++ [k']) (as ++ [v]) c w2 with ⟨_ | _, c1, w3⟩
          · simp only [hb, Option.some.injEq] at h
            subst h
            exact .stop hp hk hs hb
          · simp only [hb] at h
            rw [wideCtx_again hr2] at h
            exact .child hp hk hs hb rfl (ihm _ _ rfl cc' _ _ _ e (hI' _) h)
        · have hk := Nat.le_of_not_lt hk
          simp only [s5 f w n i' k' w1 hx hk, wideCtxConclude, Option.some.injEq] at h
          subst h
          exact .overflow hp hk

theorem wideScan_done [CtxNode W N V C I] {f : Nat} {i i' : I} {k : Nat} {w w1 : W}
    (hp : pollC (N := N) i w = (none, i', w1)) : wideScan N (f + 1) i k w = some (.ok (none, i', k, w1)) := by
  rw [wideScan]
  simp only [hp]

theorem wideScan_some [CtxNode W N V C I] {f : Nat} {i i' : I} {k : Nat} {w w1 : W} {n : N}
    (hp : pollC (N := N) i w = (some (some n), i', w1)) : wideScan N (f + 1) i k w = some (.ok (some n, i', k, w1)) := by
  rw [wideScan]
  simp only [hp]

theorem wideCtx_complete [CtxNode W N V C I] {body : WideBody W V C} {q : List (Below V I)} {w : W} {e : Ending W}
    (h : RunWideCtx N body q w e) : ∀ (cc : CtxCache V) (queue : List I) (k : Nat), WideCtxInv cc queue k q →
      ∃ f m, wideCtxConclude (wideCtxWhile N f body m) body (wideCtxLoop N f queue cc k w) = some e := by
  induction h with
  | ended => rintro cc queue k ⟨z, _, h2, _⟩; simp at h2
  | @done p as k i i' q w w1 e hp hrun ih =>
    intro cc queue k2 hI
    obtain ⟨p', as', j', q', hq, -, s1, s2, s3, s4, s5, s6⟩ := wideCtxLoop_step (W := W) (N := N) (C := C) hI
    obtain ⟨⟨rfl, rfl, rfl, rfl⟩, rfl⟩ : (p = p' ∧ as = as' ∧ k = k2 ∧ i = j') ∧ q = q' := by simpa using hq
    by_cases hqe : q = []
    · obtain ⟨s, hs, hl⟩ := s3 hqe
      subst hqe
      cases hrun
      exact ⟨1, 0, by simp [hl 1 w i' k w1 (wideScan_done hp), wideCtxConclude, hs]⟩
    · obtain ⟨cc', queue', hI', hl⟩ := s4 hqe
      obtain ⟨f, m, hm⟩ := ih cc' queue' 0 hI'
      refine ⟨f + 1, m, ?_⟩
      rw [hl (f + 1) w i' k w1 (wideScan_done hp)]
      exact wideCtxConclude_mono (wideCtxWhile_mono (Nat.le_succ f) m) (wideCtxLoop_mono (Nat.le_succ f) _ _ _ _) hm
  | @overflow p as k i i' o q w w1 hp hk =>
    intro cc queue k2 hI
    obtain ⟨p', as', j', q', hq, -, s1, s2, s3, s4, s5, s6⟩ := wideCtxLoop_step (W := W) (N := N) (C := C) hI
    obtain ⟨⟨rfl, rfl, rfl, rfl⟩, rfl⟩ : (p = p' ∧ as = as' ∧ k = k2 ∧ i = j') ∧ q = q' := by simpa using hq
    refine ⟨1, 0, ?_⟩
    cases o with
    | none =>
      have hx : wideScan N 1 i k w = some (.error .overflow) := by
        rw [wideScan]
        simp only [hp, checkedSucc_error hk]
      rw [s2 1 w _ hx]
      rfl
    | some n =>
      rw [s5 1 w n i' k w1 (wideScan_some hp) hk]
      rfl
  | @empty p as k i i' q w w1 e hp hk hrun ih =>
    intro cc queue k2 hI
    obtain ⟨p', as', j', q', hq, hqu, -⟩ := wideCtxLoop_step (W := W) (N := N) (C := C) hI
    obtain ⟨⟨rfl, rfl, rfl, rfl⟩, rfl⟩ : (p = p' ∧ as = as' ∧ k = k2 ∧ i = j') ∧ q = q' := by simpa using hq
    obtain ⟨f, m, hm⟩ := ih cc _ _ (wideCtxInv_next hI (k + 1) i')
    refine ⟨f + 1, m, ?_⟩
    rw [hqu]
    exact wideCtxConclude_mono (wideCtxWhile_mono (Nat.le_succ f) m) (wideCtxLoop_empty hp hk _ _) hm
  | @stop p as k i i' q d v c c1 w w1 w2 w3 hp hk hs hb =>
    intro cc queue k2 hI
    obtain ⟨p', as', j', q', hq, -, s1, s2, s3, s4, s5, s6⟩ := wideCtxLoop_step (W := W) (N := N) (C := C) hI
    obtain ⟨⟨rfl, rfl, rfl, rfl⟩, rfl⟩ : (p = p' ∧ as = as' ∧ k = k2 ∧ i = j') ∧ q = q' := by simpa using hq
    obtain ⟨cc', queue', hr1, hr2, hI', hl⟩ := s6 k v i'
    refine ⟨1, 0, ?_⟩
    rw [hl 1 w d w1 c w2 (wideScan_some hp) hk hs, wideCtx_found hr1 hr2]
    simp only [hb]
  | @child p as k i i' j q d v c c1 w w1 w2 w3 w4 e hp hk hs hb hi hrun ih =>
    intro cc queue k2 hI
    obtain ⟨p', as', j', q', hq, -, s1, s2, s3, s4, s5, s6⟩ := wideCtxLoop_step (W := W) (N := N) (C := C) hI
    obtain ⟨⟨rfl, rfl, rfl, rfl⟩, rfl⟩ : (p = p' ∧ as = as' ∧ k = k2 ∧ i = j') ∧ q = q' := by simpa using hq
    obtain ⟨cc', queue', hr1, hr2, hI', hl⟩ := s6 k v i'
    obtain ⟨f, m, hm⟩ := ih cc' _ _ (hI' j)
    refine ⟨f + 1, m + 1, ?_⟩
    rw [hl (f + 1) w d w1 c w2 (wideScan_some hp) hk hs, wideCtx_found hr1 hr2]
    simp only [hb]
    rw [wideCtx_again hr2, hi]
    exact wideCtxConclude_mono (wideCtxWhile_mono (Nat.le_succ f) m) (wideCtxLoop_mono (Nat.le_succ f) _ _ _ _) hm

theorem wideCtxInv_root (v : V) (i : I) :
    WideCtxInv (⟨[v], [], [], .mk none []⟩ : CtxCache V) [i] 0 [⟨[], [v], 0, i⟩] := by
  refine ⟨.root (v, 0) [], ?_, by simp [Zip.cur, Zip.others, pathOf, valsOf],
    ⟨by simp [Zip.cur, Zip.others], by simp [Zip.others]⟩, rfl, ?_⟩
  · have e : (⟨[v], [], [], .mk none []⟩ : CtxCache V) = ofCache [] (Zip.root (v, 0) []).enc := rfl
    rw [e, ofCache_settle, settle_enc]
    rfl
  · rintro b q' h
    obtain ⟨rfl, rfl⟩ := List.cons.inj h
    simp

end Shared

end TreeIter
