import Verif.Lemmas.Visit
import Verif.Model.CollectionPipeline

/-! # The calls of `next` at the end of a collection pipeline -/

universe u v w x y z

namespace TreeIter

section
variable {S : Type u} {A : Type v} {σ : Type w} {U : Type x} {W : Type y}

/-- A pipeline that has ended stays ended. -/
def Stuck (M : Pipe S W σ) (s : S) (w : σ) : Prop :=
  ∃ I : S → Prop, I s ∧ ∀ s, I s → ∃ s', M.next s w = .ok (none, s', w) ∧ I s'

/-- The pipeline emits these items and ends. -/
inductive Runs (M : Pipe S W σ) : S → σ → List (W × List Nat) → σ → Prop
  | stop {s s' : S} {w w' : σ} : M.next s w = .ok (none, s', w') → Stuck M s' w' → Runs M s w [] w'
  | more {s s' : S} {w w1 w' : σ} {y : W} {l : List (W × List Nat)} : M.next s w = .ok (some y, s', w1) →
      Runs M s' w1 l w' → Runs M s w ((y, M.path s') :: l) w'

theorem Stuck.runs {M : Pipe S W σ} {s : S} {w : σ} (h : Stuck M s w) : Runs M s w [] w := by
  obtain ⟨I, h1, h2⟩ := h
  obtain ⟨s', h3, h4⟩ := h2 s h1
  exact .stop h3 ⟨I, h4, h2⟩

theorem Enum.runs {M : Pipe S W σ} {v : Visitor A σ U W} {R : S → A → List (Lab U) → Prop} (hM : Enum M v R)
    {s : S} {a : A} {l : List (Lab U)} (w : σ) (h : R s a l) :
    Runs M s w (Tree.preorderL (visitL v a w l).1) (visitL v a w l).2.2 := by
  induction hn : M.size s using Nat.strongRecOn generalizing s a l w with
  | ind n ih =>
    rcases hv : visitNext v a w l with ⟨o, a', w'⟩
    rcases o with _ | ⟨y, cs, rest⟩
    · obtain ⟨s'', a'', h1, h2⟩ := hM.next_none h hv
      rw [visitL_preorder_none hv]
      refine .stop h1 ⟨fun s => ∃ a, R s a [], ⟨a'', h2⟩, ?_⟩
      rintro s ⟨a, hs⟩
      obtain ⟨s1, a1, h3, h4⟩ := hM.next_none (w := w') (a' := a) (w' := w') hs rfl
      exact ⟨s1, h3, a1, h4⟩
    · obtain ⟨s', h1, h2, -⟩ := hM.next_some h hv
      obtain ⟨h3, h4⟩ := visitL_preorder_some hv
      have h5 := ih _ (hn ▸ M.size_next h1) w' h2 rfl
      rw [h3, h4, ← hM.path h2]
      exact .more h1 h5

end

namespace CollEnd
variable {S : Type u} {Q : Type v} {V : Type w} {O : Type x} {σ : Type y} {τ : Type z}

/-- All the results, as a function of the emitted items. -/
def allList (E : CollEnd Q V O τ) : List (V × List Nat) → Q → τ → Except Panic (List O × τ)
  | [], q, t =>
    match E.drain q t with
    | .error e => .error e
    | .ok (o, t') => .ok (o.toList, t')
  | (v, p) :: l, q, t =>
    match E.step q p v t with
    | .error e => .error e
    | .ok (.inr q', t') => allList E l q' t'
    | .ok (.inl o, t') =>
      match E.step E.empty p v t' with
      | .error e => .error e
      | .ok (.inl _, _) => .error .unreachable
      | .ok (.inr q', t'') =>
        match allList E l q' t'' with
        | .error e => .error e
        | .ok (os, t3) => .ok (o :: os, t3)

/-- Between two calls: these are the results still to come, and the worlds at the end. -/
def Pending (E : CollEnd Q V O τ) (M : Pipe S V σ) (st : S × Option V) (w : σ) (t : τ) (os : List O) (w' : σ) (t' : τ) :
    Prop :=
  match st.2 with
  | none => ∃ items, Runs M st.1 w items w' ∧ E.allList items E.empty t = .ok (os, t')
  | some v => ∃ items q t1, E.step E.empty (M.path st.1) v t = .ok (.inr q, t1) ∧ Runs M st.1 w items w' ∧
      E.allList items q t1 = .ok (os, t')

theorem loop_none {E : CollEnd Q V O τ} {M : Pipe S V σ} {s s' : S} {w w' : σ} (h : M.next s w = .ok (none, s', w'))
    (q : Q) (t : τ) :
    E.loop M s w q t =
      match E.drain q t with
      | .error e => .error e
      | .ok (o, t') => .ok (o, (s', none), w', t') := by
  rw [loop]
  split
  · simp_all
  · next h1 =>
    rw [h] at h1
    simp only [Except.ok.injEq, Prod.mk.injEq, true_and] at h1
    obtain ⟨rfl, rfl⟩ := h1
    rfl
  · simp_all

theorem loop_some {E : CollEnd Q V O τ} {M : Pipe S V σ} {s s' : S} {w w' : σ} {v : V}
    (h : M.next s w = .ok (some v, s', w')) (q : Q) (t : τ) :
    E.loop M s w q t =
      match E.step q (M.path s') v t with
      | .error e => .error e
      | .ok (.inl o, t') => .ok (some o, (s', some v), w', t')
      | .ok (.inr q', t') => E.loop M s' w' q' t' := by
  rw [loop]
  split
  · simp_all
  · simp_all
  · next h1 =>
    rw [h] at h1
    simp only [Except.ok.injEq, Prod.mk.injEq, Option.some.injEq] at h1
    obtain ⟨rfl, rfl, rfl⟩ := h1
    rfl

theorem loop_runs {E : CollEnd Q V O τ} {M : Pipe S V σ} (hE : ∀ t, E.drain E.empty t = .ok (none, t)) {s : S} {w w' : σ}
    {items : List (V × List Nat)} (hr : Runs M s w items w') : ∀ {q : Q} {t t' : τ} {os : List O},
    E.allList items q t = .ok (os, t') →
    ∃ st' w1 t1, E.loop M s w q t = .ok (os.head?, st', w1, t1) ∧ Pending E M st' w1 t1 os.tail w' t' ∧
      (os = [] → w1 = w' ∧ t1 = t') := by
  induction hr with
  | @stop s s' w w' h1 h2 =>
    intro q t t' os h
    rw [allList] at h
    split at h
    · simp at h
    · next o t1 h3 =>
      simp only [Except.ok.injEq, Prod.mk.injEq] at h
      obtain ⟨rfl, rfl⟩ := h
      have hl : E.loop M s w q t = .ok (o, (s', none), w', t1) := by
        rw [loop_none h1, h3]
      cases o with
      | none => exact ⟨(s', none), w', t1, hl, ⟨[], h2.runs, by simp [allList, hE]⟩, fun _ => ⟨rfl, rfl⟩⟩
      | some o => exact ⟨(s', none), w', t1, hl, ⟨[], h2.runs, by simp [allList, hE]⟩, by simp⟩
  | @more s s' w w1 w2 y l h1 h2 ih =>
    intro q t t' os h
    rw [loop_some h1]
    rw [allList] at h
    split at h
    · simp at h
    · next h3 =>
      obtain ⟨st', w3, t3, h4, h5⟩ := ih h
      refine ⟨st', w3, t3, ?_, h5⟩
      rw [← h4]
      simp only [h3]
    · next o t1 h3 =>
      split at h
      · simp at h
      · simp at h
      · next q' t2 h4 =>
        split at h
        · simp at h
        · next os' t3 h5 =>
          simp only [Except.ok.injEq, Prod.mk.injEq] at h
          obtain ⟨rfl, rfl⟩ := h
          exact ⟨(s', some y), w1, t1, by simp only [h3]; rfl, ⟨l, q', t2, h4, h2, h5⟩, by simp⟩

theorem next_pending {E : CollEnd Q V O τ} {M : Pipe S V σ} (hE : ∀ t, E.drain E.empty t = .ok (none, t))
    {st : S × Option V} {w w' : σ} {t t' : τ} {os : List O} (h : Pending E M st w t os w' t') :
    ∃ st' w1 t1, E.next M st w t = .ok (os.head?, st', w1, t1) ∧ Pending E M st' w1 t1 os.tail w' t' ∧
      (os = [] → w1 = w' ∧ t1 = t') := by
  obtain ⟨s, p⟩ := st
  cases p with
  | none =>
    obtain ⟨items, h1, h2⟩ := h
    exact loop_runs hE h1 h2
  | some v =>
    obtain ⟨items, q, t1, h1, h2, h3⟩ := h
    simp only [next, h1]
    exact loop_runs hE h2 h3

theorem calls_pending {E : CollEnd Q V O τ} {M : Pipe S V σ} (hE : ∀ t, E.drain E.empty t = .ok (none, t)) (n : Nat) :
    ∀ {st : S × Option V} {w w' : σ} {t t' : τ} {os : List O}, Pending E M st w t os w' t' → os.length < n →
    E.calls M n st w t = .ok (os.map some ++ List.replicate (n - os.length) none, w', t') := by
  induction n with
  | zero => intro st w w' t t' os _ h; omega
  | succ n ih =>
    intro st w w' t t' os hp hn
    have h1 := next_pending hE hp
    cases os with
    | nil =>
      obtain ⟨st', w1, t1, h2, h3, h4⟩ := h1
      obtain ⟨rfl, rfl⟩ := h4 rfl
      rw [calls, h2]
      cases n with
      | zero => rfl
      | succ n =>
        simp only [ih h3 (by simp)]
        rfl
    | cons o os =>
      obtain ⟨st', w1, t1, h2, h3, -⟩ := h1
      simp only [List.tail_cons] at h3
      rw [calls, h2]
      simp only [List.length_cons] at hn
      simp only [List.head?_cons, ih h3 (by omega), List.map_cons, List.cons_append, List.length_cons, Nat.add_sub_add_right]

/-- The results of the calls, from the items that the pipeline emits. -/
theorem calls_of_runs {E : CollEnd Q V O τ} {M : Pipe S V σ} (hE : ∀ t, E.drain E.empty t = .ok (none, t)) {n : Nat}
    {s : S} {w w' : σ} {t t' : τ} {items : List (V × List Nat)} {os : List O} (hr : Runs M s w items w')
    (ha : E.allList items E.empty t = .ok (os, t')) (hn : os.length < n) :
    E.calls M n (s, none) w t = .ok (os.map some ++ List.replicate (n - os.length) none, w', t') :=
  calls_pending hE n ⟨items, hr, ha⟩ hn

end CollEnd

end TreeIter
