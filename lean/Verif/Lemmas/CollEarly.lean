import Verif.Lemmas.CollRun

/-! # Collection pipelines that are dropped before the end -/

universe u v w x y z z' q

namespace TreeIter

/-! ## A part of what a pipeline emits -/

section
variable {S : Type u} {A : Type v} {σ : Type w} {U : Type x} {W : Type y}

/-- The pipeline emits these items on the way from one state to another. -/
inductive Part (M : Pipe S W σ) : S → σ → List (W × List Nat) → S → σ → Prop
  | nil {s : S} {w : σ} : Part M s w [] s w
  | more {s s' s2 : S} {w w1 w2 : σ} {y : W} {l : List (W × List Nat)} : M.next s w = .ok (some y, s', w1) →
      Part M s' w1 l s2 w2 → Part M s w ((y, M.path s') :: l) s2 w2

theorem visitNext_append_none {v : Visitor A σ U W} {a a' : A} {w w' : σ} {l : List (Lab U)}
    (h : visitNext v a w l = (none, a', w')) (l' : List (Lab U)) :
    visitNext v a w (l ++ l') = visitNext v a' w' l' := by
  induction l generalizing a w with
  | nil =>
    simp only [visitNext, Prod.mk.injEq, true_and] at h
    rw [h.1, h.2, List.nil_append]
  | cons t ts ih =>
    obtain ⟨⟨p, x⟩, cs⟩ := t
    rw [visitNext] at h
    rw [List.cons_append, visitNext]
    rcases hv : v.visit a w p x with ⟨a1, w1, o⟩
    rw [hv] at h
    cases o with
    | skip => exact ih h
    | emit y k => simp at h

theorem visitNext_append_some {v : Visitor A σ U W} {a a' : A} {w w' : σ} {l cs rest : List (Lab U)} {y : W}
    (h : visitNext v a w l = (some (y, cs, rest), a', w')) (l' : List (Lab U)) :
    visitNext v a w (l ++ l') = (some (y, cs, rest ++ l'), a', w') := by
  induction l generalizing a w with
  | nil => simp [visitNext] at h
  | cons t ts ih =>
    obtain ⟨⟨p, x⟩, ds⟩ := t
    rw [visitNext] at h
    rw [List.cons_append, visitNext]
    rcases hv : v.visit a w p x with ⟨a1, w1, o⟩
    rw [hv] at h
    cases o with
    | skip => exact ih h
    | emit z k =>
      simp only [Prod.mk.injEq, Option.some.injEq] at h
      obtain ⟨⟨rfl, rfl, rfl⟩, rfl, rfl⟩ := h
      rfl

/-- When everything from the first trees has been emitted, the next call goes on as from the trees after them. -/
theorem Enum.part {M : Pipe S W σ} {v : Visitor A σ U W} {R : S → A → List (Lab U) → Prop} (hM : Enum M v R)
    {s : S} {a : A} {l l' : List (Lab U)} (w : σ) (h : R s a (l ++ l')) :
    ∃ s1 a1 w1 l1, Part M s w (Tree.preorderL (visitL v a w l).1) s1 w1 ∧ R s1 a1 l1 ∧
      visitNext v a1 w1 l1 = visitNext v (visitL v a w l).2.1 (visitL v a w l).2.2 l' := by
  induction hn : M.size s using Nat.strongRecOn generalizing s a l w with
  | ind n ih =>
    rcases hv : visitNext v a w l with ⟨o, a', w'⟩
    rcases o with _ | ⟨y, cs, rest⟩
    · refine ⟨s, a, w, l ++ l', ?_, h, ?_⟩
      · rw [visitL_preorder_none hv]
        exact .nil
      · rw [visitNext_append_none hv, visitL_preorder_none hv]
    · obtain ⟨s', h1, h2, -⟩ := hM.next_some h (visitNext_append_some hv l')
      obtain ⟨h3, h4⟩ := visitL_preorder_some hv
      rw [← List.append_assoc] at h2
      obtain ⟨s1, a1, w1, l1, h5, h6, h7⟩ := ih _ (hn ▸ M.size_next h1) w' h2 rfl
      refine ⟨s1, a1, w1, l1, ?_, h6, ?_⟩
      · rw [h3, ← hM.path h2]
        exact .more h1 h5
      · rw [h4, h7]

end

/-! ## The calls -/

namespace CollEnd
variable {S : Type u} {Q : Type v} {V : Type w} {O : Type x} {σ : Type y} {τ : Type z}

/-- The results complete when these items have been seen, and the stack then. -/
def steps (E : CollEnd Q V O τ) : List (V × List Nat) → Q → τ → Except Panic (List O × Q × τ)
  | [], q, t => .ok ([], q, t)
  | (v, p) :: l, q, t =>
    match E.step q p v t with
    | .error e => .error e
    | .ok (.inr q', t') => steps E l q' t'
    | .ok (.inl o, t') =>
      match E.step E.empty p v t' with
      | .error e => .error e
      | .ok (.inl _, _) => .error .unreachable
      | .ok (.inr q', t'') =>
        match steps E l q' t'' with
        | .error e => .error e
        | .ok (os, q3, t3) => .ok (o :: os, q3, t3)

theorem allList_steps {E : CollEnd Q V O τ} (items : List (V × List Nat)) : ∀ {q : Q} {t t' : τ} {os : List O},
    E.allList items q t = .ok (os, t') →
    ∃ os1 q1 t1 o, E.steps items q t = .ok (os1, q1, t1) ∧ E.drain q1 t1 = .ok (o, t') ∧ os = os1 ++ o.toList := by
  induction items with
  | nil =>
    intro q t t' os h
    rw [allList] at h
    split at h
    · simp at h
    · next o t1 h1 =>
      simp only [Except.ok.injEq, Prod.mk.injEq] at h
      obtain ⟨rfl, rfl⟩ := h
      exact ⟨[], q, t, o, rfl, h1, rfl⟩
  | cons i items ih =>
    obtain ⟨v, p⟩ := i
    intro q t t' os h
    rw [allList] at h
    rw [steps]
    split at h
    · simp at h
    · next h1 =>
      simp only [h1]
      exact ih h
    · next o1 t1 h1 =>
      simp only [h1]
      split at h
      · simp at h
      · simp at h
      · next q2 t2 h2 =>
        simp only [h2]
        split at h
        · simp at h
        · next os3 t3 h3 =>
          simp only [Except.ok.injEq, Prod.mk.injEq] at h
          obtain ⟨rfl, rfl⟩ := h
          obtain ⟨os1, q1, t4, o, h4, h5, rfl⟩ := ih h3
          exact ⟨o1 :: os1, q1, t4, o, by simp only [h4], h5, rfl⟩

/-- The calls, the first of which has already got as far as the stack `q`. -/
def callsFrom (E : CollEnd Q V O τ) (M : Pipe S V σ) (n : Nat) (s : S) (w : σ) (q : Q) (t : τ) :
    Except Panic (List (Option O) × σ × τ) :=
  match E.loop M s w q t with
  | .error e => .error e
  | .ok (o, st', w', t') =>
    match calls E M n st' w' t' with
    | .error e => .error e
    | .ok (l, w'', t'') => .ok (o :: l, w'', t'')

theorem callsFrom_part {E : CollEnd Q V O τ} {M : Pipe S V σ} {s s1 : S} {w w1 : σ} {items : List (V × List Nat)}
    (h : Part M s w items s1 w1) : ∀ {q q1 : Q} {t t1 t2 : τ} {w2 : σ} {os : List O} {n : Nat} {l : List (Option O)},
    E.steps items q t = .ok (os, q1, t1) → E.callsFrom M n s1 w1 q1 t1 = .ok (l, w2, t2) →
    E.callsFrom M (os.length + n) s w q t = .ok (os.map some ++ l, w2, t2) := by
  induction h with
  | nil =>
    intro q q1 t t1 t2 w2 os n l h h2
    simp only [steps, Except.ok.injEq, Prod.mk.injEq] at h
    obtain ⟨rfl, rfl, rfl⟩ := h
    simpa using h2
  | @more s s' s2 w w1 w2 y items h1 h2 ih =>
    intro q q1 t t1 t2 w3 os n l h h3
    rw [callsFrom, loop_some h1]
    rw [steps] at h
    split at h
    · simp at h
    · next h4 =>
      have := ih h h3
      rw [callsFrom] at this
      simpa only [h4] using this
    · next o t3 h4 =>
      simp only [h4]
      split at h
      · simp at h
      · simp at h
      · next q5 t5 h5 =>
        split at h
        · simp at h
        · next os6 q6 t6 h6 =>
          simp only [Except.ok.injEq, Prod.mk.injEq] at h
          obtain ⟨rfl, rfl, rfl⟩ := h
          have := ih h6 h3
          have hc : E.calls M (os6.length + n + 1) (s', some y) w1 t3 = .ok (os6.map some ++ l, w3, t2) := by
            rw [calls, next]
            simp only [h5]
            exact this
          rw [List.length_cons, Nat.add_right_comm, hc]
          rfl

end CollEnd

/-! ## The stack machine -/

namespace Shape
variable {X : Type u} {V : Type v} {O : Type u} {τ : Type x} {F : Shape X V O τ}

theorem closeG_zero {fs fs' : List (V × X × Nat)} {t t' : τ} (h : fs ≠ []) : F.closeG 0 fs t ≠ .ok (.inr fs', t') := by
  induction hn : fs.length using Nat.strongRecOn generalizing fs t with
  | ind n ih =>
    match fs, h, hn with
    | [(v, x, i)], _, _ =>
      rw [closeG, if_pos (by omega)]
      simp
    | (v, x, i) :: (v', x', i') :: rest, _, hn =>
      simp only [List.length_cons] at hn
      rw [closeG, if_pos (by omega)]
      split
      · simp
      · exact ih _ (by simp only [List.length_cons]; omega) (by simp) rfl

theorem steps_ne (items : List (V × List Nat)) : ∀ {fs fs' : List (V × X × Nat)} {t t' : τ} {os : List O},
    F.frameEnd.steps items fs t = .ok (os, fs', t') → (fs ≠ [] ∨ items ≠ []) → fs' ≠ [] := by
  induction items with
  | nil =>
    intro fs fs' t t' os h hn
    simp only [CollEnd.steps, Except.ok.injEq, Prod.mk.injEq] at h
    rw [← h.2.1]
    simpa using hn
  | cons i items ih =>
    obtain ⟨v, p⟩ := i
    intro fs fs' t t' os h _
    have key : ∀ {q q' : List (V × X × Nat)} {t t' : τ}, F.frameEnd.step q p v t = .ok (.inr q', t') → q' ≠ [] := by
      intro q q' t t' h
      simp only [frameEnd] at h
      split at h
      · simp at h
      · simp at h
      · simp only [Except.ok.injEq, Prod.mk.injEq, Sum.inr.injEq] at h
        rw [← h.1]
        simp
    rw [CollEnd.steps] at h
    split at h
    · simp at h
    · next h1 => exact ih h (.inl (key h1))
    · split at h
      · simp at h
      · simp at h
      · next h1 =>
        split at h
        · simp at h
        · next h2 =>
          simp only [Except.ok.injEq, Prod.mk.injEq] at h
          rw [← h.2.1]
          exact ih h2 (.inl (key h1))

/-- When all items of a non-empty forest have been seen, the last tree is still on the stack; the end of the pipeline and
a further root complete it alike. -/
theorem steps_forest {cs : List (Tree (V × List Nat))} {t t' : τ} {os : List O} (hd : ∀ c ∈ cs, DepthOk 1 c) (hc : cs ≠ [])
    (h : F.forest t cs = .ok (os, t')) :
    ∃ os1 q1 t1 o, F.frameEnd.steps (Tree.preorderL cs) [] t = .ok (os1, q1, t1) ∧ os = os1 ++ [o] ∧
      F.frameEnd.drain q1 t1 = .ok (some o, t') ∧
      ∀ p v, p.length = 1 → F.frameEnd.step q1 p v t1 = .ok (.inl o, t') := by
  obtain ⟨os1, q1, t1, o, h1, h2, h3⟩ := CollEnd.allList_steps _ (allList_forest cs hd h)
  have hq : q1 ≠ [] := by
    refine steps_ne _ h1 (.inr ?_)
    cases cs with
    | nil => exact absurd rfl hc
    | cons c cs =>
      obtain ⟨b, ds⟩ := c
      simp [Tree.preorderL, Tree.preorder]
  refine ⟨os1, q1, t1, ?_⟩
  simp only [frameEnd] at h2
  split at h2
  · simp at h2
  · next o' t2 h4 =>
    simp only [Except.ok.injEq, Prod.mk.injEq] at h2
    obtain ⟨rfl, rfl⟩ := h2
    refine ⟨o', h1, h3, by simp only [frameEnd, h4], fun p v hp => ?_⟩
    have : p.length - 1 = 0 := by omega
    simp only [frameEnd, this, h4]
  · next h4 => exact absurd h4 (closeG_zero hq)

theorem forest_length (cs : List (Tree (V × List Nat))) : ∀ {t t' : τ} {os : List O}, F.forest t cs = .ok (os, t') →
    os.length = cs.length := by
  induction cs with
  | nil =>
    intro t t' os h
    simp only [forest, Except.ok.injEq, Prod.mk.injEq] at h
    rw [← h.1]
    rfl
  | cons c cs ih =>
    intro t t' os h
    rw [forest] at h
    split at h
    · simp at h
    · split at h
      · simp at h
      · next h2 =>
        simp only [Except.ok.injEq, Prod.mk.injEq] at h
        rw [← h.1, List.length_cons, List.length_cons, ih h2]

end Shape

theorem Sim.steps {Q : Type u} {Q' : Type v} {V : Type w} {O : Type x} {τ : Type y} {E : CollEnd Q V O τ}
    {E' : CollEnd Q' V O τ} {ρ : Q' → Q} (h : Sim E E' ρ) (items : List (V × List Nat)) (hp : ∀ i ∈ items, i.2 ≠ []) :
    ∀ (q : Q') (t : τ), E.steps items (ρ q) t = mapOk (fun r => (r.1, ρ r.2.1, r.2.2)) (E'.steps items q t) := by
  induction items with
  | nil => intro q t; rfl
  | cons i items ih =>
    obtain ⟨v, p⟩ := i
    intro q t
    have hp1 : p ≠ [] := hp (v, p) (by simp)
    have ih := ih fun i hi => hp i (by simp [hi])
    rw [CollEnd.steps, CollEnd.steps, h.step q p v t hp1]
    rcases E'.step q p v t with e | ⟨o | q1, t1⟩
    · rfl
    · simp only [mapOk, Step.mapStack]
      rw [← h.empty, h.step _ p v t1 hp1]
      rcases E'.step E'.empty p v t1 with e | ⟨o' | q2, t2⟩
      · rfl
      · rfl
      · simp only [mapOk, Step.mapStack, ih]
        rcases E'.steps items q2 t2 with e | ⟨os, q3, t3⟩ <;> rfl
    · simp only [mapOk, Step.mapStack, ih]

/-! ## The state of the stages -/

section
variable {A : Type u} {σ : Type w} {U : Type v} {W : Type x}

/-- The state of the closures when the items of the first `n` emitted trees have been seen, and one item more. -/
def Dec.stop (dec : Dec σ U W) : Nat → σ → List (Lab U) → σ
  | _, w, [] => w
  | 0, w, .node (p, x) _ :: ts =>
    match dec w p x with
    | (w', .skip) => Dec.stop dec 0 w' ts
    | (w', .emit _ _) => w'
  | n + 1, w, t :: ts => Dec.stop dec (if (dec.tree w t).2.isSome then n else n + 1) (dec.tree w t).1 ts

/-- The same for a client that calls `next()` `n` times. -/
def Dec.quit (dec : Dec σ U W) (n : Nat) (w : σ) (ts : List (Lab U)) : σ := if n = 0 then w else dec.stop n w ts

theorem Dec.stop_zero {v : Visitor A σ U W} {dec : Dec σ U W} (hi : Indep v dec) (l : List (Lab U)) : ∀ (a : A) (w : σ),
    (visitNext v a w l).2.2 = dec.stop 0 w l := by
  induction l with
  | nil => intro a w; simp [visitNext, Dec.stop]
  | cons t ts ih =>
    obtain ⟨⟨p, x⟩, cs⟩ := t
    intro a w
    obtain ⟨a', h⟩ := hi a w p x
    rw [visitNext, Dec.stop, h]
    rcases dec w p x with ⟨w', o⟩
    cases o with
    | skip => exact ih a' w'
    | emit y k => rfl

theorem visitNext_root {v : Visitor A σ U W} (hl : LenOk v) {d : Nat} {l : List (Lab U)} : ∀ {a a' : A} {w w' : σ} {y : W}
    {cs rest : List (Lab U)}, (∀ t ∈ l, LabDepth d t) → visitNext v a w l = (some (y, cs, rest), a', w') →
    (v.path a').length = d := by
  induction l with
  | nil => intro a a' w w' y cs rest _ h; simp [visitNext] at h
  | cons t ts ih =>
    obtain ⟨⟨p, x⟩, ds⟩ := t
    intro a a' w w' y cs rest hd h
    rw [visitNext] at h
    rcases hv : v.visit a w p x with ⟨a1, w1, o⟩
    rw [hv] at h
    cases o with
    | skip => exact ih (fun t ht => hd t (by simp [ht])) h
    | emit z k =>
      simp only [Prod.mk.injEq, Option.some.injEq] at h
      obtain ⟨⟨rfl, rfl, rfl⟩, rfl, rfl⟩ := h
      rw [hl hv]
      have := hd _ (List.mem_cons_self ..)
      simp only [LabDepth] at this
      exact this.1

/-- Either there are fewer trees, or the first `n + 1` emitted trees come from the first trees of the source. -/
theorem Dec.stop_split (dec : Dec σ U W) (ts : List (Lab U)) : ∀ (n : Nat) (w : σ),
    ((dec.forest w ts).2.length < n + 1 ∧ dec.stop (n + 1) w ts = (dec.forest w ts).1) ∨
      ∃ l l', ts = l ++ l' ∧ (dec.forest w l).2.length = n + 1 ∧ dec.stop (n + 1) w ts = dec.stop 0 (dec.forest w l).1 l' := by
  induction ts with
  | nil => intro n w; simp [Dec.forest, Dec.stop]
  | cons t ts ih =>
    intro n w
    rw [Dec.stop]
    rcases h : dec.tree w t with ⟨w', o⟩
    cases o with
    | none =>
      rcases ih n w' with ⟨h1, h2⟩ | ⟨l, l', h1, h2, h3⟩
      · exact .inl (by simpa [Dec.forest, h] using ⟨h1, h2⟩)
      · exact .inr ⟨t :: l, l', by rw [h1, List.cons_append], by simpa [Dec.forest, h] using h2,
          by simpa [Dec.forest, h] using h3⟩
    | some c =>
      cases n with
      | zero => exact .inr ⟨[t], ts, rfl, by simp [Dec.forest, h], by simp [Dec.forest, h]⟩
      | succ n =>
        rcases ih n w' with ⟨h1, h2⟩ | ⟨l, l', h1, h2, h3⟩
        · exact .inl (by simpa [Dec.forest, h, Nat.add_comm 1] using ⟨h1, h2⟩)
        · exact .inr ⟨t :: l, l', by rw [h1, List.cons_append], by simpa [Dec.forest, h, Nat.add_comm 1] using h2,
            by simpa [Dec.forest, h] using h3⟩

end

section
variable {S : Type u} {A : Type v} {σ : Type w} {U : Type x} {W : Type y} {τ : Type z} {X O : Type z'} {Q : Type q}
variable {M : Pipe S W σ} {v : Visitor A σ U W} {R : S → A → List (Lab U) → Prop} {dec : Dec σ U W} {s : S} {a : A}
  {ts l l' : List (Lab U)}

/-- As many calls as trees are emitted from the first part of a forest. -/
theorem Sim.callsPart {E : CollEnd Q W O τ} {F : Shape X W O τ} {ρ : List (W × X × Nat) → Q} (hs : Sim E F.frameEnd ρ)
    (hM : Enum M v R) (hR : R s a (l ++ l')) {w : σ} {t t' : τ} {os : List O} (hl : LenOk v) (hl' : ∀ c ∈ l', LabDepth 1 c)
    (hd : ∀ c ∈ (visitL v a w l).1, DepthOk 1 c) (hne : (visitL v a w l).1 ≠ [])
    (hf : F.forest t (visitL v a w l).1 = .ok (os, t')) :
    E.calls M os.length (s, none) w t =
      .ok (os.map some, (visitNext v (visitL v a w l).2.1 (visitL v a w l).2.2 l').2.2, t') := by
  obtain ⟨s1, a1, w1, l1, h1, h2, h3⟩ := hM.part w hR
  obtain ⟨os1, q1, t1, o, h4, rfl, h5, h6⟩ := Shape.steps_forest hd hne hf
  have h7 := hs.steps _ (depthOk_pathsL hd) [] t
  rw [h4, show ρ [] = E.empty from hs.empty] at h7
  rw [← h3]
  have key : E.callsFrom M 0 s1 w1 (ρ q1) t1 = .ok ([some o], (visitNext v a1 w1 l1).2.2, t') := by
    rcases hv : visitNext v a1 w1 l1 with ⟨x, a2, w2⟩
    rcases x with _ | ⟨y, cs, rest⟩
    · obtain ⟨s2, a3, h8, -⟩ := hM.next_none h2 hv
      rw [CollEnd.callsFrom, CollEnd.loop_none h8, hs.drain, h5]
      rfl
    · obtain ⟨s2, h8, h9, -⟩ := hM.next_some h2 hv
      have h10 : (M.path s2).length = 1 := by
        rw [hM.path h9]
        exact visitNext_root hl hl' (h3 ▸ hv)
      rw [CollEnd.callsFrom, CollEnd.loop_some h8, hs.step _ _ _ _ (by intro h; simp [h] at h10), h6 _ _ h10]
      rfl
  have h8 := CollEnd.callsFrom_part h1 h7 key
  rw [List.length_append, List.length_singleton, List.map_append]
  exact h8

/-- The states after any number of calls. -/
theorem Sim.quit {E : CollEnd Q W O τ} {F : Shape X W O τ} {ρ : List (W × X × Nat) → Q} (hs : Sim E F.frameEnd ρ)
    (hM : Enum M v R) (hR : R s a ts) (hl : LenOk v) (hi : Indep v dec) (ht : ∀ c ∈ ts, LabDepth 1 c) (w : σ) (t : τ)
    {G : Nat → List O × τ} (hf : ∀ n, F.forest t ((visitL v a w ts).1.take n) = .ok (G n)) (n : Nat) :
    ∃ x, E.calls M n (s, none) w t = .ok (x, dec.quit n w ts, (G n).2) := by
  obtain ⟨g1, g2, g3⟩ := visitL_indep hl hi ts a w ht
  cases n with
  | zero =>
    have h0 := hf 0
    simp only [List.take_zero, Shape.forest, Except.ok.injEq] at h0
    exact ⟨[], by simp [CollEnd.calls, Dec.quit, ← h0]⟩
  | succ n =>
    rw [Dec.quit, if_neg (by omega)]
    have hn := hf (n + 1)
    rcases dec.stop_split ts n w with ⟨h1, h2⟩ | ⟨l, l', rfl, h2, h3⟩
    · have hlen : (visitL v a w ts).1.length = (dec.forest w ts).2.length := by
        simpa using congrArg List.length g2
      rw [List.take_of_length_le (by omega)] at hn
      obtain ⟨r, h4, h5⟩ := hs.calls hM hR g3 hn (n + 1)
      refine ⟨seen (n + 1) (G (n + 1)).1, ?_⟩
      rw [h4, h5 (by rw [Shape.forest_length _ hn, hlen]; exact h1), g1, h2]
    · have htl : ∀ c ∈ l, LabDepth 1 c := fun c hc => ht c (by simp [hc])
      obtain ⟨k1, k2, k3⟩ := visitL_indep hl hi l a w htl
      have hlen : (visitL v a w l).1.length = n + 1 := by
        rw [← h2]
        simpa using congrArg List.length k2
      have ha : (visitL v a w (l ++ l')).1.take (n + 1) = (visitL v a w l).1 := by
        rw [visitL_append, ← hlen, List.take_left]
      rw [ha] at hn
      have h4 := hs.callsPart hM hR hl (fun c hc => ht c (by simp [hc])) k3 (by intro h; simp [h] at hlen) hn
      rw [Shape.forest_length _ hn, hlen, Dec.stop_zero hi, k1, ← h3] at h4
      exact ⟨_, h4⟩

end

section
variable {σ : Type w} {U : Type v} {W : Type x} {N : Type y} {T : Type z} {B : Type z'}

/-- What is done with a root, and whether it is kept. -/
def Dec.root (dec : Dec σ U W) (w : σ) : Lab U → σ × Bool
  | .node (p, x) _ =>
    match dec w p x with
    | (w', .skip) => (w', false)
    | (w', .emit _ _) => (w', true)

theorem Dec.stop_labs {dec : Dec σ U W} {lab : N → List Nat → Lab U} {tree : N → T} {root : σ → Nat → T → σ × Bool}
    {g : σ → Nat → T → σ × Option B} (ns : List N) (hr : ∀ n ∈ ns, ∀ w i, dec.root w (lab n [i]) = root w i (tree n))
    (hg : ∀ n ∈ ns, ∀ w i, (dec.tree w (lab n [i])).1 = (g w i (tree n)).1 ∧
      (dec.tree w (lab n [i])).2.isSome = (g w i (tree n)).2.isSome) : ∀ (k : Nat) (w : σ) (i : Nat),
    dec.stop k w (CollPipe.labs lab i ns) = stopS root g k w i (ns.map tree) := by
  induction ns with
  | nil => intro k w i; simp [CollPipe.labs, Dec.stop, stopS]
  | cons n ns ih =>
    have ih := ih (fun n hn => hr n (by simp [hn])) (fun n hn => hg n (by simp [hn]))
    intro k w i
    cases k with
    | zero =>
      have h := hr n (by simp) w i
      rw [CollPipe.labs, List.map_cons, stopS, ← h]
      rcases lab n [i] with ⟨⟨p, x⟩, cs⟩
      rw [Dec.stop, Dec.root]
      rcases dec w p x with ⟨w', o⟩
      cases o with
      | skip => simpa using ih 0 w' (i + 1)
      | emit y b => simp
    | succ k =>
      obtain ⟨h1, h2⟩ := hg n (by simp) w i
      rw [CollPipe.labs, List.map_cons, stopS, Dec.stop, h1, h2, ih]

theorem Dec.quit_labs {dec : Dec σ U W} {lab : N → List Nat → Lab U} {tree : N → T} {root : σ → Nat → T → σ × Bool}
    {g : σ → Nat → T → σ × Option B} (ns : List N) (hr : ∀ n ∈ ns, ∀ w i, dec.root w (lab n [i]) = root w i (tree n))
    (hg : ∀ n ∈ ns, ∀ w i, (dec.tree w (lab n [i])).1 = (g w i (tree n)).1 ∧
      (dec.tree w (lab n [i])).2.isSome = (g w i (tree n)).2.isSome) (k : Nat) (w : σ) :
    dec.quit k w (CollPipe.labs lab 0 ns) = quitS root g k w (ns.map tree) := by
  rw [Dec.quit, quitS, Dec.stop_labs ns hr hg]

end

/-! ## The ends -/

section
variable {S : Type u} {A : Type v} {σ : Type w} {U : Type x} {W : Type y} {τ : Type z} {O : Type z'} {N : Type q}
variable {M : Pipe S W σ} {v : Visitor A σ U W} {R : S → A → List (Lab U) → Prop} {dec : Dec σ U W} {s : S} {a : A}
  {ts : List (Lab U)}

theorem Enum.treesQuit (hM : Enum M v R) (hl : LenOk v) (hi : Indep v dec) (hR : R s a ts) (ht : ∀ t ∈ ts, LabDepth 1 t) (w : σ)
    (n : Nat) : treesEnd.calls M n (s, none) w () =
      .ok (seen n ((dec.forest w ts).2.map (Tree.map Prod.fst)), dec.quit n w ts, ()) := by
  obtain ⟨r, h1, -⟩ := hM.trees hl hi hR ht w n
  obtain ⟨x, h2⟩ := treesSim.quit hM hR hl hi ht w () (fun n => treesShape_forest _ ()) n
  rw [h1] at h2 ⊢
  simp only [Except.ok.injEq, Prod.mk.injEq] at h2
  rw [h2.2]

theorem Enum.foldTreesQuit (hM : Enum M v R) (hl : LenOk v) (hi : Indep v dec) (hR : R s a ts) (ht : ∀ t ∈ ts, LabDepth 1 t)
    (f : τ → List O → W → τ × O) (w : σ) (t : τ) (n : Nat) :
    (foldEnd f).calls M n (s, none) w t =
      .ok (seen n (Tree.foldSL f t ((dec.forest w ts).2.map (Tree.map Prod.fst))).2, dec.quit n w ts,
        (Tree.foldSL f t (((dec.forest w ts).2.map (Tree.map Prod.fst)).take n)).1) := by
  obtain ⟨r, h1, -⟩ := hM.foldTrees hl hi hR ht f w t n
  obtain ⟨x, h2⟩ := (foldSim f).quit hM hR hl hi ht w t (fun n => foldShape_forest f _ t) n
  obtain ⟨-, h3, -⟩ := visitL_indep hl hi ts a w ht
  rw [List.map_take, h3] at h2
  rw [h1] at h2 ⊢
  simp only [Except.ok.injEq, Prod.mk.injEq] at h2
  rw [h2.2]

theorem Enum.foldPathTreesQuit (hM : Enum M v R) (hl : Through v) (hi : Indep v dec) (hR : R s a ts)
    (ht : ∀ t ∈ ts, ∃ i, LabPath [i] t) (f : τ → List O → List Nat → W → τ × O) (w : σ) (t : τ) (n : Nat) :
    (foldPathEnd f).calls M n (s, none) w t =
      .ok (seen n (Tree.foldSL (Pipe.onPaths f) t (dec.forest w ts).2).2, dec.quit n w ts,
        (Tree.foldSL (Pipe.onPaths f) t ((dec.forest w ts).2.take n)).1) := by
  obtain ⟨r, h1, -⟩ := hM.foldPathTrees hl hi hR ht f w t n
  obtain ⟨-, h3⟩ := visitL_through hl hi ts a w
  have hp : ∀ c ∈ (visitL v a w ts).1, ∃ i, PathOk [i] c := by rw [h3]; exact Dec.forest_pathOk ht
  obtain ⟨x, h2⟩ := (foldPathSim f).quit hM hR (Through.lenOk hl) hi
    (fun c hc => by obtain ⟨i, hi⟩ := ht c hc; exact hi.labDepth) w t
    (fun n => foldPathShape_forest f _ t fun c hc => hp c (List.mem_of_mem_take hc)) n
  rw [h3] at h2
  rw [h1] at h2 ⊢
  simp only [Except.ok.injEq, Prod.mk.injEq] at h2
  rw [h2.2]

variable {ns : List N} {tree : N → BinTree U}

theorem Enum.binTreesQuit (hM : Enum M v R) (hl : Through v) (hi : Indep v dec)
    (hR : R s a (CollPipe.labs (fun n p => (tree n).paths p) 0 ns))
    (ht : ∀ c ∈ CollPipe.labs (fun n p => (tree n).paths p) 0 ns, LabDepth 1 c) (w : σ) (n : Nat) :
    binTreesEnd.calls M n (s, none) w () = .ok (seen n ((dec.bins w 0 (ns.map tree)).2.map Prod.snd),
      dec.quit n w (CollPipe.labs (fun n p => (tree n).paths p) 0 ns), ()) := by
  obtain ⟨r, h1, -⟩ := hM.binTrees (tree := tree) hl hi hR w n
  obtain ⟨-, h3, -⟩ := visitL_bins (tree := tree) hl hi w a ns
  obtain ⟨x, h2⟩ := binTreesSim.quit hM hR (Through.lenOk hl) hi ht w ()
    (fun n => by rw [h3, ← List.map_take]; exact binTreesShape_forest _ ()) n
  rw [h1] at h2 ⊢
  simp only [Except.ok.injEq, Prod.mk.injEq] at h2
  rw [h2.2]

theorem Enum.binFoldPathTreesQuit (hM : Enum M v R) (hl : Through v) (hi : Indep v dec)
    (hR : R s a (CollPipe.labs (fun n p => (tree n).paths p) 0 ns))
    (ht : ∀ c ∈ CollPipe.labs (fun n p => (tree n).paths p) 0 ns, LabDepth 1 c) (f : τ → Option O × Option O → List Nat → W → τ × O) (w : σ)
    (t : τ) (n : Nat) :
    (binFoldPathEnd f).calls M n (s, none) w t = .ok (seen n (foldNumbered f t (dec.bins w 0 (ns.map tree)).2).2,
      dec.quit n w (CollPipe.labs (fun n p => (tree n).paths p) 0 ns),
      (foldNumbered f t ((dec.bins w 0 (ns.map tree)).2.take n)).1) := by
  obtain ⟨r, h1, -⟩ := hM.binFoldPathTrees (tree := tree) hl hi hR f w t n
  obtain ⟨-, h3, -⟩ := visitL_bins (tree := tree) hl hi w a ns
  obtain ⟨x, h2⟩ := (binFoldPathSim f).quit hM hR (Through.lenOk hl) hi ht w t
    (fun n => by rw [h3, ← List.map_take]; exact binFoldShape_forest f _ t) n
  rw [h1] at h2 ⊢
  simp only [Except.ok.injEq, Prod.mk.injEq] at h2
  rw [h2.2]

theorem Enum.binFoldTreesQuit (hM : Enum M v R) (hl : Through v) (hi : Indep v dec)
    (hR : R s a (CollPipe.labs (fun n p => (tree n).paths p) 0 ns))
    (ht : ∀ c ∈ CollPipe.labs (fun n p => (tree n).paths p) 0 ns, LabDepth 1 c) (f : τ → Option O × Option O → W → τ × O) (w : σ)
    (t : τ) (n : Nat) :
    (binFoldEnd f).calls M n (s, none) w t =
      .ok (seen n (foldNumbered (fun t x _ v => f t x v) t (dec.bins w 0 (ns.map tree)).2).2,
        dec.quit n w (CollPipe.labs (fun n p => (tree n).paths p) 0 ns),
        (foldNumbered (fun t x _ v => f t x v) t ((dec.bins w 0 (ns.map tree)).2.take n)).1) := by
  obtain ⟨r, h1, -⟩ := hM.binFoldTrees (tree := tree) hl hi hR f w t n
  obtain ⟨-, h3, -⟩ := visitL_bins (tree := tree) hl hi w a ns
  obtain ⟨x, h2⟩ := (binFoldSim f).quit hM hR (Through.lenOk hl) hi ht w t
    (fun n => by rw [h3, ← List.map_take]; exact binFoldShape_forest (fun t x _ v => f t x v) _ t) n
  rw [h1] at h2 ⊢
  simp only [Except.ok.injEq, Prod.mk.injEq] at h2
  rw [h2.2]

end

end TreeIter
