import Verif.Model.LazyColl
import Verif.Spec.LazyColl
import Verif.Lemmas.Collection

/-! # Lemmas about collections with any source of trees -/

universe u v w x

namespace TreeIter

/-- `i` times the source was asked, and `l` is what is left of the current block. -/
theorem blocks {S : Type u} {O : Type v} {next : S → Except Panic (Option O × S)} {b : Nat → List (Option O)}
    (hb : ∀ i, b i ≠ []) (R : Nat → List (Option O) → S → Prop)
    (h1 : ∀ i a l s, R i (a :: l) s → ∃ s', next s = .ok (a, s') ∧ R i l s')
    (h2 : ∀ i s, R i [] s → ∃ a l s', b i = a :: l ∧ next s = .ok (a, s') ∧ R (i + 1) l s')
    {s0 : S} (h0 : R 0 [] s0) (i j : Nat) (hj : j < (b i).length) :
    nthCallE next (before b i + j) s0 = .ok (b i)[j] ∧
      ∃ s, stateAfterE next (before b i + j + 1) s0 = .ok s ∧ R (i + 1) ((b i).drop (j + 1)) s := by
  have app : ∀ (m n : Nat) (s s' : S), stateAfterE next m s = .ok s' →
      stateAfterE next (m + n) s = stateAfterE next n s' := by
    intro m
    induction m with
    | zero => intro n s s' h; simp only [stateAfterE, Except.ok.injEq] at h; subst h; simp
    | succ m ih =>
      intro n s s' h
      rw [Nat.add_right_comm]
      simp only [stateAfterE] at h ⊢
      cases hs : next s with
      | error e => simp [hs] at h
      | ok p => simp only [hs] at h ⊢; exact ih n _ _ h
  have one : ∀ (m : Nat) (s' s'' : S) (a : Option O), stateAfterE next m s0 = .ok s' → next s' = .ok (a, s'') →
      nthCallE next m s0 = .ok a ∧ stateAfterE next (m + 1) s0 = .ok s'' := by
    intro m s' s'' a h k
    refine ⟨by simp [nthCallE, h, k], ?_⟩
    rw [app m 1 s0 s' h]
    simp [stateAfterE, k]
  -- within a block
  have within : ∀ i, (∃ s, stateAfterE next (before b i) s0 = .ok s ∧ R i [] s) → ∀ j (hj : j < (b i).length),
      nthCallE next (before b i + j) s0 = .ok (b i)[j] ∧
        ∃ s, stateAfterE next (before b i + j + 1) s0 = .ok s ∧ R (i + 1) ((b i).drop (j + 1)) s := by
    rintro i ⟨s, hs, hR⟩ j
    induction j with
    | zero =>
      intro hj
      obtain ⟨a, l, s', e, hn, hR'⟩ := h2 i s hR
      obtain ⟨k1, k2⟩ := one _ _ _ _ hs hn
      refine ⟨by simpa [e] using k1, s', by simpa using k2, by simpa [e] using hR'⟩
    | succ j ih =>
      intro hj
      obtain ⟨-, s1, hs1, hR1⟩ := ih (by omega)
      rw [List.drop_eq_getElem_cons hj] at hR1
      obtain ⟨s', hn, hR'⟩ := h1 _ _ _ _ hR1
      obtain ⟨k1, k2⟩ := one _ _ _ _ hs1 hn
      exact ⟨k1, s', k2, hR'⟩
  have start : ∀ i, ∃ s, stateAfterE next (before b i) s0 = .ok s ∧ R i [] s := by
    intro i
    induction i with
    | zero => exact ⟨s0, rfl, h0⟩
    | succ i ih =>
      have hp := List.length_pos_iff.2 (hb i)
      obtain ⟨-, s, hs, hR⟩ := within i ih ((b i).length - 1) (by omega)
      rw [show (b i).length - 1 + 1 = (b i).length by omega, List.drop_length] at hR
      exact ⟨s, by rw [← hs, before]; congr 1; omega, hR⟩
  exact within i (start i) j hj

theorem polled_succ {C : Type u} {N : Type v} (poll : C → Option N × C) (i : Nat) (c : C) :
    polled poll (i + 1) c = (poll (polled poll i c)).2 := by
  induction i generalizing c with
  | zero => rfl
  | succ i ih => rw [polled, ih]; rfl

namespace LazyColl

variable {C : Type u} {N : Type v} {S : Type w} {O : Type x}

theorem block_ne {spec : N → List O} (h : ∀ n, spec n ≠ []) (o : Option N) : block spec o ≠ [] := by
  cases o with
  | none => simp [block]
  | some n => simp [block, h n]

/-- The states of a collection iterator: the source was asked `i` times and `l` is left of the current block. -/
def Rel (poll : C → Option N × C) (c : C) (innerNext : S → Option O × S) (i : Nat) (l : List (Option O)) (s : State C S) :
    Prop :=
  s.source = polled poll i c ∧
    match s.inner with
    | none => l = []
    | some t => ∃ a, Yields innerNext t a ∧ l = a.map some

theorem calls (poll : C → Option N × C) (mk : N → S) (innerNext : S → Option O × S) (spec : N → List O)
    (hne : ∀ n, spec n ≠ []) (c : C) (h : ∀ i n, asked poll i c = some n → Yields innerNext (mk n) (spec n)) (fuel : Nat)
    (i j : Nat) (hj : j < (block spec (asked poll i c)).length) :
    nthCallE (next poll mk innerNext (fuel + 2)) (before (fun i => block spec (asked poll i c)) i + j) (new c) =
        .ok (block spec (asked poll i c))[j] ∧
      ∃ s, stateAfterE (next poll mk innerNext (fuel + 2)) (before (fun i => block spec (asked poll i c)) i + j + 1) (new c) =
        .ok s ∧ s.source = polled poll (i + 1) c := by
  have key := blocks (b := fun i => block spec (asked poll i c)) (next := next poll mk innerNext (fuel + 2))
    (fun i => block_ne hne _) (Rel poll c innerNext) ?_ ?_ (s0 := new c) ⟨rfl, rfl⟩ i j hj
  · exact ⟨key.1, key.2.imp fun s h => ⟨h.1, h.2.1⟩⟩
  · rintro i a l ⟨src, _ | t⟩ ⟨h1, h2⟩
    · simp at h2
    · obtain ⟨b, hb, e⟩ := h2
      cases b with
      | nil => simp at e
      | cons b bs =>
        simp only [List.map_cons, List.cons.injEq] at e
        obtain ⟨rfl, rfl⟩ := e
        have hi := hb.step
        rcases he : innerNext t with ⟨_ | o, t'⟩
        · rw [he] at hi; simp at hi
        · rw [he] at hi
          simp only [List.head?_cons, List.tail_cons] at hi
          refine ⟨⟨src, some t'⟩, ?_, h1, bs, hi.2, rfl⟩
          simp [next, he, hi.1]
  · rintro i ⟨src, inner⟩ ⟨h1, h2⟩
    simp only at h1
    subst h1
    have turn : next poll mk innerNext (fuel + 2) ⟨polled poll i c, inner⟩ =
        match poll (polled poll i c) with
        | (none, c) => .ok (none, ⟨c, none⟩)
        | (some n, c) => next poll mk innerNext (fuel + 1) ⟨c, some (mk n)⟩ := by
      rcases inner with _ | t
      · rw [next]
        rcases poll (polled poll i c) with ⟨_ | n, c'⟩ <;> rfl
      · obtain ⟨b, hb, e⟩ := h2
        obtain rfl : b = [] := by simpa using e.symm
        have hi := hb.step.1
        rcases he : innerNext t with ⟨_ | o, t'⟩
        · rw [next]
          simp only [Option.map_some, he]
          rcases poll (polled poll i c) with ⟨_ | n, c'⟩ <;> rfl
        · rw [he] at hi; simp at hi
    rw [turn]
    rcases hp : poll (polled poll i c) with ⟨_ | n, c'⟩
    · refine ⟨none, [], ⟨c', none⟩, by simp [asked, hp, block], rfl, ?_, rfl⟩
      simp [polled_succ, hp]
    · have hn := h i n (by simp [asked, hp])
      have hi := hn.step
      cases hs : spec n with
      | nil => exact absurd hs (hne n)
      | cons a as =>
        rw [hs] at hi
        rcases he : innerNext (mk n) with ⟨_ | o, t⟩
        · rw [he] at hi; simp at hi
        · rw [he] at hi
          simp only [List.head?_cons, List.tail_cons, Option.some.injEq] at hi
          refine ⟨some o, as.map some, ⟨c', some t⟩, by simp [asked, hp, block, hs, hi.1], by simp [next, he], ?_, as, hi.2, rfl⟩
          simp [polled_succ, hp]

/-- The same for the iterators with context; `i` is also what `index` is about to become. -/
def CtxRel (poll : C → Option N × C) (c : C) (innerNext : S → Except Panic (Option O × S)) (i : Nat) (l : List (Option O))
    (s : CtxState C S) : Prop :=
  s.source = polled poll i c ∧ wrapSucc s.index = i % 2 ^ 64 ∧
    match s.inner with
    | none => l = []
    | some t => ∃ a, YieldsE innerNext t a ∧ l = a.map some

theorem ctxCalls (poll : C → Option N × C) (mk : N → List Nat → S) (adv : S → Except Panic S) (get : S → Option O)
    (spec : Nat → N → List O) (hne : ∀ i n, spec i n ≠ []) (c : C)
    (h : ∀ i n, asked poll i c = some n → ∀ m, YieldsE (streamNextE adv get) (mk n [m]) (spec m n)) (fuel : Nat)
    (i j : Nat) (hj : j < (block (spec (i % 2 ^ 64)) (asked poll i c)).length) :
    nthCallE (ctxNext poll mk adv get (fuel + 2)) (before (fun i => block (spec (i % 2 ^ 64)) (asked poll i c)) i + j)
        ⟨c, usizeMax, none⟩ = .ok (block (spec (i % 2 ^ 64)) (asked poll i c))[j] ∧
      ∃ s, stateAfterE (ctxNext poll mk adv get (fuel + 2))
          (before (fun i => block (spec (i % 2 ^ 64)) (asked poll i c)) i + j + 1) ⟨c, usizeMax, none⟩ = .ok s ∧
        s.source = polled poll (i + 1) c := by
  have fin : ∀ (s s' : CtxState C S) (a : Option O),
      ctxAdvance poll mk (streamNextE adv get) (fuel + 2) s = .ok s' → ctxGet get s' = a →
      ctxNext poll mk adv get (fuel + 2) s = .ok (a, s') := by
    intro s s' a h1 h2
    simp [ctxNext, streamNextE, h1, h2]
  have key := blocks (b := fun i => block (spec (i % 2 ^ 64)) (asked poll i c)) (next := ctxNext poll mk adv get (fuel + 2))
    (fun i => block_ne (hne _) _) (CtxRel poll c (streamNextE adv get)) ?_ ?_ (s0 := ⟨c, usizeMax, none⟩)
    ⟨rfl, by simp [wrapSucc, usizeMax], rfl⟩ i j hj
  · exact ⟨key.1, key.2.imp fun s h => ⟨h.1, h.2.1⟩⟩
  · rintro i a l ⟨src, ix, _ | t⟩ ⟨h1, h2, h3⟩
    · simp at h3
    · obtain ⟨b, hb, e⟩ := h3
      cases b with
      | nil => simp at e
      | cons b bs =>
        simp only [List.map_cons, List.cons.injEq] at e
        obtain ⟨rfl, rfl⟩ := e
        obtain ⟨t', e1, e2⟩ := hb.step
        refine ⟨⟨src, ix, some t'⟩, fin _ _ _ ?_ ?_, h1, h2, bs, e2, rfl⟩
        · simp [ctxAdvance, e1]
        · have := Coll.streamNextE_ok e1
          simp only [ctxGet, Option.bind_some, ← this, List.head?_cons]
  · rintro i ⟨src, ix, inner⟩ ⟨h1, h2, h3⟩
    simp only at h1 h2
    subst h1
    have turn : ctxAdvance poll mk (streamNextE adv get) (fuel + 2) ⟨polled poll i c, ix, inner⟩ =
        if (ctxPull poll mk ⟨polled poll i c, ix, inner⟩).inner.isNone then .ok (ctxPull poll mk ⟨polled poll i c, ix, inner⟩)
        else ctxAdvance poll mk (streamNextE adv get) (fuel + 1) (ctxPull poll mk ⟨polled poll i c, ix, inner⟩) := by
      rcases inner with _ | t
      · rw [ctxAdvance]; rfl
      · obtain ⟨b, hb, e⟩ := h3
        obtain rfl : b = [] := by simpa using e.symm
        obtain ⟨t', e1, -⟩ := hb.step
        rw [ctxAdvance]
        simp only [Option.map_some, e1, List.head?_nil]
    have hix : wrapSucc (wrapSucc ix) = (i + 1) % 2 ^ 64 := by rw [h2, wrapSucc, Nat.mod_add_mod]
    rcases hp : poll (polled poll i c) with ⟨_ | n, c'⟩
    · refine ⟨none, [], ⟨c', wrapSucc ix, none⟩, by simp [asked, hp, block], fin _ _ _ ?_ rfl, ?_, hix, rfl⟩
      · rw [turn]
        simp [ctxPull, hp]
      · simp [polled_succ, hp]
    · have hn := h i n (by simp [asked, hp]) (i % 2 ^ 64)
      obtain ⟨t, e1, e2⟩ := hn.step
      cases hs : spec (i % 2 ^ 64) n with
      | nil => exact absurd hs (hne _ n)
      | cons a as =>
        rw [hs] at e1 e2
        refine ⟨some a, as.map some, ⟨c', wrapSucc ix, some t⟩, by simp [asked, hp, block, hs], fin _ _ _ ?_ ?_, ?_, hix, as,
          e2, rfl⟩
        · rw [turn]
          simp only [ctxPull, hp, h2, Option.map_some, Option.isNone_some, Bool.false_eq_true, if_false]
          rw [ctxAdvance]
          simp [e1]
        · have := Coll.streamNextE_ok e1
          simp only [ctxGet, Option.bind_some, ← this, List.head?_cons]
        · simp [polled_succ, hp]

end LazyColl

end TreeIter
