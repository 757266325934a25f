import Verif.Model.PollColl

/-! # Collections whose source is any iterator, with contexts -/

universe u v w

namespace TreeIter

namespace Poll

variable {N : Type u} {S : Type v} {O : Type w}

/-- The two states agree: nothing of the `ghosts` has been seen. -/
def withGhosts (ghosts : List (Option N)) (s : Coll.CtxState N S) : SourceCtx N S :=
  ⟨s.rest.map some ++ none :: ghosts, s.index, s.inner⟩

theorem ctxPull_ghosts (mk : N → List Nat → S) (next : S → Except Panic (Option O × S)) (ghosts : List (Option N))
    (ns : List N) (index : Nat) {s : Coll.CtxState N S} (h : Coll.ctxPull mk next index ns = .ok s) :
    ctxPull mk next index (ns.map some ++ none :: ghosts) =
      .ok (if s.inner.isSome then withGhosts ghosts s else ⟨ghosts, s.index, none⟩) := by
  induction ns generalizing index with
  | nil => cases h; rfl
  | cons n ns ih =>
    simp only [List.map_cons, List.cons_append, ctxPull, Coll.ctxPull] at h ⊢
    rcases hn : next (mk n [wrapSucc index]) with e | ⟨_ | o, s'⟩
    · simp [hn] at h
    · simp only [hn] at h ⊢
      exact ih _ h
    · simp only [hn, Except.ok.injEq] at h ⊢
      subst h
      rfl

theorem sourceCtx_get (get : S → Option O) (ghosts : List (Option N)) (s1 : Coll.CtxState N S) :
    sourceCtxGet get (if s1.inner.isSome then withGhosts ghosts s1 else ⟨ghosts, s1.index, none⟩) =
      Coll.ctxGet get s1 := by
  cases hi : s1.inner <;> simp [sourceCtxGet, Coll.ctxGet, withGhosts, hi]

theorem sourceCtxNext_ghosts (mk : N → List Nat → S) (adv : S → Except Panic S) (get : S → Option O)
    (ghosts : List (Option N)) (s : Coll.CtxState N S) {o : Option O} {s' : Coll.CtxState N S}
    (h : Coll.ctxNext mk adv get s = .ok (o, s')) :
    ∃ r, sourceCtxNext mk adv get (withGhosts ghosts s) = .ok (o, r) ∧ (o.isSome → r = withGhosts ghosts s') := by
  have key : ∀ s1, Coll.ctxAdvance mk (streamNextE adv get) s = .ok s1 →
      sourceCtxAdvance mk (streamNextE adv get) (withGhosts ghosts s) =
        .ok (if s1.inner.isSome then withGhosts ghosts s1 else ⟨ghosts, s1.index, none⟩) := by
    intro s1 h1
    obtain ⟨rest, index, inner⟩ := s
    cases inner with
    | none => exact ctxPull_ghosts mk _ ghosts rest index h1
    | some i =>
      simp only [Coll.ctxAdvance, sourceCtxAdvance, withGhosts] at h1 ⊢
      rcases hn : streamNextE adv get i with e | ⟨_ | o, i'⟩
      · simp [hn] at h1
      · simp only [hn] at h1 ⊢
        exact ctxPull_ghosts mk _ ghosts rest index h1
      · simp only [hn, Except.ok.injEq] at h1 ⊢
        subst h1
        rfl
  simp only [Coll.ctxNext, streamNextE] at h
  cases ha : Coll.ctxAdvance mk (streamNextE adv get) s with
  | error e =>
    rw [ha] at h
    cases h
  | ok s1 =>
    have hk := key s1 ha
    rw [ha] at h
    simp only [Except.ok.injEq, Prod.mk.injEq] at h
    obtain ⟨rfl, rfl⟩ := h
    refine ⟨_, by simp only [sourceCtxNext, streamNextE, hk, sourceCtx_get]; rfl, ?_⟩
    cases hi : s1.inner with
    | none => simp [Coll.ctxGet, hi]
    | some i => simp

/-- Up to the first `None` the calls do not see what the source would answer after its own. -/
theorem sourceCtx_calls_of (mk : N → List Nat → S) (adv : S → Except Panic S) (get : S → Option O) (ns : List N)
    (ghosts : List (Option N)) {l : List O}
    (h : ∀ k, nthCallE (Coll.ctxNext mk adv get) k ⟨ns, usizeMax, none⟩ = .ok l[k]?) (k : Nat) (hk : k ≤ l.length) :
    nthCallE (sourceCtxNext mk adv get) k (SourceCtx.new (ns.map some ++ none :: ghosts)) = .ok l[k]? := by
  have gen : ∀ (k : Nat) (s : Coll.CtxState N S) (l : List O),
      (∀ k, nthCallE (Coll.ctxNext mk adv get) k s = .ok l[k]?) → k ≤ l.length →
      nthCallE (sourceCtxNext mk adv get) k (withGhosts ghosts s) = .ok l[k]? := by
    intro k
    induction k with
    | zero =>
      intro s l h _
      have h0 := h 0
      cases hn : Coll.ctxNext mk adv get s with
      | error e => simp [nthCallE, stateAfterE, hn] at h0
      | ok r =>
        obtain ⟨o, s'⟩ := r
        simp only [nthCallE, stateAfterE, hn] at h0
        cases h0
        obtain ⟨r, h1, _⟩ := sourceCtxNext_ghosts mk adv get ghosts s hn
        simp only [nthCallE, stateAfterE, h1]
    | succ k ih =>
      intro s l h hk
      have h0 := h 0
      cases hn : Coll.ctxNext mk adv get s with
      | error e => simp [nthCallE, stateAfterE, hn] at h0
      | ok r =>
        obtain ⟨o, s'⟩ := r
        simp only [nthCallE, stateAfterE, hn] at h0
        cases h0
        obtain ⟨r, h1, h2⟩ := sourceCtxNext_ghosts mk adv get ghosts s hn
        cases l with
        | nil => simp at hk
        | cons a l =>
          have hr := h2 (by simp)
          subst hr
          have := ih s' l (fun k => by simpa [nthCallE, stateAfterE, hn] using h (k + 1)) (by simpa using hk)
          simpa [nthCallE, stateAfterE, h1] using this
  exact gen k ⟨ns, usizeMax, none⟩ l h hk

end Poll

end TreeIter
