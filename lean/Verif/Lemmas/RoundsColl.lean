import Verif.Lemmas.RoundsBfsCtx

/-!
# The work of traversals of collections: helper lemmas
-/

universe u v w

namespace TreeIter

namespace Coll

variable {N : Type u} {S : Type v} {O : Type w}

/-- The stock of a collection: that of the current tree and those of the trees to come. -/
def stock (mk : N → S) (φ : S → Nat) (s : State N S) : Nat := (s.inner.map φ).getD 0 + (s.rest.map fun n => φ (mk n)).sum

theorem pull_paid {mk : N → S} {next : S → Option O × S} {cost φ : S → Nat} (h : ∀ s, cost s + φ (next s).2 ≤ φ s)
    (ns : List N) : pullWork mk next cost ns + stock mk φ (pull mk next ns).2 ≤ (ns.map fun n => φ (mk n)).sum := by
  induction ns with
  | nil => simp [pullWork, pull, stock]
  | cons n ns ih =>
    have h1 := h (mk n)
    rw [pullWork, pull, List.map_cons, List.sum_cons]
    rcases hn : next (mk n) with ⟨_ | o, s'⟩
    · rw [hn] at h1
      simp only at h1 ⊢
      omega
    · rw [hn] at h1
      simp only [stock, Option.map_some, Option.getD_some] at h1 ⊢
      omega

theorem next_paid {mk : N → S} {innerNext : S → Option O × S} {cost φ : S → Nat}
    (h : ∀ s, cost s + φ (innerNext s).2 ≤ φ s) (s : State N S) :
    work mk innerNext cost s + stock mk φ (next mk innerNext s).2 ≤ stock mk φ s := by
  obtain ⟨rest, inner⟩ := s
  have hp := pull_paid (mk := mk) h rest
  cases inner with
  | none => simpa [work, next, stock] using hp
  | some i =>
    have h1 := h i
    rw [work, next]
    rcases hn : innerNext i with ⟨_ | o, s'⟩
    · rw [hn] at h1
      simp only [hn] at h1 ⊢
      have : stock mk φ ⟨rest, some i⟩ = φ i + (rest.map fun n => φ (mk n)).sum := rfl
      omega
    · rw [hn] at h1
      simp only [hn, stock, Option.map_some, Option.getD_some] at h1 ⊢
      omega

/-- Calls paid for out of a stock of which some may be left over. -/
theorem _root_.TreeIter.totalOver_within {T : Type u} {P : Type v} {next : T → Option P × T} {cost φ : T → Nat}
    (h : ∀ s, cost s + φ (next s).2 ≤ φ s) (k : Nat) : ∀ s, totalOver next cost k s ≤ φ s := by
  induction k with
  | zero => intro s; simp [totalOver]
  | succ k ih =>
    intro s
    have h1 := ih (next s).2
    have h2 := h s
    simp only [totalOver]
    omega

theorem total_le {mk : N → S} {innerNext : S → Option O × S} {cost φ : S → Nat}
    (h : ∀ s, cost s + φ (innerNext s).2 ≤ φ s) (ns : List N) (k : Nat) :
    totalOver (next mk innerNext) (work mk innerNext cost) k (new ns) ≤ (ns.map fun n => φ (mk n)).sum := by
  have h1 := totalOver_within (fun s => next_paid (mk := mk) h s) k (new ns)
  simpa [stock, new] using h1

/-- The stock of a collection with contexts; a tree has the same stock whatever its path. -/
def ctxStock (φ : S → Nat) (root : N → Nat) (s : CtxState N S) : Nat := (s.inner.map φ).getD 0 + (s.rest.map root).sum

theorem ctxPull_paid {mk : N → List Nat → S} {next : S → Except Panic (Option O × S)} {cost φ : S → Nat} {root : N → Nat}
    (hr : ∀ n p, φ (mk n p) = root n) (h : ∀ s, cost s ≤ φ s) (h' : ∀ s o s', next s = .ok (o, s') → cost s + φ s' ≤ φ s)
    (ns : List N) : ∀ index, ctxPullWork mk next cost index ns ≤ (ns.map root).sum ∧
      ∀ s', ctxPull mk next index ns = .ok s' →
        ctxPullWork mk next cost index ns + ctxStock φ root s' ≤ (ns.map root).sum := by
  induction ns with
  | nil =>
    intro index
    refine ⟨by simp [ctxPullWork], fun s' hs => ?_⟩
    cases hs
    simp [ctxPullWork, ctxStock]
  | cons n ns ih =>
    intro index
    have h0 := h (mk n [wrapSucc index])
    rw [hr] at h0
    obtain ⟨i1, i2⟩ := ih (wrapSucc index)
    rw [ctxPullWork, ctxPull, List.map_cons, List.sum_cons]
    rcases hn : next (mk n [wrapSucc index]) with e | ⟨_ | o, s1⟩
    · refine ⟨by simp only; omega, fun s' hs => by cases hs⟩
    · have h1 := h' _ _ _ hn
      rw [hr] at h1
      simp only
      refine ⟨by omega, fun s' hs => ?_⟩
      have := i2 s' hs
      omega
    · have h1 := h' _ _ _ hn
      rw [hr] at h1
      simp only
      refine ⟨by omega, fun s' hs => ?_⟩
      cases hs
      simp only [ctxStock, Option.map_some, Option.getD_some]
      omega

theorem ctxAdvance_paid {mk : N → List Nat → S} {next : S → Except Panic (Option O × S)} {cost φ : S → Nat} {root : N → Nat}
    (hr : ∀ n p, φ (mk n p) = root n) (h : ∀ s, cost s ≤ φ s) (h' : ∀ s o s', next s = .ok (o, s') → cost s + φ s' ≤ φ s)
    (s : CtxState N S) : ctxWork mk next cost s ≤ ctxStock φ root s ∧
      ∀ s', ctxAdvance mk next s = .ok s' → ctxWork mk next cost s + ctxStock φ root s' ≤ ctxStock φ root s := by
  obtain ⟨rest, index, inner⟩ := s
  obtain ⟨p1, p2⟩ := ctxPull_paid hr h h' rest index
  cases inner with
  | none =>
    refine ⟨by simpa [ctxWork, ctxStock] using p1, fun s' hs => ?_⟩
    have := p2 s' hs
    simpa [ctxWork, ctxStock] using this
  | some i =>
    have e : ctxStock φ root ⟨rest, index, some i⟩ = φ i + (rest.map root).sum := rfl
    have h0 := h i
    rw [ctxWork, ctxAdvance, e]
    rcases hn : next i with er | ⟨_ | o, s1⟩
    · refine ⟨by simp only [hn]; omega, fun s' hs => by simp [hn] at hs⟩
    · have h1 := h' _ _ _ hn
      simp only [hn]
      refine ⟨by omega, fun s' hs => ?_⟩
      have := p2 s' hs
      omega
    · have h1 := h' _ _ _ hn
      simp only [hn]
      refine ⟨by omega, fun s' hs => ?_⟩
      cases hs
      simp only [ctxStock, Option.map_some, Option.getD_some]
      omega

theorem ctxTotal_le {mk : N → List Nat → S} {adv : S → Except Panic S} {get : S → Option O} {cost φ : S → Nat}
    {root : N → Nat} (hr : ∀ n p, φ (mk n p) = root n) (h : ∀ s, cost s ≤ φ s)
    (h' : ∀ s o s', streamNextE adv get s = .ok (o, s') → cost s + φ s' ≤ φ s) (ns : List N) (index k : Nat) :
    totalOverE (ctxNext mk adv get) (ctxWork mk (streamNextE adv get) cost) k ⟨ns, index, none⟩ ≤ (ns.map root).sum := by
  have h1 := totalOverE_paid (next := ctxNext mk adv get) (cost := ctxWork mk (streamNextE adv get) cost)
    (φ := ctxStock φ root) (fun s => (ctxAdvance_paid hr h h' s).1) (fun s o s' hs => by
      simp only [ctxNext, streamNextE] at hs
      cases hc : ctxAdvance mk (streamNextE adv get) s with
      | error e =>
        simp [hc] at hs
      | ok s1 =>
        have hc' := hc
        simp only [hc, Except.ok.injEq, Prod.mk.injEq] at hs
        obtain ⟨-, rfl⟩ := hs
        exact (ctxAdvance_paid hr h h' s).2 s1 hc') k ⟨ns, index, none⟩
  simpa [ctxStock] using h1

end Coll

end TreeIter
