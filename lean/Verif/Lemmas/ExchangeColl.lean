import Verif.Lemmas.ExchangeCtx

/-! # Accounting for the references in a collection of trees -/

universe u v w x

namespace TreeIter

namespace Coll

variable {N : Type u} {V : Type v} {S : Type w} {O : Type x} [DecidableEq V]

/-- All references in the iterator over the current tree and in the trees to come. -/
def CtxState.refs (all : S → List V) (refsOf : N → List V) (s : CtxState N S) : List V :=
  s.inner.toList.flatMap all ++ s.rest.flatMap refsOf

theorem ctxPull_count (all : S → List V) (Inv : S → Prop) (refsOf : N → List V) (mk : N → List Nat → S)
    (next : S → Except Panic (Option O × S))
    (hn : ∀ s o s', Inv s → next s = .ok (o, s') → (∀ a, (all s').count a ≤ (all s).count a) ∧ Inv s')
    (hm : ∀ n path, Inv (mk n path) ∧ ∀ a, (all (mk n path)).count a ≤ (refsOf n).count a) (index : Nat) (rest : List N)
    (s : CtxState N S) (h : ctxPull mk next index rest = .ok s) :
    (∀ a, (s.refs all refsOf).count a ≤ (rest.flatMap refsOf).count a) ∧ ∀ i ∈ s.inner, Inv i := by
  induction rest generalizing index with
  | nil =>
    obtain rfl := Except.ok.inj h
    exact ⟨fun a => by simp [CtxState.refs], by simp⟩
  | cons n rest ih =>
    rw [ctxPull] at h
    split at h
    · cases h
    · rename_i o i hi
      obtain rfl := Except.ok.inj h
      obtain ⟨h1, h2⟩ := hm n [wrapSucc index]
      obtain ⟨h3, h4⟩ := hn _ _ _ h1 hi
      refine ⟨fun a => ?_, fun j hj => (Option.some.inj hj) ▸ h4⟩
      have := h2 a
      have := h3 a
      simp only [CtxState.refs, Option.toList_some, List.flatMap_cons, List.flatMap_nil, List.append_nil, List.count_append]
      omega
    · obtain ⟨h1, h2⟩ := ih _ h
      refine ⟨fun a => ?_, h2⟩
      have := h1 a
      rw [List.flatMap_cons, List.count_append]
      omega

/-- The references in a collection are accounted for if those in the iterator over the current tree are.  `ct` is the
collection as its client uses it. -/
theorem accounts {it : Lending S O V} {all : S → List V} {Inv : S → Prop} (ha : it.Accounts all Inv)
    (refsOf : N → List V) (mk : N → List Nat → S) {advance : S → Except Panic S} {get : S → Option O}
    (hi : it.next = streamNextE advance get)
    (hm : ∀ n path, Inv (mk n path) ∧ ∀ a, (all (mk n path)).count a ≤ (refsOf n).count a)
    {ct : Lending (CtxState N S) O V} (hc : ct.next = ctxNext mk advance get) (hg : ct.get = ctxGet it.get)
    (hp : ∀ s o, ct.put s o = { s with inner := s.inner.map fun i => it.put i o }) (hr : ct.refs = it.refs) :
    ct.Accounts (CtxState.refs all refsOf) (fun s => ∀ i ∈ s.inner, Inv i) := by
  have hn : ∀ s o s', Inv s → streamNextE advance get s = .ok (o, s') → (∀ a, (all s').count a ≤ (all s).count a) ∧ Inv s' :=
    fun s o s' h1 h2 => ha.next s o s' h1 (hi ▸ h2)
  refine ⟨?_, ?_, ?_⟩
  · intro s o s' hs h
    rw [hc] at h
    obtain ⟨h, _⟩ := streamNextE_ok h
    obtain ⟨rest, index, inner⟩ := s
    cases inner with
    | none => exact ctxPull_count all Inv refsOf mk _ hn hm index rest s' h
    | some i =>
      simp only [ctxAdvance] at h
      split at h
      · cases h
      · rename_i o' i' hi'
        obtain rfl := Except.ok.inj h
        obtain ⟨h3, h4⟩ := hn _ _ _ (hs i rfl) hi'
        refine ⟨fun a => ?_, fun j hj => (Option.some.inj hj) ▸ h4⟩
        have := h3 a
        simp only [CtxState.refs, Option.toList_some, List.flatMap_cons, List.flatMap_nil, List.append_nil, List.count_append]
        omega
      · obtain ⟨h1, h2⟩ := ctxPull_count all Inv refsOf mk _ hn hm index rest s' h
        refine ⟨fun a => ?_, h2⟩
        have := h1 a
        simp only [CtxState.refs, List.count_append] at this ⊢
        omega
  · intro s o ho a
    obtain ⟨rest, index, _ | i⟩ := s
    · rw [hg] at ho
      cases ho
    · have := ha.get i o (by rw [hg] at ho; exact ho) a
      rw [hr]
      simp only [CtxState.refs, Option.toList_some, List.flatMap_cons, List.flatMap_nil, List.append_nil, List.count_append]
      omega
  · intro s o o' hs ho
    obtain ⟨rest, index, _ | i⟩ := s
    · rw [hg] at ho
      cases ho
    · obtain ⟨h1, h2⟩ := ha.put i o o' (hs i rfl) (by rw [hg] at ho; exact ho)
      rw [hp, hr]
      refine ⟨fun a => ?_, fun j hj => (Option.some.inj hj) ▸ h2⟩
      have := h1 a
      simp only [CtxState.refs, Option.map_some, Option.toList_some, List.flatMap_cons, List.flatMap_nil, List.append_nil,
        List.count_append]
      omega

/-- For a client that exchanges everything. -/
theorem accounts_lend {it : Lending S O V} {all : S → List V} {Inv : S → Prop} (ha : it.Accounts all Inv)
    (refsOf : N → List V) (mk : N → List Nat → S) {advance : S → Except Panic S} (hi : it.next = streamNextE advance it.get)
    (hm : ∀ n path, Inv (mk n path) ∧ ∀ a, (all (mk n path)).count a ≤ (refsOf n).count a) :
    (lend mk advance it).Accounts (CtxState.refs all refsOf) (fun s => ∀ i ∈ s.inner, Inv i) :=
  accounts ha refsOf mk hi hm rfl rfl (fun _ _ => rfl) rfl

/-- For a client that exchanges references to values only. -/
theorem accounts_ancestorsOnly {C : Type x} {it : Lending S (Ctx V C) V} {all : S → List V} {Inv : S → Prop}
    (ha : it.ancestorsOnly.Accounts all Inv) (refsOf : N → List V) (mk : N → List Nat → S) {advance : S → Except Panic S}
    (hi : it.next = streamNextE advance it.get)
    (hm : ∀ n path, Inv (mk n path) ∧ ∀ a, (all (mk n path)).count a ≤ (refsOf n).count a) :
    (lend mk advance it).ancestorsOnly.Accounts (CtxState.refs all refsOf) (fun s => ∀ i ∈ s.inner, Inv i) := by
  refine accounts ha refsOf mk hi hm rfl ?_ ?_ rfl
  · funext ⟨rest, index, inner⟩
    cases inner <;> rfl
  · rintro ⟨rest, index, inner⟩ o
    cases inner <;> rfl

end Coll

end TreeIter
