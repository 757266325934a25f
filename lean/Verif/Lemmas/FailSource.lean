import Verif.Model.FailSource
import Verif.Spec.FailSource
import Verif.Lemmas.Collection

/-! # Lemmas about traversals of collections with panics caught -/

universe u v w

namespace TreeIter

variable {N : Type u} {S : Type v} {O : Type w}

namespace Fail

/-! ## Without context -/

/-- What a collection state has left to hand out. -/
def SrcRel (mk : N → S) (next : S → Option (Option O) × S) (spec : N → List (Option O)) (s : Coll.State (Option N) S)
    (l : List (Option O)) : Prop :=
  (∀ n, some n ∈ s.rest → Yields next (mk n) (spec n)) ∧
    match s.inner with
    | none => l = sourceReplies (fun n _ => spec n) 0 s.rest
    | some i => ∃ a, Yields next i a ∧ l = a ++ sourceReplies (fun n _ => spec n) 0 s.rest

theorem sourceReplies_const (spec : N → List (Option O)) (i : Nat) (l : List (Option N)) :
    sourceReplies (fun n _ => spec n) i l = sourceReplies (fun n _ => spec n) 0 l := by
  induction l generalizing i with
  | nil => rfl
  | cons a l ih =>
    cases a with
    | none => rw [sourceReplies, sourceReplies, ih]
    | some a => rw [sourceReplies, sourceReplies, ih (i + 1), ih (0 + 1)]

theorem srcPull_spec (mk : N → S) (next : S → Option (Option O) × S) (spec : N → List (Option O)) (ns : List (Option N))
    (inner : Option S) (hi : ∀ i, inner = some i → Yields next i []) (h : ∀ n, some n ∈ ns → Yields next (mk n) (spec n)) :
    (srcPull mk next inner ns).1 = (sourceReplies (fun n _ => spec n) 0 ns).head? ∧
      SrcRel mk next spec (srcPull mk next inner ns).2 (sourceReplies (fun n _ => spec n) 0 ns).tail := by
  induction ns generalizing inner with
  | nil => simp [srcPull, SrcRel, sourceReplies]
  | cons n ns ih =>
    have h' : ∀ n, some n ∈ ns → Yields next (mk n) (spec n) := fun m hm => h m (by simp [hm])
    cases n with
    | none =>
      refine ⟨rfl, h', ?_⟩
      cases inner with
      | none => rfl
      | some i => exact ⟨[], hi i rfl, rfl⟩
    | some n =>
      have hn := (h n (by simp)).step
      rw [srcPull, sourceReplies, sourceReplies_const]
      cases hs : spec n with
      | nil =>
        rw [hs] at hn
        rcases he : next (mk n) with ⟨_ | o, s⟩
        · rw [he] at hn
          simpa using ih (some s) (by rintro i ⟨⟩; simpa using hn.2) h'
        · rw [he] at hn; simp at hn
      | cons a l =>
        rw [hs] at hn
        rcases he : next (mk n) with ⟨_ | o, s⟩
        · rw [he] at hn; simp at hn
        · rw [he] at hn
          refine ⟨by simpa using hn.1, h', ?_⟩
          exact ⟨l, by simpa using hn.2, by simp⟩

theorem srcNext_spec (mk : N → S) (next : S → Option (Option O) × S) (spec : N → List (Option O))
    (s : Coll.State (Option N) S) (l : List (Option O)) (h : SrcRel mk next spec s l) :
    (srcNext mk next s).1 = l.head? ∧ SrcRel mk next spec (srcNext mk next s).2 l.tail := by
  obtain ⟨rest, inner⟩ := s
  obtain ⟨h1, h2⟩ := h
  rcases inner with _ | i
  · obtain rfl : l = sourceReplies (fun n _ => spec n) 0 rest := h2
    exact srcPull_spec mk next spec rest none (by simp) h1
  · obtain ⟨a, h3, rfl⟩ : ∃ a, Yields next i a ∧ l = a ++ sourceReplies (fun n _ => spec n) 0 rest := h2
    have hi := h3.step
    cases a with
    | nil =>
      rcases he : next i with ⟨_ | o, s⟩
      · have : srcNext mk next ⟨rest, some i⟩ = srcPull mk next (some s) rest := by simp [srcNext, he]
        rw [this]
        rw [he] at hi
        exact srcPull_spec mk next spec rest _ (by rintro i ⟨⟩; simpa using hi.2) h1
      · rw [he] at hi; simp at hi
    | cons a l =>
      rcases he : next i with ⟨_ | o, s⟩
      · rw [he] at hi; simp at hi
      · rw [he] at hi
        have : srcNext mk next ⟨rest, some i⟩ = (some o, ⟨rest, some s⟩) := by simp [srcNext, he]
        rw [this]
        refine ⟨by simpa using hi.1, h1, ?_⟩
        exact ⟨l, by simpa using hi.2, by simp⟩

theorem srcCalls (mk : N → S) (next : S → Option (Option O) × S) (spec : N → List (Option O)) (ns : List (Option N))
    (h : ∀ n k, nthCall next k (mk n) = (spec n)[k]?) (k : Nat) :
    nthCall (srcNext mk next) k (Coll.new ns) = (sourceReplies (fun n _ => spec n) 0 ns)[k]? :=
  yields_of_rel (SrcRel mk next spec) (srcNext_spec mk next spec) ⟨fun n _ => h n, rfl⟩ k

/-! ## With context -/

/-- What a collection context state has left to hand out; `j` is the index of the next tree. -/
def SrcCtxRel (mk : N → List Nat → Option S) (next : S → Except Panic (Option (Option O) × S))
    (spec : N → Nat → List (Option O)) (s : Coll.CtxState (Option N) S) (l : List (Option O)) : Prop :=
  ∃ a r, l = a ++ r ∧
    (match s.inner with
      | none => a = []
      | some i => YieldsE next i a) ∧
    (∀ n, some n ∈ s.rest → ∀ i, match mk n [i] with
      | none => spec n i = [none]
      | some t => YieldsE next t (spec n i)) ∧
    ((∀ n, some n ∉ s.rest) ∧ r = List.replicate s.rest.length none ∨
      ∃ j, (s.rest.filterMap id).length + j ≤ 2 ^ 64 ∧ wrapSucc s.index = j ∧ r = sourceReplies spec j s.rest)

theorem sourceReplies_panics (spec : N → Nat → List (Option O)) (j : Nat) (ns : List (Option N)) (h : ∀ n, some n ∉ ns) :
    sourceReplies spec j ns = List.replicate ns.length none := by
  induction ns with
  | nil => rfl
  | cons n ns ih =>
    cases n with
    | none => rw [sourceReplies, ih (fun n hn => h n (by simp [hn]))]; rfl
    | some n => exact absurd (List.mem_cons_self) (h n)

/-- What is known of the rest once a tree with number `j` has been taken. -/
theorem srcCtx_after (spec : N → Nat → List (Option O)) (j : Nat) (ns : List (Option N))
    (hj : (ns.filterMap id).length + (j + 1) ≤ 2 ^ 64) :
    (∀ n, some n ∉ ns) ∧ sourceReplies spec (j + 1) ns = List.replicate ns.length none ∨
      ∃ j', (ns.filterMap id).length + j' ≤ 2 ^ 64 ∧ wrapSucc j = j' ∧
        sourceReplies spec (j + 1) ns = sourceReplies spec j' ns := by
  by_cases h : ∃ n, some n ∈ ns
  · right
    refine ⟨j + 1, hj, ?_, rfl⟩
    obtain ⟨n, hn⟩ := h
    have : 0 < (ns.filterMap id).length := by
      rw [List.length_pos_iff_exists_mem]
      exact ⟨n, by simpa using hn⟩
    rw [wrapSucc, Nat.mod_eq_of_lt]
    omega
  · left
    have h : ∀ n, some n ∉ ns := fun n hn => h ⟨n, hn⟩
    exact ⟨h, sourceReplies_panics spec _ ns h⟩

theorem srcCtxPull_spec (mk : N → List Nat → Option S) (next : S → Except Panic (Option (Option O) × S))
    (spec : N → Nat → List (Option O)) (ns : List (Option N)) (inner : Option S) (index : Nat) (r : List (Option O))
    (hi : ∀ i, inner = some i → YieldsE next i [])
    (h : ∀ n, some n ∈ ns → ∀ i, match mk n [i] with
      | none => spec n i = [none]
      | some t => YieldsE next t (spec n i))
    (hr : (∀ n, some n ∉ ns) ∧ r = List.replicate ns.length none ∨
      ∃ j, (ns.filterMap id).length + j ≤ 2 ^ 64 ∧ wrapSucc index = j ∧ r = sourceReplies spec j ns) :
    ∃ s', srcCtxPull mk next inner index ns = .ok (r.head?, s') ∧ SrcCtxRel mk next spec s' r.tail := by
  induction ns generalizing inner index r with
  | nil =>
    obtain rfl : r = [] := by
      rcases hr with ⟨-, rfl⟩ | ⟨j, -, -, rfl⟩ <;> rfl
    exact ⟨_, rfl, [], [], rfl, rfl, by simp, .inl ⟨by simp, rfl⟩⟩
  | cons n ns ih =>
    have h' : ∀ n, some n ∈ ns → ∀ i, match mk n [i] with
      | none => spec n i = [none]
      | some t => YieldsE next t (spec n i) := fun m hm => h m (by simp [hm])
    cases n with
    | none =>
      have hr' : ∃ r', r = none :: r' ∧ ((∀ n, some n ∉ ns) ∧ r' = List.replicate ns.length none ∨
          ∃ j, (ns.filterMap id).length + j ≤ 2 ^ 64 ∧ wrapSucc index = j ∧ r' = sourceReplies spec j ns) := by
        rcases hr with ⟨h1, rfl⟩ | ⟨j, h1, h2, rfl⟩
        · exact ⟨_, rfl, .inl ⟨fun n hn => h1 n (by simp [hn]), rfl⟩⟩
        · exact ⟨_, rfl, .inr ⟨j, by simpa using h1, h2, rfl⟩⟩
      obtain ⟨r', rfl, hr'⟩ := hr'
      refine ⟨_, rfl, [], r', rfl, ?_, h', hr'⟩
      cases inner with
      | none => rfl
      | some i => exact hi i rfl
    | some n =>
      obtain ⟨j, h1, h2, rfl⟩ : ∃ j, ((some n :: ns).filterMap id).length + j ≤ 2 ^ 64 ∧ wrapSucc index = j ∧
          r = sourceReplies spec j (some n :: ns) := by
        rcases hr with ⟨h1, -⟩ | hr
        · exact absurd List.mem_cons_self (h1 n)
        · exact hr
      have ha := srcCtx_after spec j ns (by simp at h1; omega)
      have hn := h n (by simp) j
      rw [srcCtxPull, h2, sourceReplies]
      cases hm : mk n [j] with
      | none =>
        rw [hm] at hn
        rw [show spec n j = [none] from hn]
        refine ⟨_, rfl, [], _, rfl, ?_, h', ha⟩
        cases inner with
        | none => rfl
        | some i => exact hi i rfl
      | some t =>
        rw [hm] at hn
        obtain ⟨t', e1, e2⟩ := YieldsE.step (s := t) hn
        cases hs : spec n j with
        | nil =>
          rw [hs] at e1 e2
          simp only [e1, List.head?_nil]
          exact ih (some t') j _ (by rintro i ⟨⟩; exact e2) h' ha
        | cons a as =>
          rw [hs] at e1 e2
          simp only [e1, List.head?_cons]
          exact ⟨_, rfl, as, _, by simp, e2, h', ha⟩

theorem srcCtxNext_spec (mk : N → List Nat → Option S) (next : S → Except Panic (Option (Option O) × S))
    (spec : N → Nat → List (Option O)) (s : Coll.CtxState (Option N) S) (l : List (Option O))
    (h : SrcCtxRel mk next spec s l) :
    ∃ s', srcCtxNext mk next s = .ok (l.head?, s') ∧ SrcCtxRel mk next spec s' l.tail := by
  obtain ⟨rest, index, inner⟩ := s
  obtain ⟨a, r, rfl, h1, h2, h3⟩ := h
  rcases inner with _ | i
  · obtain rfl : a = [] := h1
    exact srcCtxPull_spec mk next spec rest none index r (by simp) h2 h3
  · obtain ⟨t', e1, e2⟩ := YieldsE.step (s := i) h1
    rw [srcCtxNext]
    cases a with
    | nil =>
      simp only [e1, List.head?_nil]
      exact srcCtxPull_spec mk next spec rest (some t') index r (by rintro i ⟨⟩; exact e2) h2 h3
    | cons a as =>
      simp only [e1, List.head?_cons]
      exact ⟨_, rfl, as, r, rfl, e2, h2, h3⟩

theorem srcCtxCalls (mk : N → List Nat → Option S) (next : S → Except Panic (Option (Option O) × S))
    (spec : N → Nat → List (Option O)) (ns : List (Option N)) (hlen : (ns.filterMap id).length ≤ 2 ^ 64)
    (h : ∀ n, some n ∈ ns → ∀ i, match mk n [i] with
      | none => spec n i = [none]
      | some t => ∀ k, nthCallE next k t = .ok (spec n i)[k]?) (k : Nat) :
    nthCallE (srcCtxNext mk next) k ⟨ns, usizeMax, none⟩ = .ok (sourceReplies spec 0 ns)[k]? :=
  (nthCallE_rel (SrcCtxRel mk next spec) (srcCtxNext_spec mk next spec)
    ⟨[], _, rfl, rfl, h, .inr ⟨0, by simpa using hlen, Preorder.wrapSucc_usizeMax, rfl⟩⟩ k).1

theorem lift_calls (next : S → Except Panic (Option O × S)) (s : S) (l : List O) (h : ∀ k, nthCallE next k s = .ok l[k]?)
    (k : Nat) : nthCallE (lift next) k s = .ok (l.map some)[k]? := by
  refine (nthCallE_rel (fun s l => ∃ a, l = a.map some ∧ YieldsE next s a) ?_ ⟨l, rfl, h⟩ k).1
  rintro s l ⟨a, rfl, ha⟩
  obtain ⟨s', e1, e2⟩ := ha.step
  refine ⟨s', ?_, a.tail, by simp, e2⟩
  simp only [lift, e1, List.head?_map]

end Fail

end TreeIter
