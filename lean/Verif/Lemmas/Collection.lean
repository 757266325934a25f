import Verif.Model.Collection
import Verif.Lemmas.BfsAnc
import Verif.Lemmas.Located
import Verif.Lemmas.Preorder

/-! # Lemmas about collection iterators -/

universe u v w x

namespace TreeIter

variable {N : Type u} {S : Type v} {O : Type w}

/-- The calls of `next` from `s` on return `l` and then `None` for ever. -/
def Yields (next : S → Option O × S) (s : S) (l : List O) : Prop := ∀ k, nthCall next k s = l[k]?

/-- The calls of `next` from `s` on return `l` and then `None` for ever, and do not panic. -/
def YieldsE (next : S → Except Panic (Option O × S)) (s : S) (l : List O) : Prop := ∀ k, nthCallE next k s = .ok l[k]?

theorem Yields.step {next : S → Option O × S} {s : S} {l : List O} (h : Yields next s l) :
    (next s).1 = l.head? ∧ Yields next (next s).2 l.tail := by
  refine ⟨?_, fun k => ?_⟩
  · have := h 0
    simpa [nthCall, stateAfter, List.head?_eq_getElem?] using this
  · have := h (k + 1)
    rw [List.getElem?_tail, ← this]
    rfl

theorem yields_of_rel {next : S → Option O × S} (R : S → List O → Prop)
    (hnext : ∀ s l, R s l → (next s).1 = l.head? ∧ R (next s).2 l.tail) {s : S} {l : List O} (hs : R s l) :
    Yields next s l := by
  intro k
  induction k generalizing s l with
  | zero => simpa [nthCall, stateAfter, List.head?_eq_getElem?] using (hnext s l hs).1
  | succ k ih =>
    have := ih (hnext s l hs).2
    rw [List.getElem?_tail] at this
    exact this

theorem YieldsE.step {next : S → Except Panic (Option O × S)} {s : S} {l : List O} (h : YieldsE next s l) :
    ∃ s', next s = .ok (l.head?, s') ∧ YieldsE next s' l.tail := by
  have h0 := h 0
  rw [nthCallE, stateAfterE] at h0
  cases hs : next s with
  | error e => simp [hs] at h0
  | ok p =>
    obtain ⟨o, s'⟩ := p
    refine ⟨s', ?_, fun k => ?_⟩
    · simp only [hs, Except.ok.injEq] at h0
      rw [h0, List.head?_eq_getElem?]
    · have := h (k + 1)
      rw [nthCallE, stateAfterE, hs] at this
      rw [List.getElem?_tail, ← this]
      rfl

namespace Coll

/-! ## Without context -/

/-- What a collection state has left to hand out. -/
def Rel (mk : N → S) (next : S → Option O × S) (spec : N → List O) (s : State N S) (l : List O) : Prop :=
  (∀ n ∈ s.rest, Yields next (mk n) (spec n)) ∧
    match s.inner with
    | none => l = s.rest.flatMap spec
    | some i => ∃ a, Yields next i a ∧ l = a ++ s.rest.flatMap spec

theorem pull_spec (mk : N → S) (next : S → Option O × S) (spec : N → List O) (ns : List N)
    (h : ∀ n ∈ ns, Yields next (mk n) (spec n)) :
    (pull mk next ns).1 = (ns.flatMap spec).head? ∧ Rel mk next spec (pull mk next ns).2 (ns.flatMap spec).tail := by
  induction ns with
  | nil => simp [pull, Rel]
  | cons n ns ih =>
    have hn := (h n (by simp)).step
    have ih := ih fun m hm => h m (by simp [hm])
    rw [pull, List.flatMap_cons]
    cases hs : spec n with
    | nil =>
      rw [hs] at hn
      rcases he : next (mk n) with ⟨_ | o, s⟩
      · simpa using ih
      · rw [he] at hn; simp at hn
    | cons a l =>
      rw [hs] at hn
      rcases he : next (mk n) with ⟨_ | o, s⟩
      · rw [he] at hn; simp at hn
      · rw [he] at hn
        refine ⟨by simpa using hn.1, fun m hm => h m (by simp [hm]), ?_⟩
        exact ⟨l, by simpa using hn.2, by simp⟩

theorem next_spec (mk : N → S) (innerNext : S → Option O × S) (spec : N → List O) (s : State N S) (l : List O)
    (h : Rel mk innerNext spec s l) :
    (next mk innerNext s).1 = l.head? ∧ Rel mk innerNext spec (next mk innerNext s).2 l.tail := by
  obtain ⟨rest, inner⟩ := s
  obtain ⟨h1, h2⟩ := h
  rcases inner with _ | i
  · obtain rfl : l = rest.flatMap spec := h2
    exact pull_spec mk innerNext spec rest h1
  · obtain ⟨a, h3, rfl⟩ : ∃ a, Yields innerNext i a ∧ l = a ++ rest.flatMap spec := h2
    have hi := h3.step
    cases a with
    | nil =>
      rcases he : innerNext i with ⟨_ | o, s⟩
      · have : next mk innerNext ⟨rest, some i⟩ = pull mk innerNext rest := by simp [next, he]
        rw [this]
        exact pull_spec mk innerNext spec rest h1
      · rw [he] at hi; simp at hi
    | cons a l =>
      rcases he : innerNext i with ⟨_ | o, s⟩
      · rw [he] at hi; simp at hi
      · rw [he] at hi
        have : next mk innerNext ⟨rest, some i⟩ = (some o, ⟨rest, some s⟩) := by simp [next, he]
        rw [this]
        refine ⟨by simpa using hi.1, h1, ?_⟩
        exact ⟨l, by simpa using hi.2, by simp⟩

/-- A collection iterator hands out what its single-tree iterators hand out, tree by tree. -/
theorem calls (mk : N → S) (innerNext : S → Option O × S) (spec : N → List O) (ns : List N)
    (h : ∀ n ∈ ns, ∀ k, nthCall innerNext k (mk n) = (spec n)[k]?) (k : Nat) :
    nthCall (next mk innerNext) k (new ns) = (ns.flatMap spec)[k]? :=
  yields_of_rel (Rel mk innerNext spec) (next_spec mk innerNext spec) ⟨h, rfl⟩ k

/-! ## With context -/

/-- What a collection context state has left to hand out; `j` is the index of the next tree. -/
def CtxRel (mk : N → List Nat → S) (next : S → Except Panic (Option O × S)) (spec : N → Nat → List O)
    (s : CtxState N S) (l : List O) : Prop :=
  (s.rest = [] ∧ match s.inner with
    | none => l = []
    | some i => YieldsE next i l) ∨
  ∃ j, s.rest.length + j ≤ 2 ^ 64 ∧ wrapSucc s.index = j ∧
    (∀ n ∈ s.rest, ∀ i, YieldsE next (mk n [i]) (spec n i)) ∧
    match s.inner with
    | none => l = (s.rest.zipIdx j).flatMap fun p => spec p.1 p.2
    | some i => ∃ a, YieldsE next i a ∧ l = a ++ (s.rest.zipIdx j).flatMap fun p => spec p.1 p.2

theorem ctxPull_nil (mk : N → List Nat → S) (adv : S → Except Panic S) (get : S → Option O)
    (spec : N → Nat → List O) (index : Nat) :
    ∃ s', ctxPull mk (streamNextE adv get) index [] = .ok s' ∧ ctxGet get s' = none ∧
      CtxRel mk (streamNextE adv get) spec s' [] :=
  ⟨_, rfl, rfl, .inl ⟨rfl, rfl⟩⟩

theorem streamNextE_ok {adv : S → Except Panic S} {get : S → Option O} {s s' : S} {o : Option O}
    (h : streamNextE adv get s = .ok (o, s')) : o = get s' := by
  rw [streamNextE] at h
  split at h
  · simp at h
  · simp only [Except.ok.injEq, Prod.mk.injEq] at h
    rw [← h.1, ← h.2]

theorem ctxPull_spec (mk : N → List Nat → S) (adv : S → Except Panic S) (get : S → Option O)
    (spec : N → Nat → List O) (ns : List N) (index j : Nat) (hj : ns.length + j ≤ 2 ^ 64) (hi : wrapSucc index = j)
    (h : ∀ n ∈ ns, ∀ i, YieldsE (streamNextE adv get) (mk n [i]) (spec n i)) (l : List O)
    (hl : l = (ns.zipIdx j).flatMap fun p => spec p.1 p.2) :
    ∃ s', ctxPull mk (streamNextE adv get) index ns = .ok s' ∧ ctxGet get s' = l.head? ∧
      CtxRel mk (streamNextE adv get) spec s' l.tail := by
  induction ns generalizing index j with
  | nil =>
    subst hl
    exact ctxPull_nil mk adv get spec index
  | cons n ns ih =>
    rw [ctxPull, hi]
    obtain ⟨s', e1, e2⟩ := (h n (by simp) j).step
    have hj' : ns ≠ [] → wrapSucc j = j + 1 := by
      intro hne
      have := List.length_pos_iff.2 hne
      rw [List.length_cons] at hj
      rw [wrapSucc, Nat.mod_eq_of_lt]
      omega
    rw [List.zipIdx_cons, List.flatMap_cons] at hl
    cases hs : spec n j with
    | nil =>
      rw [hs] at e1 hl
      simp only [e1, List.head?_nil]
      rcases ns with _ | ⟨m, ms⟩
      · simp only [List.zipIdx_nil, List.flatMap_nil, List.append_nil] at hl
        subst hl
        exact ctxPull_nil mk adv get spec j
      · exact ih j (j + 1) (by simp at hj ⊢; omega) (hj' (by simp)) (fun n hn => h n (by simp [hn]))
          (by simpa using hl)
    | cons a as =>
      rw [hs] at e1 e2 hl
      simp only [e1, List.head?_cons]
      refine ⟨_, rfl, ?_, ?_⟩
      · have := streamNextE_ok e1
        simp [ctxGet, ← this, hl]
      · rcases ns with _ | ⟨m, ms⟩
        · simp only [List.zipIdx_nil, List.flatMap_nil, List.append_nil] at hl
          subst hl
          exact .inl ⟨rfl, e2⟩
        · refine .inr ⟨j + 1, by simp at hj ⊢; omega, hj' (by simp), fun n hn => h n (List.mem_cons_of_mem _ hn), ?_⟩
          exact ⟨as, e2, by simp [hl]⟩

theorem ctxNext_spec (mk : N → List Nat → S) (adv : S → Except Panic S) (get : S → Option O)
    (spec : N → Nat → List O) (s : CtxState N S) (l : List O) (h : CtxRel mk (streamNextE adv get) spec s l) :
    ∃ s', ctxNext mk adv get s = .ok (l.head?, s') ∧ CtxRel mk (streamNextE adv get) spec s' l.tail := by
  suffices h : ∃ s', ctxAdvance mk (streamNextE adv get) s = .ok s' ∧ ctxGet get s' = l.head? ∧
      CtxRel mk (streamNextE adv get) spec s' l.tail by
    obtain ⟨s', h1, h2, h3⟩ := h
    exact ⟨s', by simp [ctxNext, streamNextE, h1, h2], h3⟩
  obtain ⟨rest, index, inner⟩ := s
  rcases h with ⟨h1, h2⟩ | ⟨j, h1, h2, h3, h4⟩
  · obtain rfl : rest = [] := h1
    rcases inner with _ | i
    · obtain rfl : l = [] := h2
      exact ctxPull_nil mk adv get spec index
    · obtain ⟨s', e1, e2⟩ := YieldsE.step (s := i) h2
      rw [ctxAdvance]
      cases l with
      | nil =>
        simp only [e1, List.head?_nil]
        exact ctxPull_nil mk adv get spec index
      | cons a l =>
        simp only [e1, List.head?_cons]
        refine ⟨_, rfl, ?_, .inl ⟨rfl, e2⟩⟩
        have := streamNextE_ok e1
        simp [ctxGet, ← this]
  · rcases inner with _ | i
    · exact ctxPull_spec mk adv get spec rest index j h1 h2 h3 l h4
    · obtain ⟨a, e3, e4⟩ : ∃ a, YieldsE (streamNextE adv get) i a ∧
        l = a ++ (rest.zipIdx j).flatMap fun p => spec p.1 p.2 := h4
      obtain ⟨s', e1, e2⟩ := e3.step
      rw [ctxAdvance]
      cases a with
      | nil =>
        simp only [e1, List.head?_nil]
        exact ctxPull_spec mk adv get spec rest index j h1 h2 h3 l (by simpa using e4)
      | cons a as =>
        simp only [e1, List.head?_cons]
        refine ⟨_, rfl, ?_, .inr ⟨j, h1, h2, h3, as, e2, by simp [e4]⟩⟩
        have := streamNextE_ok e1
        simp [ctxGet, ← this, e4]

/-- A collection context iterator hands out what its single-tree iterators hand out when started with the path
consisting of the tree's index. -/
theorem ctxCalls (mk : N → List Nat → S) (adv : S → Except Panic S) (get : S → Option O)
    (spec : N → Nat → List O) (ns : List N) (hlen : ns.length ≤ 2 ^ 64)
    (h : ∀ n ∈ ns, ∀ i k, nthCallE (streamNextE adv get) k (mk n [i]) = .ok (spec n i)[k]?) (k : Nat) :
    nthCallE (ctxNext mk adv get) k ⟨ns, usizeMax, none⟩ =
      .ok (ns.zipIdx.flatMap fun p => spec p.1 p.2)[k]? :=
  (nthCallE_rel (CtxRel mk (streamNextE adv get) spec) (ctxNext_spec mk adv get spec)
    (.inr ⟨0, by simpa using hlen, Preorder.wrapSucc_usizeMax, h, rfl⟩) k).1

end Coll

/-! ## Placing a tree below an index -/

/-- The same position with the path prefixed by `i`. -/
def Pos.under {α : Type u} (i : Nat) (p : Pos α) : Pos α := { p with path := i :: p.path }

theorem withPosL_cons {α : Type u} (i : Nat) (cs : List (Tree α))
    (ih : ∀ c ∈ cs, ∀ (path : List Nat) (anc : List α), c.withPos (i :: path) anc = (c.withPos path anc).map (Pos.under i))
    (path : List Nat) (anc : List α) (j : Nat) :
    Tree.withPosL (i :: path) anc j cs = (Tree.withPosL path anc j cs).map (Tree.map (Pos.under i)) := by
  induction cs generalizing j with
  | nil => rfl
  | cons c cs ih' =>
    rw [Tree.withPosL, Tree.withPosL, List.map_cons, List.cons_append, ih c (by simp),
      ih' fun c hc => ih c (by simp [hc])]

theorem Tree.withPos_cons {α : Type u} (i : Nat) (t : Tree α) (path : List Nat) (anc : List α) :
    t.withPos (i :: path) anc = (t.withPos path anc).map (Pos.under i) := by
  induction t using Tree.ind generalizing path anc with
  | h n cs ih => rw [Tree.withPos, Tree.withPos, Tree.map_node, withPosL_cons i cs ih, Pos.under]

theorem BinTree.withPos_cons {α : Type u} (i : Nat) (t : BinTree α) (path : List Nat) (anc : List α) :
    t.withPos (i :: path) anc = (t.withPos path anc).map (Pos.under i) := by
  induction t using BinTree.ind generalizing path anc with
  | h n l r ihl ihr =>
    rw [BinTree.withPos, BinTree.withPos, BinTree.map]
    cases l <;> cases r <;> simp_all [BinTree.withPosO, BinTree.mapO, Pos.under]

end TreeIter
