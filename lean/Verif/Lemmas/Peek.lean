import Verif.Spec.Peek
import Verif.Lemmas.Poll
import Verif.Lemmas.BfsCtx

/-! # The loops over polled iterators follow the loops over finite pieces of the tree, as far as these go -/

universe u v w u' v' w' w2

namespace TreeIter

variable {N : Type u} {V : Type v} {I : Type w}

namespace Peek

section
variable [PollNode N V I]

theorem val_eq (p : Peek N) : val p = (splitI p.node).1 := rfl

theorem kids_eq (p : Peek N) : kids p = peekI p.steps (splitI p.node).2 := rfl

/-- The list tells at least the next `j` answers of the iterator. -/
def It (j : Nat) (i : I) (l : List (Peek N)) : Prop := ∃ m, j ≤ m ∧ l = peekI m i

theorem It.mono {j k : Nat} {i : I} {l : List (Peek N)} (h : It j i l) (hk : k ≤ j) : It k i l := by
  obtain ⟨m, h1, h2⟩ := h
  exact ⟨m, by omega, h2⟩

theorem It.poll {j : Nat} {i : I} {l : List (Peek N)} (h : It (j + 1) i l) :
    ((poll (N := N) i).1 = none ∧ l = []) ∨
      ∃ n p l', (poll (N := N) i).1 = some n ∧ l = p :: l' ∧ p.node = n ∧ j ≤ p.steps ∧
        It j (poll (N := N) i).2 l' := by
  obtain ⟨m, h1, rfl⟩ := h
  obtain ⟨m, rfl⟩ : ∃ i, m = i + 1 := ⟨m - 1, by omega⟩
  rw [peekI]
  rcases hp : TreeIter.poll (N := N) i with ⟨_ | n, i'⟩
  · exact .inl ⟨rfl, rfl⟩
  · exact .inr ⟨n, ⟨m, n⟩, peekI m i', rfl, rfl, rfl, Nat.le_of_succ_le_succ h1, m, by omega, rfl⟩

theorem it_kids {j : Nat} (p : Peek N) (h : j ≤ p.steps) : It j (splitI p.node).2 (kids p) := ⟨p.steps, h, rfl⟩

/-- Lists of iterators. -/
abbrev Its (j : Nat) (st : List I) (st' : List (List (Peek N))) : Prop := List.Forall₂ (It (N := N) j) st st'

theorem Its.mono {j k : Nat} {st : List I} {st' : List (List (Peek N))} (h : Its j st st') (hk : k ≤ j) :
    Its k st st' := List.Forall₂.imp (fun _ _ h => h.mono hk) h

/-- The root, if it has not been taken. -/
def Root (j : Nat) (o : Option N) (o' : Option (Peek N)) : Prop :=
  (o = none ∧ o' = none) ∨ ∃ p : Peek N, o = some p.node ∧ o' = some p ∧ j ≤ p.steps

end

section Sim
variable {S : Type u} {T : Type v} {O : Type w} {P : Type u'}

/-- The relation loses one step with every call. -/
theorem nthCall_peek {f : S → Option O × S} {g : T → Option O × T} (R : Nat → S → T → Prop)
    (h : ∀ j s t, R (j + 1) s t → (f s).1 = (g t).1 ∧ R j (f s).2 (g t).2) (k : Nat) :
    ∀ {s t}, R (k + 1) s t → nthCall f k s = nthCall g k t := by
  induction k with
  | zero => exact fun hr => (h _ _ _ hr).1
  | succ k ih => exact fun hr => ih (h _ _ _ hr).2

theorem stateAfterE_peek {f : S → Except Panic (Option O × S)} {g : T → Except Panic (Option P × T)}
    (R : Nat → S → T → Prop) (Q : Nat → Option O → Option P → Prop)
    (h : ∀ j s t o t', R (j + 1) s t → g t = .ok (o, t') → ∃ o1 s', Q j o1 o ∧ R j s' t' ∧ f s = .ok (o1, s'))
    (k j : Nat) : ∀ {s t t'}, R (j + k) s t → stateAfterE g k t = .ok t' → ∃ s', R j s' t' ∧ stateAfterE f k s = .ok s' := by
  induction k with
  | zero =>
    intro s t t' hr ht
    cases ht
    exact ⟨s, hr, rfl⟩
  | succ k ih =>
    intro s t t' hr ht
    rw [stateAfterE] at ht
    split at ht
    · cases ht
    · next o t1 hg =>
      obtain ⟨o1, s1, -, hr1, hf⟩ := h (j + k) _ _ _ _ hr hg
      obtain ⟨s2, hr2, hs2⟩ := ih hr1 ht
      exact ⟨s2, hr2, by rw [stateAfterE, hf]; exact hs2⟩

theorem nthCallE_peek {f : S → Except Panic (Option O × S)} {g : T → Except Panic (Option P × T)}
    (R : Nat → S → T → Prop) (Q : Nat → Option O → Option P → Prop)
    (h : ∀ j s t o t', R (j + 1) s t → g t = .ok (o, t') → ∃ o1 s', Q j o1 o ∧ R j s' t' ∧ f s = .ok (o1, s'))
    (k j : Nat) {s : S} {t : T} {o : Option P} (hr : R (j + 1 + k) s t) (ho : nthCallE g k t = .ok o) :
    ∃ o1, Q j o1 o ∧ nthCallE f k s = .ok o1 := by
  rw [nthCallE] at ho
  split at ho
  · cases ho
  · next t' ht =>
    split at ho
    · cases ho
    · next o' t'' hg =>
      cases ho
      obtain ⟨s1, hr1, h1⟩ := stateAfterE_peek R Q h k (j + 1) hr ht
      obtain ⟨o1, s2, hq, -, h2⟩ := h _ _ _ _ _ hr1 hg
      refine ⟨o1, hq, ?_⟩
      rw [nthCallE, h1]
      simp only [h2]

end Sim

section Loops
variable [PollNode N V I]

open Poll

/-! ## Preorder -/

theorem preLoop_peek (j : Nat) (st : List I) (st' : List (List (Peek N))) (h : Its (j + 1) st st') :
    Root j (preLoop (N := N) st).1 (Preorder.loop st').1 ∧ Its j (preLoop (N := N) st).2 (Preorder.loop st').2 := by
  induction h with
  | nil => exact ⟨.inl ⟨rfl, rfl⟩, .nil⟩
  | @cons i l st st' hi hs ih =>
    rcases hi.poll with ⟨h1, rfl⟩ | ⟨n, p, l', h1, rfl, h2, h3, h4⟩
    · rcases hp : poll (N := N) i with ⟨o, i'⟩
      rw [hp] at h1
      cases h1
      simpa only [preLoop, hp, Preorder.loop] using ih
    · rcases hp : poll (N := N) i with ⟨o, i'⟩
      rw [hp] at h1 h4
      cases h1
      simp only [preLoop, hp, Preorder.loop]
      exact ⟨.inr ⟨p, by rw [h2], rfl, h3⟩, .cons h4 (Its.mono hs (by omega))⟩

/-- The states of the two preorder iterators. -/
def PreR (j : Nat) (s : Pre N I) (t : Preorder.State (Peek N)) : Prop := Root j s.root t.root ∧ Its j s.stack t.stack

theorem preNext_peek (j : Nat) (s : Pre N I) (t : Preorder.State (Peek N)) (h : PreR (j + 1) s t) :
    (preNext s).1 = (Preorder.next t).1 ∧ PreR j (preNext s).2 (Preorder.next t).2 := by
  obtain ⟨root, st⟩ := s
  obtain ⟨root', st'⟩ := t
  obtain ⟨⟨h1, h2⟩ | ⟨p, h1, h2, h3⟩, h⟩ := h <;> (simp only at h1 h2; subst h1 h2)
  · obtain ⟨h1, h2⟩ := preLoop_peek j st st' h
    simp only [preNext, Preorder.next]
    rcases hp : preLoop (N := N) st with ⟨o, s2⟩
    rcases hl : Preorder.loop st' with ⟨o', s2'⟩
    rw [hp, hl] at h1 h2
    obtain ⟨rfl, rfl⟩ | ⟨p, rfl, rfl, h3⟩ := h1
    · exact ⟨rfl, .inl ⟨rfl, rfl⟩, h2⟩
    · exact ⟨rfl, .inl ⟨rfl, rfl⟩, .cons (it_kids p h3) h2⟩
  · exact ⟨rfl, .inl ⟨rfl, rfl⟩, .cons (it_kids p (by omega)) (Its.mono h (by omega))⟩

theorem preAncLoop_peek (j : Nat) (st : List I) (st' : List (List (Peek N))) (h : Its (j + 1) st st') (it : List V) :
    Root j (preAncLoop (N := N) st it).1 (Preorder.ancLoop st' it).1 ∧
      Its j (preAncLoop (N := N) st it).2.1 (Preorder.ancLoop st' it).2.1 ∧
      (preAncLoop (N := N) st it).2.2 = (Preorder.ancLoop st' it).2.2 := by
  induction h generalizing it with
  | nil => exact ⟨.inl ⟨rfl, rfl⟩, .nil, rfl⟩
  | @cons i l st st' hi hs ih =>
    rcases hi.poll with ⟨h1, rfl⟩ | ⟨n, p, l', h1, rfl, h2, h3, h4⟩
    · rcases hp : poll (N := N) i with ⟨o, i'⟩
      rw [hp] at h1
      cases h1
      simpa only [preAncLoop, hp, Preorder.ancLoop] using ih _
    · rcases hp : poll (N := N) i with ⟨o, i'⟩
      rw [hp] at h1 h4
      cases h1
      simp only [preAncLoop, hp, Preorder.ancLoop]
      exact ⟨.inr ⟨p, by rw [h2], rfl, h3⟩, .cons h4 (Its.mono hs (by omega)), trivial⟩

/-- The states of the two preorder iterators with ancestors. -/
def PreAncR (j : Nat) (s : PreAnc N V I) (t : Preorder.AncState (Peek N) V) : Prop :=
  Root j s.root t.root ∧ Its j s.stack t.stack ∧ s.items = t.items

theorem preAncNext_peek (j : Nat) (s : PreAnc N V I) (t : Preorder.AncState (Peek N) V) (h : PreAncR (j + 1) s t) :
    (preAncNext s).1 = (Preorder.ancNext t).1 ∧ PreAncR j (preAncNext s).2 (Preorder.ancNext t).2 := by
  suffices h' : PreAncR j (preAncAdvance s) (Preorder.ancAdvance t) by
    refine ⟨?_, h'⟩
    simp only [preAncNext, Preorder.ancNext, streamNext, preAncGet, Preorder.ancGet, h'.2.2]
  obtain ⟨root, st, items⟩ := s
  obtain ⟨root', st', items'⟩ := t
  obtain ⟨⟨h1, h2⟩ | ⟨p, h1, h2, h3⟩, h, rfl⟩ := h <;> (simp only at h1 h2; subst h1 h2)
  · obtain ⟨h1, h2, h3⟩ := preAncLoop_peek j st st' h items
    simp only [preAncAdvance, Preorder.ancAdvance]
    rcases hp : preAncLoop (N := N) st items with ⟨o, s2, it2⟩
    rcases hl : Preorder.ancLoop st' items with ⟨o', s2', it2'⟩
    simp only [hp, hl] at h1 h2 h3
    subst h3
    obtain ⟨rfl, rfl⟩ | ⟨p, rfl, rfl, h3⟩ := h1
    · exact ⟨.inl ⟨rfl, rfl⟩, h2, rfl⟩
    · exact ⟨.inl ⟨rfl, rfl⟩, .cons (it_kids p h3) h2, rfl⟩
  · exact ⟨.inl ⟨rfl, rfl⟩, .cons (it_kids p (by omega)) (Its.mono h (by omega)), rfl⟩

/-! ## Contexts -/

/-- The children in a context, if there are any. -/
def Kids (j : Nat) (o : Option I) (o' : Option (List (Peek N))) : Prop :=
  (o = none ∧ o' = none) ∨ ∃ i l, o = some i ∧ o' = some l ∧ It j i l

/-- A context: path and ancestors are the same, and the list in `o'` tells at least the first `j` children in `o`. -/
def CtxR (j : Nat) (o : Option (Ctx V I)) (o' : Option (Ctx V (List (Peek N)))) : Prop :=
  (o = none ∧ o' = none) ∨
    ∃ c c', o = some c ∧ o' = some c' ∧ c.path = c'.path ∧ c.ancestors = c'.ancestors ∧ Kids j c.children c'.children

theorem preCtxLoop_peek (j : Nat) (st : List I) (st' : List (List (Peek N))) (h : Its (j + 1) st st') (path : List Nat)
    (anc : List V) : ∀ o' st2' path2 anc2, Preorder.ctxLoop st' path anc = .ok (o', st2', path2, anc2) →
      ∃ o st2, Root j o o' ∧ Its j st2 st2' ∧ preCtxLoop (N := N) st path anc = .ok (o, st2, path2, anc2) := by
  induction h generalizing path anc with
  | nil =>
    intro o' st2' path2 anc2 h
    simp only [Preorder.ctxLoop, Except.ok.injEq, Prod.mk.injEq] at h
    obtain ⟨rfl, rfl, rfl, rfl⟩ := h
    exact ⟨none, [], .inl ⟨rfl, rfl⟩, .nil, rfl⟩
  | @cons i l st st' hi hs ih =>
    intro o' st2' path2 anc2 h
    rcases hi.poll with ⟨h1, rfl⟩ | ⟨n, p, l', h1, rfl, h2, h3, h4⟩
    · rcases hp : poll (N := N) i with ⟨o, i'⟩
      rw [hp] at h1
      cases h1
      simp only [Preorder.ctxLoop] at h
      obtain ⟨o, st2, i1, i2, i3⟩ := ih _ _ _ _ _ _ h
      exact ⟨o, st2, i1, i2, by simp only [preCtxLoop, hp, i3]⟩
    · rcases hp : poll (N := N) i with ⟨o, i'⟩
      rw [hp] at h1 h4
      cases h1
      cases path with
      | nil => simp [Preorder.ctxLoop] at h
      | cons q path =>
        simp only [Preorder.ctxLoop, Except.ok.injEq, Prod.mk.injEq] at h
        obtain ⟨rfl, rfl, rfl, rfl⟩ := h
        exact ⟨some n, i' :: st, .inr ⟨p, by rw [h2], rfl, h3⟩, .cons h4 (Its.mono hs (by omega)), by
          simp only [preCtxLoop, hp]⟩

/-- The states of the two preorder iterators with context. -/
def PreCtxR (j : Nat) (s : PreCtx N V I) (t : Preorder.CtxState (Peek N) V) : Prop :=
  Root j s.root t.root ∧ Its j s.stack t.stack ∧ s.path = t.path ∧ s.ancestors = t.ancestors ∧
    Kids j s.children t.children

theorem streamE_peek {S : Type u'} {T : Type v'} {O : Type w'} {P : Type w2} {adv : S → Except Panic S} {get : S → Option O}
    {adv' : T → Except Panic T} {get' : T → Option P} (R : Nat → S → T → Prop) (Q : Nat → Option O → Option P → Prop)
    (hq : ∀ j s t, R j s t → Q j (get s) (get' t))
    (h : ∀ j s t t', R (j + 1) s t → adv' t = .ok t' → ∃ s', R j s' t' ∧ adv s = .ok s')
    (j : Nat) (s : S) (t : T) (o : Option P) (t' : T) (hr : R (j + 1) s t) (hn : streamNextE adv' get' t = .ok (o, t')) :
    ∃ o1 s', Q j o1 o ∧ R j s' t' ∧ streamNextE adv get s = .ok (o1, s') := by
  rw [streamNextE] at hn
  split at hn
  · cases hn
  · next ha =>
    cases hn
    obtain ⟨s', h1, h2⟩ := h j s t t' hr ha
    exact ⟨get s', s', hq _ _ _ h1, h1, by simp only [streamNextE, h2]⟩

theorem kids_none (j : Nat) : Kids (N := N) j (none : Option I) none := .inl ⟨rfl, rfl⟩

theorem kids_some {j : Nat} {i : I} {l : List (Peek N)} (h : It j i l) : Kids j (some i) (some l) :=
  .inr ⟨i, l, rfl, rfl, h⟩

theorem Kids.mono {j k : Nat} {o : Option I} {o' : Option (List (Peek N))} (h : Kids j o o') (hk : k ≤ j) :
    Kids k o o' := by
  obtain ⟨h1, h2⟩ | ⟨i, l, h1, h2, h3⟩ := h
  · exact .inl ⟨h1, h2⟩
  · exact .inr ⟨i, l, h1, h2, h3.mono hk⟩

theorem preCtxAdvance_peek (j : Nat) (s : PreCtx N V I) (t t' : Preorder.CtxState (Peek N) V) (h : PreCtxR (j + 1) s t)
    (ha : Preorder.ctxAdvance t = .ok t') : ∃ s', PreCtxR j s' t' ∧ preCtxAdvance s = .ok s' := by
  obtain ⟨root, st, path, anc, ch⟩ := s
  obtain ⟨root', st', path', anc', ch'⟩ := t
  obtain ⟨hroot, h, rfl, rfl, hc⟩ := h
  dsimp only at hroot h hc
  obtain ⟨rfl, rfl⟩ | ⟨p, rfl, rfl, hp⟩ := hroot
  · have fin : ∀ (st : List I) (st' : List (List (Peek N))) (path : List Nat) (anc : List V), Its (j + 1) st st' →
        ∀ r, Preorder.ctxLoop st' path anc = .ok r → Preorder.ctxFinish r = t' →
        ∃ s', PreCtxR j s' t' ∧ (match preCtxLoop (N := N) st path anc with
          | .error e => .error e
          | .ok (some n, st, path, anc) => .ok ⟨none, st, path, (splitI n).1 :: anc, some (splitI n).2⟩
          | .ok (none, st, path, _) => .ok ⟨none, st, path, [], none⟩) = (.ok s' : Except Panic (PreCtx N V I)) := by
      rintro st st' path anc h ⟨o, st2, path2, anc2⟩ hr rfl
      obtain ⟨o1, st3, h1, h2, h3⟩ := preCtxLoop_peek j _ _ h path anc _ _ _ _ hr
      rw [h3]
      obtain ⟨rfl, rfl⟩ | ⟨p, rfl, rfl, hp⟩ := h1
      · exact ⟨_, ⟨.inl ⟨rfl, rfl⟩, h2, rfl, rfl, kids_none j⟩, rfl⟩
      · exact ⟨_, ⟨.inl ⟨rfl, rfl⟩, h2, rfl, rfl, kids_some (it_kids p hp)⟩, rfl⟩
    simp only [Preorder.ctxAdvance] at ha
    simp only [preCtxAdvance]
    split at ha
    · next he =>
      cases ha
      simp only [he, if_true]
      exact ⟨_, ⟨.inl ⟨rfl, rfl⟩, Its.mono h (by omega), rfl, rfl, hc.mono (by omega)⟩, rfl⟩
    · next he =>
      simp only [he]
      obtain ⟨rfl, rfl⟩ | ⟨i, l, rfl, rfl, hi⟩ := hc
      · dsimp only at ha
        split at ha
        · cases ha
        · next r hr => exact fin st st' _ _ h r hr (Except.ok.inj ha)
      · dsimp only at ha
        split at ha
        · cases ha
        · next r hr => exact fin (i :: st) (l :: st') _ _ (.cons hi h) r hr (Except.ok.inj ha)
  · cases ha
    exact ⟨_, ⟨.inl ⟨rfl, rfl⟩, Its.mono h (by omega), rfl, rfl, kids_some (it_kids p (by omega))⟩, rfl⟩

theorem preCtxNext_peek (j : Nat) (s : PreCtx N V I) (t : Preorder.CtxState (Peek N) V)
    (o : Option (Ctx V (List (Peek N)))) (t' : Preorder.CtxState (Peek N) V) (h : PreCtxR (j + 1) s t)
    (hn : Preorder.ctxNext t = .ok (o, t')) :
    ∃ o1 s', CtxR j o1 o ∧ PreCtxR j s' t' ∧ preCtxNext s = .ok (o1, s') := by
  refine streamE_peek PreCtxR CtxR ?_ preCtxAdvance_peek j s t o t' h hn
  rintro j s t ⟨-, -, e1, e2, e3⟩
  simp only [preCtxGet, Preorder.ctxGet, e1, e2]
  by_cases he : t.ancestors.isEmpty = true
  · simp only [he, if_true]
    exact .inl ⟨rfl, rfl⟩
  · simp only [he]
    exact .inr ⟨_, _, rfl, rfl, rfl, rfl, e3⟩

/-! ## Breadth first -/

theorem bfsLoop_peek (j : Nat) (st : List I) (st' : List (List (Peek N))) (h : Its (j + 1) st st') :
    (bfsLoop (N := N) st).1 = (Bfs.loop st').1 ∧ (bfsLoop (N := N) st).2.root = none ∧ (Bfs.loop st').2.root = none ∧
      Its j (bfsLoop (N := N) st).2.stack (Bfs.loop st').2.queue := by
  induction h with
  | nil => exact ⟨rfl, rfl, rfl, .nil⟩
  | @cons i l st st' hi hs ih =>
    rcases hi.poll with ⟨h1, rfl⟩ | ⟨n, p, l', h1, rfl, h2, h3, h4⟩
    · rcases hp : poll (N := N) i with ⟨o, i'⟩
      rw [hp] at h1
      cases h1
      simpa only [bfsLoop, hp, Bfs.loop] using ih
    · rcases hp : poll (N := N) i with ⟨o, i'⟩
      rw [hp] at h1 h4
      cases h1
      subst h2
      simp only [bfsLoop, hp, Bfs.loop]
      exact ⟨rfl, trivial, trivial, List.rel_append (.cons h4 (Its.mono hs (by omega))) (.cons (it_kids p h3) .nil)⟩

/-- The states of the two breadth-first iterators. -/
def BfsR (j : Nat) (s : Pre N I) (t : Bfs.State (Peek N)) : Prop := Root j s.root t.root ∧ Its j s.stack t.queue

theorem bfsNext_peek (j : Nat) (s : Pre N I) (t : Bfs.State (Peek N)) (h : BfsR (j + 1) s t) :
    (bfsNext s).1 = (Bfs.next t).1 ∧ BfsR j (bfsNext s).2 (Bfs.next t).2 := by
  obtain ⟨root, st⟩ := s
  obtain ⟨root', st'⟩ := t
  obtain ⟨⟨h1, h2⟩ | ⟨p, h1, h2, h3⟩, h⟩ := h <;> (simp only at h1 h2; subst h1 h2)
  · obtain ⟨h1, h2, h3, h4⟩ := bfsLoop_peek j st st' h
    exact ⟨h1, .inl ⟨h2, h3⟩, h4⟩
  · exact ⟨rfl, .inl ⟨rfl, rfl⟩, List.rel_append (Its.mono h (by omega)) (.cons (it_kids p (by omega)) .nil)⟩

/-- The states of the two breadth-first iterators with ancestors. -/
def BfsAncR (j : Nat) (s : BfsAnc V I) (t : Bfs.AncState (Peek N) V) : Prop :=
  s.isRoot = t.isRoot ∧ s.cs = t.cs ∧ Its j s.queue t.queue

theorem bfsAncLoop_peek (j : Nat) (st : List I) (st' : List (List (Peek N))) (h : Its (j + 1) st st')
    (cs : Bfs.CacheState V) (t' : Bfs.AncState (Peek N) V) (hl : Bfs.ancLoop st' cs = .ok t') :
    ∃ s', BfsAncR j s' t' ∧ bfsAncLoop (N := N) st cs = .ok s' := by
  induction h generalizing cs with
  | nil =>
    rw [Bfs.ancLoop] at hl
    split at hl <;> simp at hl
  | @cons i l st st' hi hs ih =>
    rw [Bfs.ancLoop] at hl
    rw [bfsAncLoop]
    split at hl
    · cases hl
    · next cs1 hset =>
      simp only [hset]
      rcases hi.poll with ⟨h1, rfl⟩ | ⟨n, p, l', h1, rfl, h2, h3, h4⟩
      · rcases hp : poll (N := N) i with ⟨o, i'⟩
        rw [hp] at h1
        cases h1
        simp only at hl ⊢
        split at hl
        · cases hl
        · next cs2 hret =>
          simp only [hret]
          cases hs with
          | nil =>
            cases hl
            exact ⟨_, ⟨rfl, rfl, .nil⟩, rfl⟩
          | cons hi2 hs2 => exact ih cs2 hl
      · rcases hp : poll (N := N) i with ⟨o, i'⟩
        rw [hp] at h1 h4
        cases h1
        subst h2
        cases hl
        exact ⟨_, ⟨rfl, rfl, List.rel_append (.cons h4 (Its.mono hs (by omega))) (.cons (it_kids p h3) .nil)⟩, rfl⟩

theorem bfsAncNext_peek (j : Nat) (s : BfsAnc V I) (t : Bfs.AncState (Peek N) V) (o : Option (List V))
    (t' : Bfs.AncState (Peek N) V) (h : BfsAncR (j + 1) s t) (hn : Bfs.ancNext t = .ok (o, t')) :
    ∃ o1 s', o1 = o ∧ BfsAncR j s' t' ∧ bfsAncNext N s = .ok (o1, s') := by
  refine streamE_peek BfsAncR (fun _ => Eq) (fun j s t h => by rw [bfsAncGet, Bfs.ancGet, h.2.1]) ?_ j s t o t' h hn
  intro j s t t' h ha
  obtain ⟨ir, cs, q⟩ := s
  obtain ⟨ir', cs', q'⟩ := t
  obtain ⟨rfl, rfl, h⟩ := h
  dsimp only at h
  cases ir with
  | true => cases ha; exact ⟨_, ⟨rfl, rfl, Its.mono h (by omega)⟩, rfl⟩
  | false => exact bfsAncLoop_peek j _ _ h cs t' ha

/-- The states of the two breadth-first iterators with context. -/
def BfsCtxR (j : Nat) (s : BfsCtx V I) (t : Bfs.CtxState V (List (Peek N)) (Peek N)) : Prop :=
  s.isRoot = t.isRoot ∧ s.cc = t.cc ∧ Kids j s.children t.children ∧ Its j s.queue t.queue ∧ s.counter = t.counter

theorem bfsCtxLoop_peek (j : Nat) (st : List I) (st' : List (List (Peek N))) (h : Its (j + 1) st st')
    (cc : Bfs.CtxCache V) (counter : Nat) (t' : Bfs.CtxState V (List (Peek N)) (Peek N))
    (hl : Bfs.ctxLoop st' cc counter = .ok t') :
    ∃ s', BfsCtxR j s' t' ∧ bfsCtxLoop (N := N) st cc counter = .ok s' := by
  induction h generalizing cc counter with
  | nil =>
    rw [Bfs.ctxLoop] at hl
    split at hl <;> simp at hl
  | @cons i l st st' hi hs ih =>
    rw [Bfs.ctxLoop] at hl
    rw [bfsCtxLoop]
    split at hl
    · cases hl
    · next cc1 hset =>
      simp only [hset]
      rcases hi.poll with ⟨h1, rfl⟩ | ⟨n, p, l', h1, rfl, h2, h3, h4⟩
      · rcases hp : poll (N := N) i with ⟨o, i'⟩
        rw [hp] at h1
        cases h1
        simp only at hl ⊢
        split at hl
        · cases hl
        · next cc2 hret =>
          simp only [hret]
          cases hs with
          | nil =>
            cases hl
            exact ⟨_, ⟨rfl, rfl, kids_none j, .nil, rfl⟩, rfl⟩
          | cons hi2 hs2 => exact ih cc2 0 hl
      · rcases hp : poll (N := N) i with ⟨o, i'⟩
        rw [hp] at h1 h4
        cases h1
        subst h2
        simp only at hl ⊢
        split at hl
        · cases hl
        · next c' hc =>
          cases hl
          simp only [hc]
          exact ⟨_, ⟨rfl, rfl, kids_some (it_kids p h3), .cons h4 (Its.mono hs (by omega)), rfl⟩, rfl⟩

theorem bfsCtxNext_peek (j : Nat) (s : BfsCtx V I) (t : Bfs.CtxState V (List (Peek N)) (Peek N))
    (o : Option (Ctx V (List (Peek N)))) (t' : Bfs.CtxState V (List (Peek N)) (Peek N)) (h : BfsCtxR (j + 1) s t)
    (hn : Bfs.ctxNext t = .ok (o, t')) :
    ∃ o1 s', CtxR j o1 o ∧ BfsCtxR j s' t' ∧ bfsCtxNext N s = .ok (o1, s') := by
  refine streamE_peek BfsCtxR CtxR ?_ ?_ j s t o t' h hn
  · rintro j s t ⟨-, e1, e2, -, -⟩
    simp only [bfsCtxGet, Bfs.ctxGet, e1]
    by_cases he : t.cc.ancestors.isEmpty = true
    · simp only [he, if_true]
      exact .inl ⟨rfl, rfl⟩
    · simp only [he]
      exact .inr ⟨_, _, rfl, rfl, rfl, rfl, e2⟩
  · intro j s t t' h ha
    obtain ⟨ir, cc, ch, q, cn⟩ := s
    obtain ⟨ir', cc', ch', q', cn'⟩ := t
    obtain ⟨rfl, rfl, hc, h, rfl⟩ := h
    dsimp only at hc h
    cases ir with
    | true => cases ha; exact ⟨_, ⟨rfl, rfl, hc.mono (by omega), Its.mono h (by omega), rfl⟩, rfl⟩
    | false =>
      simp only [Bfs.ctxAdvance] at ha
      simp only [bfsCtxAdvance]
      by_cases he : cc.ancestors.isEmpty = true
      · simp only [he, if_true] at ha ⊢
        cases ha
        exact ⟨_, ⟨rfl, rfl, hc.mono (by omega), Its.mono h (by omega), rfl⟩, rfl⟩
      · simp only [he] at ha ⊢
        obtain ⟨rfl, rfl⟩ | ⟨i, l, rfl, rfl, hi⟩ := hc
        · cases ha
        · exact bfsCtxLoop_peek j _ _ (List.rel_append h (.cons hi .nil)) cc cn t' ha

/-! ## Contexts and the size of the pieces -/

theorem polls_peekI (j m : Nat) (h : j ≤ m) (i : I) :
    polls (N := N) j i = ((peekI (N := N) m i).take j).map Peek.node := by
  induction j generalizing m i with
  | zero => rfl
  | succ j ih =>
    obtain ⟨m, rfl⟩ : ∃ a, m = a + 1 := ⟨m - 1, by omega⟩
    rw [polls, peekI]
    rcases hp : TreeIter.poll (N := N) i with ⟨_ | n, i'⟩
    · rfl
    · simp only [List.take_succ_cons, List.map_cons, ih m (by omega) i']

theorem CtxR.shows {j : Nat} {o : Option (Ctx V I)} {o' : Option (Ctx V (List (Peek N)))} (h : CtxR j o o')
    (hc : ∀ d, o' = some d → d.children ≠ none) : CtxShows j o o' := by
  obtain ⟨rfl, rfl⟩ | ⟨c, d, rfl, rfl, h1, h2, h3⟩ := h
  · trivial
  · refine ⟨h1, h2, ?_⟩
    obtain ⟨-, h4⟩ | ⟨i, l, h4, h5, m, h6, rfl⟩ := h3
    · exact absurd h4 (hc _ rfl)
    · exact ⟨i, _, h4, h5, polls_peekI j m h6 i⟩

theorem length_peekI (j : Nat) (i : I) : (peekI (N := N) j i).length ≤ j := by
  induction j generalizing i with
  | zero => exact Nat.le_refl 0
  | succ j ih =>
    rw [peekI]
    split
    · exact Nat.succ_le_succ (ih _)
    · exact Nat.zero_le _

theorem length_kids (p : Peek N) : ∀ m ∈ (unfold p).preorder, (kids m).length ≤ p.steps := by
  suffices h : ∀ a, ∀ p : Peek N, p.steps ≤ a → ∀ m ∈ (unfold p).preorder, (kids m).length ≤ p.steps from
    h p.steps p (Nat.le_refl _)
  intro a
  induction a with
  | zero =>
    intro p hp m hm
    have h0 : p.steps = 0 := Nat.le_zero.1 hp
    have hk : kids p = [] := by rw [kids_eq, h0]; rfl
    rw [unfold_eq, hk, Tree.preorder, List.map_nil, Tree.preorderL, List.mem_singleton] at hm
    rw [hm, hk]
    exact Nat.zero_le _
  | succ a ih =>
    intro p hp m hm
    rw [unfold_eq, Tree.preorder, Tree.preorderL_eq] at hm
    rcases List.mem_cons.1 hm with rfl | hm
    · exact length_peekI _ _
    · obtain ⟨t, ht, hm⟩ := List.mem_flatMap.1 hm
      obtain ⟨c, hc, rfl⟩ := List.mem_map.1 ht
      have := peekI_steps p.steps _ c hc
      have := ih c (by omega) m hm
      omega

end Loops

end Peek

end TreeIter
