import Verif.Model.Poll
import Verif.Model.Collection
import Mathlib.Data.List.Forall2

/-!
# The loops over polled iterators follow the loops over lists

An iterator is popped as soon as it has answered `None`, so the stacks and queues hold only iterators that have not, and
the list of what such an iterator has still to yield describes all that will be asked of it.
-/

universe u v w u' v' w'

namespace TreeIter

variable {N : Type u} {V : Type v} {I : Type w}

section Gives
variable [PollNode N V I]

theorem gives_nil {i : I} (h : Gives (N := N) i []) : (poll (N := N) i).1 = none := by
  cases h; assumption

theorem gives_cons {i : I} {n : N} {l : List N} (h : Gives i (n :: l)) :
    (poll i).1 = some n ∧ Gives (poll (N := N) i).2 l := by
  cases h; exact ⟨by assumption, by assumption⟩

/-- The lists describe the iterators, one by one. -/
abbrev GivesL (st : List I) (st' : List (List N)) : Prop := List.Forall₂ (Gives (N := N)) st st'

end Gives

namespace Poll

section Sim
variable {S : Type u} {T : Type v} {O : Type w} {P : Type u'}

/-- If the two iterators answer alike and stay related, all their calls answer alike. -/
theorem nthCall_sim {f : S → Option O × S} {g : T → Option O × T} (R : S → T → Prop)
    (h : ∀ s t, R s t → (f s).1 = (g t).1 ∧ R (f s).2 (g t).2) (k : Nat) :
    ∀ {s t}, R s t → nthCall f k s = nthCall g k t ∧ R (stateAfter f k s) (stateAfter g k t) := by
  induction k with
  | zero => exact fun hr => ⟨(h _ _ hr).1, hr⟩
  | succ k ih => exact fun hr => ih (h _ _ hr).2

/-- The same for calls that may panic and need fuel, with answers related by `Q`. -/
theorem nthCallE_sim {f : Nat → S → Except Panic (Option O × S)} {g : T → Except Panic (Option P × T)}
    (R : S → T → Prop) (Q : Option O → Option P → Prop)
    (h : ∀ s t o t', R s t → g t = .ok (o, t') →
      ∃ m o1 s', Q o1 o ∧ R s' t' ∧ ∀ fuel, m ≤ fuel → f fuel s = .ok (o1, s')) (k : Nat) :
    ∀ {s t t'}, R s t → stateAfterE g k t = .ok t' →
      ∃ m s', R s' t' ∧ ∀ fuel, m ≤ fuel → stateAfterE (f fuel) k s = .ok s' := by
  induction k with
  | zero =>
    intro s t t' hr ht
    cases ht
    exact ⟨0, s, hr, fun _ _ => rfl⟩
  | succ k ih =>
    intro s t t' hr ht
    rw [stateAfterE] at ht
    split at ht
    · cases ht
    · next o t1 hg =>
      obtain ⟨m1, o1, s1, -, hr1, hf⟩ := h _ _ _ _ hr hg
      obtain ⟨m2, s2, hr2, hs2⟩ := ih hr1 ht
      refine ⟨max m1 m2, s2, hr2, fun fuel hm => ?_⟩
      rw [stateAfterE, hf fuel (by omega)]
      exact hs2 fuel (by omega)

theorem nthCallE_sim_ok {f : Nat → S → Except Panic (Option O × S)} {g : T → Except Panic (Option P × T)}
    (R : S → T → Prop) (Q : Option O → Option P → Prop)
    (h : ∀ s t o t', R s t → g t = .ok (o, t') →
      ∃ m o1 s', Q o1 o ∧ R s' t' ∧ ∀ fuel, m ≤ fuel → f fuel s = .ok (o1, s')) (k : Nat)
    {s : S} {t : T} {o : Option P} (hr : R s t) (ho : nthCallE g k t = .ok o) :
    ∃ m o1, Q o1 o ∧ ∀ fuel, m ≤ fuel → nthCallE (f fuel) k s = .ok o1 := by
  rw [nthCallE] at ho
  split at ho
  · cases ho
  · next t' ht =>
    split at ho
    · cases ho
    · next o' t'' hg =>
      cases ho
      obtain ⟨m1, s1, hr1, h1⟩ := nthCallE_sim R Q h k hr ht
      obtain ⟨m2, o1, s2, hq, -, h2⟩ := h _ _ _ _ hr1 hg
      refine ⟨max m1 m2, o1, hq, fun fuel hm => ?_⟩
      rw [nthCallE, h1 fuel (by omega)]
      simp only [h2 fuel (by omega)]

/-- Streaming iterators: it is enough to look at `advance` and `get`. -/
theorem streamE_sim {adv : Nat → S → Except Panic S} {get : S → Option O} {adv' : T → Except Panic T}
    {get' : T → Option P} (R : S → T → Prop) (Q : Option O → Option P → Prop)
    (hq : ∀ s t, R s t → Q (get s) (get' t))
    (h : ∀ s t t', R s t → adv' t = .ok t' → ∃ m s', R s' t' ∧ ∀ fuel, m ≤ fuel → adv fuel s = .ok s')
    (s : S) (t : T) (o : Option P) (t' : T) (hr : R s t) (hn : streamNextE adv' get' t = .ok (o, t')) :
    ∃ m o1 s', Q o1 o ∧ R s' t' ∧ ∀ fuel, m ≤ fuel → streamNextE (adv fuel) get s = .ok (o1, s') := by
  rw [streamNextE] at hn
  split at hn
  · cases hn
  · next ha =>
    cases hn
    obtain ⟨m, s', h1, h2⟩ := h s t t' hr ha
    refine ⟨m, get s', s', hq _ _ h1, h1, fun f hf => ?_⟩
    simp only [streamNextE, h2 f hf]

/-- A total iterator seen as one that may panic. -/
theorem stateAfterE_ok (g : T → Option P × T) (k : Nat) (t : T) :
    stateAfterE (fun t => .ok (g t)) k t = .ok (stateAfter g k t) := by
  induction k generalizing t with
  | zero => rfl
  | succ k ih => exact ih _

theorem nthCallE_ok (g : T → Option P × T) (k : Nat) (t : T) :
    nthCallE (fun t => .ok (g t)) k t = .ok (nthCall g k t) := by
  simp only [nthCallE, stateAfterE_ok]
  rfl

end Sim

section Loops
variable [PollTree N V I]

open PollTree

/-! ### Preorder -/

theorem preLoop_sim {st : List I} {st' : List (List N)} (h : GivesL st st') :
    (preLoop (N := N) st).1 = (Preorder.loop st').1 ∧ GivesL (preLoop (N := N) st).2 (Preorder.loop st').2 := by
  induction h with
  | nil => exact ⟨rfl, .nil⟩
  | @cons i l st st' hi hs ih =>
    cases l with
    | nil =>
      have := gives_nil hi
      rcases hp : poll (N := N) i with ⟨o, i'⟩
      rw [hp] at this
      cases this
      simpa only [preLoop, hp, Preorder.loop] using ih
    | cons n l =>
      obtain ⟨h1, h2⟩ := gives_cons hi
      rcases hp : poll (N := N) i with ⟨o, i'⟩
      rw [hp] at h1 h2
      cases h1
      simp only [preLoop, hp, Preorder.loop]
      exact ⟨trivial, .cons h2 hs⟩

/-- The states of the two preorder iterators describe each other. -/
def PreRel (s : Pre N I) (t : Preorder.State N) : Prop := s.root = t.root ∧ GivesL s.stack t.stack

theorem preNext_sim (s : Pre N I) (t : Preorder.State N) (h : PreRel s t) :
    (preNext s).1 = (Preorder.next t).1 ∧ PreRel (preNext s).2 (Preorder.next t).2 := by
  obtain ⟨root, st⟩ := s
  obtain ⟨root', st'⟩ := t
  obtain ⟨rfl, h⟩ := h
  cases root with
  | some r => exact ⟨congrArg some (splitI_value r), rfl, .cons (splitI_gives r) h⟩
  | none =>
    obtain ⟨h1, h2⟩ := preLoop_sim h
    simp only [preNext, Preorder.next]
    rcases hp : preLoop (N := N) st with ⟨o, s2⟩
    rcases hl : Preorder.loop st' with ⟨o', s2'⟩
    rw [hp, hl] at h1 h2
    cases h1
    cases o with
    | none => exact ⟨rfl, rfl, h2⟩
    | some n => exact ⟨congrArg some (splitI_value n), rfl, .cons (splitI_gives n) h2⟩

theorem preAncLoop_sim {st : List I} {st' : List (List N)} (h : GivesL st st') (it : List V) :
    (preAncLoop (N := N) st it).1 = (Preorder.ancLoop st' it).1 ∧
      GivesL (preAncLoop (N := N) st it).2.1 (Preorder.ancLoop st' it).2.1 ∧
      (preAncLoop (N := N) st it).2.2 = (Preorder.ancLoop st' it).2.2 := by
  induction h generalizing it with
  | nil => exact ⟨rfl, .nil, rfl⟩
  | @cons i l st st' hi hs ih =>
    cases l with
    | nil =>
      have := gives_nil hi
      rcases hp : poll (N := N) i with ⟨o, i'⟩
      rw [hp] at this
      cases this
      simpa only [preAncLoop, hp, Preorder.ancLoop] using ih _
    | cons n l =>
      obtain ⟨h1, h2⟩ := gives_cons hi
      rcases hp : poll (N := N) i with ⟨o, i'⟩
      rw [hp] at h1 h2
      cases h1
      simp only [preAncLoop, hp, Preorder.ancLoop]
      exact ⟨trivial, .cons h2 hs, trivial⟩

/-- The states of the two preorder iterators with ancestors describe each other. -/
def PreAncRel (s : PreAnc N V I) (t : Preorder.AncState N V) : Prop :=
  s.root = t.root ∧ GivesL s.stack t.stack ∧ s.items = t.items

theorem preAncAdvance_sim (s : PreAnc N V I) (t : Preorder.AncState N V) (h : PreAncRel s t) :
    PreAncRel (preAncAdvance s) (Preorder.ancAdvance t) := by
  obtain ⟨root, st, items⟩ := s
  obtain ⟨root', st', items'⟩ := t
  obtain ⟨rfl, h, rfl⟩ := h
  cases root with
  | some r => exact ⟨rfl, .cons (splitI_gives r) h, congrArg (· :: _) (splitI_value r)⟩
  | none =>
    obtain ⟨h1, h2, h3⟩ := preAncLoop_sim h items
    simp only [preAncAdvance, Preorder.ancAdvance] at h1 h2 h3 ⊢
    rcases hp : preAncLoop (N := N) st items with ⟨o, s2, it2⟩
    rcases hl : Preorder.ancLoop st' items with ⟨o', s2', it2'⟩
    simp only [hp, hl] at h1 h2 h3
    subst h1 h3
    cases o with
    | none => exact ⟨rfl, h2, rfl⟩
    | some n => exact ⟨rfl, .cons (splitI_gives n) h2, congrArg (· :: _) (splitI_value n)⟩

theorem preAncNext_sim (s : PreAnc N V I) (t : Preorder.AncState N V) (h : PreAncRel s t) :
    (preAncNext s).1 = (Preorder.ancNext t).1 ∧ PreAncRel (preAncNext s).2 (Preorder.ancNext t).2 := by
  have h1 := preAncAdvance_sim s t h
  refine ⟨?_, h1⟩
  simp only [preAncNext, Preorder.ancNext, streamNext, preAncGet, Preorder.ancGet, h1.2.2]

/-! ### Postorder -/

theorem postLoop_sim (st' : List (List N)) (items : List V) : ∀ {st : List I}, GivesL st st' →
    ∃ m st2, GivesL st2 (Postorder.loop st' items).2.2 ∧ ∀ f, m ≤ f →
      postLoop (N := N) f st items = .ok ((Postorder.loop st' items).1, (Postorder.loop st' items).2.1, st2) := by
  fun_induction Postorder.loop st' items with
  | case1 items =>
    intro st h
    cases h
    refine ⟨1, [], .nil, fun f hf => ?_⟩
    obtain ⟨f, rfl⟩ := Nat.exists_eq_add_of_le' hf
    rfl
  | case2 rest items =>
    intro st h
    cases h with
    | cons hi hs =>
      next i st =>
      refine ⟨1, st, hs, fun f hf => ?_⟩
      obtain ⟨f, rfl⟩ := Nat.exists_eq_add_of_le' hf
      have := gives_nil hi
      rcases hp : poll (N := N) i with ⟨o, i'⟩
      rw [hp] at this
      cases this
      simp only [postLoop, hp]
  | case3 n ns rest items ih =>
    intro st h
    cases h with
    | cons hi hs =>
      next i st =>
      obtain ⟨h1, h2⟩ := gives_cons hi
      rcases hp : poll (N := N) i with ⟨o, i'⟩
      rw [hp] at h1 h2
      cases h1
      obtain ⟨m, st2, hg, hm⟩ := ih (.cons (splitI_gives n) (.cons h2 hs))
      refine ⟨m + 1, st2, hg, fun f hf => ?_⟩
      obtain ⟨f, rfl⟩ := Nat.exists_eq_add_of_le' hf
      rw [show f + (m + 1) = (f + m) + 1 from rfl, postLoop]
      simp only [hp, splitI_value]
      exact hm _ (by omega)

/-- The states of the two postorder iterators describe each other. -/
def PostRel (s : Post N V I) (t : Postorder.State N V) : Prop :=
  s.root = t.root ∧ s.items = t.items ∧ GivesL s.stack t.stack

theorem postNext_sim (s : Post N V I) (t : Postorder.State N V) (o : Option V) (t' : Postorder.State N V)
    (h : PostRel s t) (hn : (Except.ok (Postorder.next t) : Except Panic _) = .ok (o, t')) :
    ∃ m o1 s', o1 = o ∧ PostRel s' t' ∧ ∀ fuel, m ≤ fuel → postNext fuel s = .ok (o1, s') := by
  obtain ⟨root, items, st⟩ := s
  obtain ⟨root', items', st'⟩ := t
  obtain ⟨rfl, rfl, h⟩ := h
  cases hn
  cases root with
  | some r =>
    obtain ⟨m, st2, hg, hm⟩ := postLoop_sim (kids r :: st') (val r :: items) (.cons (splitI_gives r) h)
    refine ⟨m, _, ⟨none, (Postorder.loop (kids r :: st') (val r :: items)).2.1, st2⟩, rfl, ⟨rfl, rfl, hg⟩,
      fun f hf => ?_⟩
    simp only [postNext, splitI_value, hm f hf]
  | none =>
    obtain ⟨m, st2, hg, hm⟩ := postLoop_sim st' items h
    refine ⟨m, _, ⟨none, (Postorder.loop st' items).2.1, st2⟩, rfl, ⟨rfl, rfl, hg⟩, fun f hf => ?_⟩
    simp only [postNext, hm f hf]

theorem postAncLoop_sim (st' : List (List N)) (items : List V) : ∀ {st : List I}, GivesL st st' →
    ∃ m st2, GivesL st2 (Postorder.ancLoop st' items).2 ∧ ∀ f, m ≤ f →
      postAncLoop (N := N) f st items = .ok ((Postorder.ancLoop st' items).1, st2) := by
  fun_induction Postorder.ancLoop st' items with
  | case1 items =>
    intro st h
    cases h
    refine ⟨1, [], .nil, fun f hf => ?_⟩
    obtain ⟨f, rfl⟩ := Nat.exists_eq_add_of_le' hf
    rfl
  | case2 rest items =>
    intro st h
    cases h with
    | cons hi hs =>
      next i st =>
      refine ⟨1, st, hs, fun f hf => ?_⟩
      obtain ⟨f, rfl⟩ := Nat.exists_eq_add_of_le' hf
      have := gives_nil hi
      rcases hp : poll (N := N) i with ⟨o, i'⟩
      rw [hp] at this
      cases this
      simp only [postAncLoop, hp]
  | case3 n ns rest items ih =>
    intro st h
    cases h with
    | cons hi hs =>
      next i st =>
      obtain ⟨h1, h2⟩ := gives_cons hi
      rcases hp : poll (N := N) i with ⟨o, i'⟩
      rw [hp] at h1 h2
      cases h1
      obtain ⟨m, st2, hg, hm⟩ := ih (.cons (splitI_gives n) (.cons h2 hs))
      refine ⟨m + 1, st2, hg, fun f hf => ?_⟩
      obtain ⟨f, rfl⟩ := Nat.exists_eq_add_of_le' hf
      rw [show f + (m + 1) = (f + m) + 1 from rfl, postAncLoop]
      simp only [hp, splitI_value]
      exact hm _ (by omega)

/-- The states of the two postorder iterators with ancestors describe each other. -/
def PostAncRel (s : Post N V I) (t : Postorder.AncState N V) : Prop :=
  s.root = t.root ∧ s.items = t.items ∧ GivesL s.stack t.stack

theorem postAncAdvance_sim (s : Post N V I) (t t' : Postorder.AncState N V) (h : PostAncRel s t)
    (hn : (Except.ok (Postorder.ancAdvance t) : Except Panic _) = .ok t') :
    ∃ m s', PostAncRel s' t' ∧ ∀ fuel, m ≤ fuel → postAncAdvance fuel s = .ok s' := by
  obtain ⟨root, items, st⟩ := s
  obtain ⟨root', items', st'⟩ := t
  obtain ⟨rfl, rfl, h⟩ := h
  cases hn
  cases root with
  | some r =>
    obtain ⟨m, st2, hg, hm⟩ := postAncLoop_sim (kids r :: st') (val r :: items) (.cons (splitI_gives r) h)
    refine ⟨m, ⟨none, (Postorder.ancLoop (kids r :: st') (val r :: items)).1, st2⟩, ⟨rfl, rfl, hg⟩, fun f hf => ?_⟩
    simp only [postAncAdvance, splitI_value, hm f hf]
  | none =>
    obtain ⟨m, st2, hg, hm⟩ := postAncLoop_sim st' items.tail h
    refine ⟨m, ⟨none, (Postorder.ancLoop st' items.tail).1, st2⟩, ⟨rfl, rfl, hg⟩, fun f hf => ?_⟩
    simp only [postAncAdvance, hm f hf]

theorem postAncNext_sim (s : Post N V I) (t : Postorder.AncState N V) (o : Option (List V))
    (t' : Postorder.AncState N V) (h : PostAncRel s t)
    (hn : (Except.ok (Postorder.ancNext t) : Except Panic _) = .ok (o, t')) :
    ∃ m o1 s', o1 = o ∧ PostAncRel s' t' ∧ ∀ fuel, m ≤ fuel → postAncNext fuel s = .ok (o1, s') :=
  streamE_sim (adv' := fun t => .ok (Postorder.ancAdvance t)) (get' := Postorder.ancGet) PostAncRel Eq
    (fun s t h => by rw [postAncGet, Postorder.ancGet, h.2.1]) postAncAdvance_sim s t o t' h hn

/-! ### Breadth-first -/

theorem bfsLoop_sim {st : List I} {st' : List (List N)} (h : GivesL st st') :
    (bfsLoop (N := N) st).1 = (Bfs.loop st').1 ∧ (bfsLoop (N := N) st).2.root = (Bfs.loop st').2.root ∧
      GivesL (bfsLoop (N := N) st).2.stack (Bfs.loop st').2.queue := by
  induction h with
  | nil => exact ⟨rfl, rfl, .nil⟩
  | @cons i l st st' hi hs ih =>
    cases l with
    | nil =>
      have := gives_nil hi
      rcases hp : poll (N := N) i with ⟨o, i'⟩
      rw [hp] at this
      cases this
      simpa only [bfsLoop, hp, Bfs.loop] using ih
    | cons n l =>
      obtain ⟨h1, h2⟩ := gives_cons hi
      rcases hp : poll (N := N) i with ⟨o, i'⟩
      rw [hp] at h1 h2
      cases h1
      simp only [bfsLoop, hp, Bfs.loop]
      exact ⟨congrArg some (splitI_value n), trivial,
        List.rel_append (.cons h2 hs) (.cons (splitI_gives n) .nil)⟩

/-- The states of the two breadth-first iterators describe each other. -/
def BfsRel (s : Pre N I) (t : Bfs.State N) : Prop := s.root = t.root ∧ GivesL s.stack t.queue

theorem bfsNext_sim (s : Pre N I) (t : Bfs.State N) (h : BfsRel s t) :
    (bfsNext s).1 = (Bfs.next t).1 ∧ BfsRel (bfsNext s).2 (Bfs.next t).2 := by
  obtain ⟨root, st⟩ := s
  obtain ⟨root', st'⟩ := t
  obtain ⟨rfl, h⟩ := h
  cases root with
  | some r =>
    exact ⟨congrArg some (splitI_value r), rfl, List.rel_append h (.cons (splitI_gives r) .nil)⟩
  | none => exact bfsLoop_sim h

/-- The states of the two breadth-first iterators with ancestors describe each other. -/
def BfsAncRel (s : BfsAnc V I) (t : Bfs.AncState N V) : Prop :=
  s.isRoot = t.isRoot ∧ s.cs = t.cs ∧ GivesL s.queue t.queue

theorem bfsAncLoop_sim {st : List I} {st' : List (List N)} (h : GivesL st st') (cs : Bfs.CacheState V)
    (t' : Bfs.AncState N V) (hl : Bfs.ancLoop st' cs = .ok t') :
    ∃ s', bfsAncLoop (N := N) st cs = .ok s' ∧ BfsAncRel s' t' := by
  induction h generalizing cs with
  | nil =>
    rw [Bfs.ancLoop] at hl
    split at hl <;> simp at hl
  | @cons i l st st' hi hs ih =>
    rw [Bfs.ancLoop] at hl
    rw [bfsAncLoop]
    split at hl
    · cases hl
    · next cs1 hset =>
      simp only [hset]
      cases l with
      | nil =>
        have := gives_nil hi
        rcases hp : poll (N := N) i with ⟨o, i'⟩
        rw [hp] at this
        cases this
        simp only at hl ⊢
        split at hl
        · cases hl
        · next cs2 hret =>
          simp only [hret]
          cases hs with
          | nil =>
            cases hl
            exact ⟨_, rfl, rfl, rfl, .nil⟩
          | cons hi2 hs2 => exact ih cs2 hl
      | cons n l =>
        obtain ⟨h1, h2⟩ := gives_cons hi
        rcases hp : poll (N := N) i with ⟨o, i'⟩
        rw [hp] at h1 h2
        cases h1
        cases hl
        refine ⟨_, rfl, rfl, ?_, List.rel_append (.cons h2 hs) (.cons (splitI_gives n) .nil)⟩
        simp only [splitI_value]

theorem bfsAncAdvance_sim (s : BfsAnc V I) (t t' : Bfs.AncState N V) (h : BfsAncRel s t)
    (ha : Bfs.ancAdvance t = .ok t') :
    ∃ m s', BfsAncRel s' t' ∧ ∀ fuel : Nat, m ≤ fuel → bfsAncAdvance N s = .ok s' := by
  obtain ⟨ir, cs, q⟩ := s
  obtain ⟨ir', cs', q'⟩ := t
  obtain ⟨rfl, rfl, h⟩ := h
  dsimp only at h
  cases ir with
  | true => cases ha; exact ⟨0, _, ⟨rfl, rfl, h⟩, fun _ _ => rfl⟩
  | false =>
    obtain ⟨s', h1, h2⟩ := bfsAncLoop_sim h cs t' ha
    exact ⟨0, s', h2, fun _ _ => h1⟩

theorem bfsAncNext_sim (s : BfsAnc V I) (t : Bfs.AncState N V) (o : Option (List V)) (t' : Bfs.AncState N V)
    (h : BfsAncRel s t) (hn : Bfs.ancNext t = .ok (o, t')) :
    ∃ m o1 s', o1 = o ∧ BfsAncRel s' t' ∧ ∀ fuel : Nat, m ≤ fuel → bfsAncNext N s = .ok (o1, s') :=
  streamE_sim (adv := fun _ => bfsAncAdvance N) BfsAncRel Eq
    (fun s t h => by rw [bfsAncGet, Bfs.ancGet, h.2.1]) bfsAncAdvance_sim s t o t' h hn

end Loops

/-! ### Contexts -/

/-- The two contexts agree; the children iterator of the first has not been asked anything and yields the children of the
second. -/
def CtxGives [PollNode N V I] : Option (Ctx V I) → Option (Ctx V (List N)) → Prop
  | none, none => True
  | some c, some d => c.path = d.path ∧ c.ancestors = d.ancestors ∧ Option.Rel (Gives (N := N)) c.children d.children
  | _, _ => False

section Contexts
variable [PollTree N V I]

open PollTree

/-- The states of the two preorder iterators with context describe each other. -/
def PreCtxRel (s : PreCtx N V I) (t : Preorder.CtxState N V) : Prop :=
  s.root = t.root ∧ GivesL s.stack t.stack ∧ s.path = t.path ∧ s.ancestors = t.ancestors ∧
    Option.Rel (Gives (N := N)) s.children t.children

theorem preCtxLoop_sim {st : List I} {st' : List (List N)} (h : GivesL st st') (path : List Nat) (anc : List V)
    (o : Option N) (st2' : List (List N)) (path2 : List Nat) (anc2 : List V)
    (hl : Preorder.ctxLoop st' path anc = .ok (o, st2', path2, anc2)) :
    ∃ st2, preCtxLoop (N := N) st path anc = .ok (o, st2, path2, anc2) ∧ GivesL st2 st2' := by
  induction h generalizing path anc with
  | nil =>
    simp only [Preorder.ctxLoop] at hl
    cases hl
    exact ⟨[], rfl, .nil⟩
  | @cons i l st st' hi hs ih =>
    cases l with
    | nil =>
      have := gives_nil hi
      rcases hp : poll (N := N) i with ⟨o, i'⟩
      rw [hp] at this
      cases this
      simp only [preCtxLoop, hp]
      rw [Preorder.ctxLoop] at hl
      exact ih _ _ hl
    | cons n l =>
      obtain ⟨h1, h2⟩ := gives_cons hi
      rcases hp : poll (N := N) i with ⟨o, i'⟩
      rw [hp] at h1 h2
      cases h1
      cases path with
      | nil => simp [Preorder.ctxLoop] at hl
      | cons p path =>
        simp only [Preorder.ctxLoop] at hl
        cases hl
        simp only [preCtxLoop, hp]
        exact ⟨_, rfl, .cons h2 hs⟩

theorem preCtxAdvance_sim (s : PreCtx N V I) (t t' : Preorder.CtxState N V) (h : PreCtxRel s t)
    (ha : Preorder.ctxAdvance t = .ok t') : ∃ s', preCtxAdvance s = .ok s' ∧ PreCtxRel s' t' := by
  obtain ⟨root, st, path, anc, ch⟩ := s
  obtain ⟨root', st', path', anc', ch'⟩ := t
  obtain ⟨rfl, h, rfl, rfl, hc⟩ := h
  dsimp only at h hc
  cases root with
  | some r =>
    cases ha
    exact ⟨_, rfl, rfl, h, rfl, congrArg (· :: _) (splitI_value r), .some (splitI_gives r)⟩
  | none =>
    have fin : ∀ (st : List I) (st' : List (List N)) (path : List Nat) (anc : List V), GivesL st st' →
        (match Preorder.ctxLoop st' path anc with
          | .error e => .error e
          | .ok r => .ok (Preorder.ctxFinish r)) = (.ok t' : Except Panic _) →
        ∃ s', (match preCtxLoop (N := N) st path anc with
          | .error e => .error e
          | .ok (some n, st, path, anc) => .ok ⟨none, st, path, (splitI n).1 :: anc, some (splitI n).2⟩
          | .ok (none, st, path, _) => .ok ⟨none, st, path, [], none⟩) = (.ok s' : Except Panic (PreCtx N V I)) ∧
          PreCtxRel s' t' := by
      intro st st' path anc h hf
      split at hf
      · cases hf
      · next r hr =>
        obtain ⟨o, st2, path2, anc2⟩ := r
        obtain ⟨st3, h1, h2⟩ := preCtxLoop_sim h path anc _ _ _ _ hr
        rw [h1]
        cases o with
        | none => cases hf; exact ⟨_, rfl, rfl, h2, rfl, rfl, .none⟩
        | some n =>
          cases hf
          exact ⟨_, rfl, rfl, h2, rfl, congrArg (· :: _) (splitI_value n), .some (splitI_gives n)⟩
    simp only [Preorder.ctxAdvance] at ha
    simp only [preCtxAdvance]
    split at ha
    · next he =>
      cases ha
      simp only [he, if_true]
      exact ⟨_, rfl, rfl, h, rfl, rfl, hc⟩
    · next he =>
      simp only [he]
      cases hc with
      | none => exact fin _ _ _ _ h ha
      | some hc => exact fin _ _ _ _ (.cons hc h) ha

theorem preCtxNext_sim (s : PreCtx N V I) (t : Preorder.CtxState N V) (o : Option (Ctx V (List N)))
    (t' : Preorder.CtxState N V) (h : PreCtxRel s t) (hn : Preorder.ctxNext t = .ok (o, t')) :
    ∃ m o1 s', CtxGives o1 o ∧ PreCtxRel s' t' ∧ ∀ fuel : Nat, m ≤ fuel → preCtxNext s = .ok (o1, s') := by
  refine streamE_sim (adv := fun _ => preCtxAdvance) PreCtxRel CtxGives ?_ ?_ s t o t' h hn
  · rintro s t ⟨-, -, e1, e2, e3⟩
    simp only [preCtxGet, Preorder.ctxGet, e1, e2]
    by_cases he : t.ancestors.isEmpty = true
    · simp only [he, if_true, CtxGives]
    · simp only [he]
      exact ⟨rfl, rfl, e3⟩
  · intro s t t' h ha
    obtain ⟨s', h1, h2⟩ := preCtxAdvance_sim s t t' h ha
    exact ⟨0, s', h2, fun _ _ => h1⟩

/-- The states of the two breadth-first iterators with context describe each other. -/
def BfsCtxRel (s : BfsCtx V I) (t : Bfs.CtxState V (List N) N) : Prop :=
  s.isRoot = t.isRoot ∧ s.cc = t.cc ∧ Option.Rel (Gives (N := N)) s.children t.children ∧ GivesL s.queue t.queue ∧
    s.counter = t.counter

theorem bfsCtxLoop_sim {st : List I} {st' : List (List N)} (h : GivesL st st') (cc : Bfs.CtxCache V) (counter : Nat)
    (t' : Bfs.CtxState V (List N) N) (hl : Bfs.ctxLoop st' cc counter = .ok t') :
    ∃ s', bfsCtxLoop (N := N) st cc counter = .ok s' ∧ BfsCtxRel s' t' := by
  induction h generalizing cc counter with
  | nil =>
    rw [Bfs.ctxLoop] at hl
    split at hl <;> simp at hl
  | @cons i l st st' hi hs ih =>
    rw [Bfs.ctxLoop] at hl
    rw [bfsCtxLoop]
    split at hl
    · cases hl
    · next cc1 hset =>
      simp only [hset]
      cases l with
      | nil =>
        have := gives_nil hi
        rcases hp : poll (N := N) i with ⟨o, i'⟩
        rw [hp] at this
        cases this
        simp only at hl ⊢
        split at hl
        · cases hl
        · next cc2 hret =>
          simp only [hret]
          cases hs with
          | nil =>
            cases hl
            exact ⟨_, rfl, rfl, rfl, .none, .nil, rfl⟩
          | cons hi2 hs2 => exact ih cc2 0 hl
      | cons n l =>
        obtain ⟨h1, h2⟩ := gives_cons hi
        rcases hp : poll (N := N) i with ⟨o, i'⟩
        rw [hp] at h1 h2
        cases h1
        simp only at hl ⊢
        split at hl
        · cases hl
        · next c' hc =>
          cases hl
          simp only [hc]
          refine ⟨_, rfl, rfl, ?_, .some (splitI_gives n), .cons h2 hs, rfl⟩
          simp only [splitI_value]

theorem bfsCtxAdvance_sim (s : BfsCtx V I) (t t' : Bfs.CtxState V (List N) N) (h : BfsCtxRel s t)
    (ha : Bfs.ctxAdvance t = .ok t') : ∃ s', bfsCtxAdvance N s = .ok s' ∧ BfsCtxRel s' t' := by
  obtain ⟨ir, cc, ch, q, cn⟩ := s
  obtain ⟨ir', cc', ch', q', cn'⟩ := t
  obtain ⟨rfl, rfl, hc, h, rfl⟩ := h
  dsimp only at hc h
  cases ir with
  | true => cases ha; exact ⟨_, rfl, rfl, rfl, hc, h, rfl⟩
  | false =>
    simp only [Bfs.ctxAdvance] at ha
    simp only [bfsCtxAdvance]
    by_cases he : cc.ancestors.isEmpty = true
    · simp only [he, if_true] at ha ⊢
      cases ha
      exact ⟨_, rfl, rfl, rfl, hc, h, rfl⟩
    · simp only [he] at ha ⊢
      cases hc with
      | none => cases ha
      | some hc => exact bfsCtxLoop_sim (List.rel_append h (.cons hc .nil)) cc cn t' ha

theorem bfsCtxNext_sim (s : BfsCtx V I) (t : Bfs.CtxState V (List N) N) (o : Option (Ctx V (List N)))
    (t' : Bfs.CtxState V (List N) N) (h : BfsCtxRel s t) (hn : Bfs.ctxNext t = .ok (o, t')) :
    ∃ m o1 s', CtxGives o1 o ∧ BfsCtxRel s' t' ∧ ∀ fuel : Nat, m ≤ fuel → bfsCtxNext N s = .ok (o1, s') := by
  refine streamE_sim (adv := fun _ => bfsCtxAdvance N) BfsCtxRel CtxGives ?_ ?_ s t o t' h hn
  · rintro s t ⟨-, e1, e2, -, -⟩
    simp only [bfsCtxGet, Bfs.ctxGet, e1]
    by_cases he : t.cc.ancestors.isEmpty = true
    · simp only [he, if_true, CtxGives]
    · simp only [he]
      exact ⟨rfl, rfl, e2⟩
  · intro s t t' h ha
    obtain ⟨s', h1, h2⟩ := bfsCtxAdvance_sim s t t' h ha
    exact ⟨0, s', h2, fun _ _ => h1⟩

/-! ### Postorder -/

/-- The states of the two postorder iterators with context describe each other. -/
def PostCtxRel (s : PostCtx N V I) (t : Postorder.CtxState N V) : Prop :=
  s.root = t.root ∧ GivesL s.stack t.stack ∧ GivesL s.into t.into ∧ s.path = t.path ∧ s.ancestors = t.ancestors ∧
    Option.Rel (Gives (N := N)) s.children t.children

theorem postCtxLoop_sim (st' into' : List (List N)) (path : List Nat) (anc : List V) :
    ∀ {st into : List I} {t' : Postorder.CtxState N V}, GivesL st st' → GivesL into into' →
      Postorder.ctxLoop st' into' path anc = .ok t' →
      ∃ m s', PostCtxRel s' t' ∧ ∀ fuel, m ≤ fuel → postCtxLoop fuel st into path anc = .ok s' := by
  fun_induction Postorder.ctxLoop st' into' path anc with
  | case1 n ns rest into' p path anc ih =>
    intro st into t' h hi ht
    cases h with
    | @cons i _ st _ h1 h =>
      obtain ⟨e, g⟩ := gives_cons h1
      rcases hp : poll (N := N) i with ⟨o, i'⟩
      rw [hp] at e g
      cases e
      obtain ⟨m, s', hr, hm⟩ := ih (.cons (splitI_gives n) (.cons g h)) (.cons (splitI_gives n) hi) ht
      refine ⟨m + 1, s', hr, fun f hf => ?_⟩
      obtain ⟨f, rfl⟩ : ∃ f', f = f' + 1 := ⟨f - 1, by omega⟩
      simp only [postCtxLoop, hp, splitI_value]
      exact hm f (by omega)
  | case2 => intro _ _ _ _ _ ht; cases ht
  | case3 rest c into' path anc =>
    intro st into t' h hi ht
    cases ht
    cases h with
    | @cons i _ st _ h1 h =>
      have e := gives_nil h1
      rcases hp : poll (N := N) i with ⟨o, i'⟩
      rw [hp] at e
      cases e
      cases hi with
      | @cons c' _ into _ hc hi =>
        refine ⟨1, ⟨none, st, into, path.tail, anc, some c'⟩, ⟨rfl, h, hi, rfl, rfl, .some hc⟩, fun f hf => ?_⟩
        obtain ⟨f, rfl⟩ : ∃ f', f = f' + 1 := ⟨f - 1, by omega⟩
        simp only [postCtxLoop, hp]
  | case4 c into' path anc =>
    intro st into t' h hi ht
    cases ht
    cases h
    cases hi with
    | @cons c' _ into _ hc hi =>
      refine ⟨1, ⟨none, [], into, path.tail, anc, some c'⟩, ⟨rfl, .nil, hi, rfl, rfl, .some hc⟩, fun f hf => ?_⟩
      obtain ⟨f, rfl⟩ : ∃ f', f = f' + 1 := ⟨f - 1, by omega⟩
      simp only [postCtxLoop]
  | case5 => intro _ _ _ _ _ ht; cases ht
  | case6 => intro _ _ _ _ _ ht; cases ht

theorem postCtxAdvance_sim (s : PostCtx N V I) (t t' : Postorder.CtxState N V) (h : PostCtxRel s t)
    (hn : Postorder.ctxAdvance t = .ok t') :
    ∃ m s', PostCtxRel s' t' ∧ ∀ fuel, m ≤ fuel → postCtxAdvance fuel s = .ok s' := by
  obtain ⟨root, st, into, path, anc, ch⟩ := s
  obtain ⟨root', st', into', path', anc', ch'⟩ := t
  obtain ⟨rfl, h, hi, rfl, rfl, hc⟩ := h
  cases root with
  | some r =>
    obtain ⟨m, s', hr, hm⟩ := postCtxLoop_sim (kids r :: st') (kids r :: into') (usizeMax :: path) (val r :: anc)
      (.cons (splitI_gives r) h) (.cons (splitI_gives r) hi) hn
    refine ⟨m, s', hr, fun f hf => ?_⟩
    simp only [postCtxAdvance, splitI_value, hm f hf]
  | none =>
    simp only [Postorder.ctxAdvance] at hn
    split at hn
    · next he =>
      cases hn
      exact ⟨0, ⟨none, st, into, path, anc.tail, ch⟩, ⟨rfl, h, hi, rfl, rfl, hc⟩, fun f _ => by
        simp only [postCtxAdvance, he, if_true]⟩
    · next he =>
      obtain ⟨m, s', hr, hm⟩ := postCtxLoop_sim st' into' path anc.tail h hi hn
      exact ⟨m, s', hr, fun f hf => by simp only [postCtxAdvance, he, hm f hf]; rfl⟩

theorem postCtxNext_sim (s : PostCtx N V I) (t : Postorder.CtxState N V) (o : Option (Ctx V (List N)))
    (t' : Postorder.CtxState N V) (h : PostCtxRel s t) (hn : Postorder.ctxNext t = .ok (o, t')) :
    ∃ m o1 s', CtxGives o1 o ∧ PostCtxRel s' t' ∧ ∀ fuel, m ≤ fuel → postCtxNext fuel s = .ok (o1, s') := by
  refine streamE_sim PostCtxRel CtxGives ?_ postCtxAdvance_sim s t o t' h hn
  rintro s t ⟨-, -, -, e1, e2, e3⟩
  simp only [postCtxGet, Postorder.ctxGet, e1, e2]
  by_cases he : t.ancestors.isEmpty = true
  · simp only [he, if_true, CtxGives]
  · simp only [he]
    exact ⟨rfl, rfl, e3⟩

/-- The same for owned nodes. -/
def PostOwnCtxRel (s : PostOwnCtx N V I) (t : Postorder.OwnCtxState N V) : Prop :=
  s.root = t.root ∧ GivesL s.stack t.stack ∧ s.path = t.path ∧ s.ancestors = t.ancestors

theorem postOwnCtxLoop_sim (st' : List (List N)) (path : List Nat) (anc : List V) :
    ∀ {st : List I} {t' : Postorder.OwnCtxState N V}, GivesL st st' → Postorder.ownCtxLoop st' path anc = .ok t' →
      ∃ m s', PostOwnCtxRel s' t' ∧ ∀ fuel, m ≤ fuel → postOwnCtxLoop fuel st path anc = .ok s' := by
  fun_induction Postorder.ownCtxLoop st' path anc with
  | case1 n ns rest p path anc ih =>
    intro st t' h ht
    cases h with
    | @cons i _ st _ h1 h =>
      obtain ⟨e, g⟩ := gives_cons h1
      rcases hp : poll (N := N) i with ⟨o, i'⟩
      rw [hp] at e g
      cases e
      obtain ⟨m, s', hr, hm⟩ := ih (.cons (splitI_gives n) (.cons g h)) ht
      refine ⟨m + 1, s', hr, fun f hf => ?_⟩
      obtain ⟨f, rfl⟩ : ∃ f', f = f' + 1 := ⟨f - 1, by omega⟩
      simp only [postOwnCtxLoop, hp, splitI_value]
      exact hm f (by omega)
  | case2 => intro _ _ _ ht; cases ht
  | case3 rest path anc =>
    intro st t' h ht
    cases ht
    cases h with
    | @cons i _ st _ h1 h =>
      have e := gives_nil h1
      rcases hp : poll (N := N) i with ⟨o, i'⟩
      rw [hp] at e
      cases e
      refine ⟨1, ⟨none, st, path.tail, anc⟩, ⟨rfl, h, rfl, rfl⟩, fun f hf => ?_⟩
      obtain ⟨f, rfl⟩ : ∃ f', f = f' + 1 := ⟨f - 1, by omega⟩
      simp only [postOwnCtxLoop, hp]
  | case4 path anc =>
    intro st t' h ht
    cases ht
    cases h
    refine ⟨1, ⟨none, [], path.tail, anc⟩, ⟨rfl, .nil, rfl, rfl⟩, fun f hf => ?_⟩
    obtain ⟨f, rfl⟩ : ∃ f', f = f' + 1 := ⟨f - 1, by omega⟩
    simp only [postOwnCtxLoop]

theorem postOwnCtxAdvance_sim (s : PostOwnCtx N V I) (t t' : Postorder.OwnCtxState N V) (h : PostOwnCtxRel s t)
    (hn : Postorder.ownCtxAdvance t = .ok t') :
    ∃ m s', PostOwnCtxRel s' t' ∧ ∀ fuel, m ≤ fuel → postOwnCtxAdvance fuel s = .ok s' := by
  obtain ⟨root, st, path, anc⟩ := s
  obtain ⟨root', st', path', anc'⟩ := t
  obtain ⟨rfl, h, rfl, rfl⟩ := h
  cases root with
  | some r =>
    obtain ⟨m, s', hr, hm⟩ := postOwnCtxLoop_sim (kids r :: st') (usizeMax :: path) (val r :: anc)
      (.cons (splitI_gives r) h) hn
    refine ⟨m, s', hr, fun f hf => ?_⟩
    simp only [postOwnCtxAdvance, splitI_value, hm f hf]
  | none =>
    simp only [Postorder.ownCtxAdvance] at hn
    split at hn
    · next he =>
      cases hn
      exact ⟨0, ⟨none, st, path, anc.tail⟩, ⟨rfl, h, rfl, rfl⟩, fun f _ => by
        simp only [postOwnCtxAdvance, he, if_true]⟩
    · next he =>
      obtain ⟨m, s', hr, hm⟩ := postOwnCtxLoop_sim st' path anc.tail h hn
      exact ⟨m, s', hr, fun f hf => by simp only [postOwnCtxAdvance, he, hm f hf]; rfl⟩

theorem postOwnCtxNext_sim (s : PostOwnCtx N V I) (t : Postorder.OwnCtxState N V) (o : Option (Ctx V (List N)))
    (t' : Postorder.OwnCtxState N V) (h : PostOwnCtxRel s t) (hn : Postorder.ownCtxNext t = .ok (o, t')) :
    ∃ m o1 s', CtxGives o1 o ∧ PostOwnCtxRel s' t' ∧ ∀ fuel, m ≤ fuel → postOwnCtxNext fuel s = .ok (o1, s') := by
  refine streamE_sim PostOwnCtxRel CtxGives ?_ postOwnCtxAdvance_sim s t o t' h hn
  rintro s t ⟨-, -, e1, e2⟩
  simp only [postOwnCtxGet, Postorder.ownCtxGet, e1, e2]
  by_cases he : t.ancestors.isEmpty = true
  · simp only [he, if_true, CtxGives]
  · simp only [he]
    exact ⟨rfl, rfl, .none⟩

end Contexts

/-! ### Collections -/

section Source
variable {S : Type v} {O : Type w}

theorem pull_sim (mk : N → S) (inner : S → Option O × S) (ns : List N) (ghosts : List (Option N)) :
    (pull mk inner (ns.map some ++ none :: ghosts)).1 = (Coll.pull mk inner ns).1 ∧
      ((Coll.pull mk inner ns).1.isSome →
        (pull mk inner (ns.map some ++ none :: ghosts)).2 =
          ⟨(Coll.pull mk inner ns).2.rest.map some ++ none :: ghosts, (Coll.pull mk inner ns).2.inner⟩) := by
  induction ns with
  | nil => exact ⟨rfl, fun h => by cases h⟩
  | cons n ns ih =>
    simp only [List.map_cons, List.cons_append, pull, Coll.pull]
    rcases inner (mk n) with ⟨_ | o, s⟩
    · exact ih
    · exact ⟨rfl, fun _ => rfl⟩

/-- Up to the first `None` the calls do not see what the source would answer after its own. -/
theorem source_calls (mk : N → S) (inner : S → Option O × S) (ghosts : List (Option N)) (k : Nat) :
    ∀ (s : Coll.State N S), (∀ j < k, (nthCall (Coll.next mk inner) j s).isSome) →
      nthCall (sourceNext mk inner) k ⟨s.rest.map some ++ none :: ghosts, s.inner⟩ =
        nthCall (Coll.next mk inner) k s := by
  have step : ∀ s : Coll.State N S,
      (sourceNext mk inner ⟨s.rest.map some ++ none :: ghosts, s.inner⟩).1 = (Coll.next mk inner s).1 ∧
        ((Coll.next mk inner s).1.isSome →
          (sourceNext mk inner ⟨s.rest.map some ++ none :: ghosts, s.inner⟩).2 =
            ⟨(Coll.next mk inner s).2.rest.map some ++ none :: ghosts, (Coll.next mk inner s).2.inner⟩) := by
    intro ⟨rest, i⟩
    cases i with
    | none => exact pull_sim mk inner rest ghosts
    | some i =>
      simp only [sourceNext, Coll.next]
      rcases inner i with ⟨_ | o, s⟩
      · exact pull_sim mk inner rest ghosts
      · exact ⟨rfl, fun _ => rfl⟩
  induction k with
  | zero => exact fun s _ => (step s).1
  | succ k ih =>
    intro s h
    show nthCall (sourceNext mk inner) k (sourceNext mk inner _).2 = nthCall (Coll.next mk inner) k (Coll.next mk inner s).2
    rw [(step s).2 (h 0 (Nat.succ_pos k))]
    exact ih _ fun j hj => h (j + 1) (Nat.succ_lt_succ hj)

theorem source_calls_of (mk : N → S) (inner : S → Option O × S) (ns : List N) (ghosts : List (Option N)) {l : List O}
    (h : ∀ k, nthCall (Coll.next mk inner) k (Coll.new ns) = l[k]?) (k : Nat) (hk : k ≤ l.length) :
    nthCall (sourceNext mk inner) k ⟨ns.map some ++ none :: ghosts, none⟩ = l[k]? := by
  rw [← h k]
  refine source_calls mk inner ghosts k (Coll.new ns) fun j hj => ?_
  rw [h j, List.getElem?_eq_getElem (by omega)]
  rfl

end Source

end Poll

end TreeIter
