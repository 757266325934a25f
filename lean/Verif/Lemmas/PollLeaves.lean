import Verif.Lemmas.Poll

/-!
# The `leaves()` loops over polled iterators follow the loops over lists
-/

universe u v w

namespace TreeIter

namespace Poll

variable {N : Type u} {V : Type v} {I : Type w} [PollTree N V I]

open PollTree

/-! ### Depth-first -/

/-- The states of the two depth-first leaves iterators describe each other. -/
def LvRel (s : Lv N V I) (t : Leaves.State N V) : Prop :=
  s.root = t.root ∧ GivesL s.bottom t.bottom ∧ GivesL s.top t.top ∧ s.items = t.items

theorem lvLoop_sim (bottom' top' : List (List N)) (items : List V) (just : Bool) :
    ∀ {bottom top : List I}, GivesL bottom bottom' → GivesL top top' →
    ∃ m s', LvRel s' (Leaves.loop bottom' top' items just).2 ∧ ∀ f, m ≤ f →
      lvLoop f bottom top items just = .ok ((Leaves.loop bottom' top' items just).1, s') := by
  fun_induction Leaves.loop bottom' top' items just with
  | case1 just bottom' n ns top' items ih =>
    intro bottom top hb ht
    cases ht with
    | cons hi hs =>
      next i st =>
      obtain ⟨h1, h2⟩ := gives_cons hi
      rcases hp : poll (N := N) i with ⟨o, i'⟩
      rw [hp] at h1 h2
      cases h1
      obtain ⟨m, s', hg, hm⟩ := ih hb (.cons (splitI_gives n) (.cons h2 hs))
      refine ⟨m + 1, s', hg, fun f hf => ?_⟩
      obtain ⟨f, rfl⟩ := Nat.exists_eq_add_of_le' hf
      rw [show f + (m + 1) = (f + m) + 1 from rfl, lvLoop]
      simp only [hp, splitI_value]
      exact hm _ (by omega)
  | case2 bottom' top' items =>
    intro bottom top hb ht
    cases ht with
    | cons hi hs =>
      next i st =>
      have := gives_nil hi
      rcases hp : poll (N := N) i with ⟨o, i'⟩
      rw [hp] at this
      cases this
      refine ⟨1, ⟨none, bottom, st, items.tail⟩, ⟨rfl, hb, hs, rfl⟩, fun f hf => ?_⟩
      obtain ⟨f, rfl⟩ := Nat.exists_eq_add_of_le' hf
      rw [lvLoop]
      simp only [hp, if_true]
  | case3 bottom' top' items ih =>
    intro bottom top hb ht
    cases ht with
    | cons hi hs =>
      next i st =>
      have := gives_nil hi
      rcases hp : poll (N := N) i with ⟨o, i'⟩
      rw [hp] at this
      cases this
      obtain ⟨m, s', hg, hm⟩ := ih hb hs
      refine ⟨m + 1, s', hg, fun f hf => ?_⟩
      obtain ⟨f, rfl⟩ := Nat.exists_eq_add_of_le' hf
      rw [show f + (m + 1) = (f + m) + 1 from rfl, lvLoop]
      simp only [hp]
      exact hm _ (by omega)
  | case4 n ns bottom' items just ih =>
    intro bottom top hb ht
    cases ht
    cases hb with
    | cons hi hs =>
      next i st =>
      obtain ⟨h1, h2⟩ := gives_cons hi
      rcases hp : poll (N := N) i with ⟨o, i'⟩
      rw [hp] at h1 h2
      cases h1
      obtain ⟨m, s', hg, hm⟩ := ih (.cons h2 hs) (.cons (splitI_gives n) .nil)
      refine ⟨m + 1, s', hg, fun f hf => ?_⟩
      obtain ⟨f, rfl⟩ := Nat.exists_eq_add_of_le' hf
      rw [show f + (m + 1) = (f + m) + 1 from rfl, lvLoop]
      simp only [hp, splitI_value]
      exact hm _ (by omega)
  | case5 bottom' items just ih =>
    intro bottom top hb ht
    cases ht
    cases hb with
    | cons hi hs =>
      next i st =>
      have := gives_nil hi
      rcases hp : poll (N := N) i with ⟨o, i'⟩
      rw [hp] at this
      cases this
      obtain ⟨m, s', hg, hm⟩ := ih hs .nil
      refine ⟨m + 1, s', hg, fun f hf => ?_⟩
      obtain ⟨f, rfl⟩ := Nat.exists_eq_add_of_le' hf
      rw [show f + (m + 1) = (f + m) + 1 from rfl, lvLoop]
      simp only [hp]
      exact hm _ (by omega)
  | case6 just items =>
    intro bottom top hb ht
    cases ht
    cases hb
    refine ⟨1, ⟨none, [], [], items⟩, ⟨rfl, .nil, .nil, rfl⟩, fun f hf => ?_⟩
    obtain ⟨f, rfl⟩ := Nat.exists_eq_add_of_le' hf
    rw [lvLoop]

theorem lvNext_sim (s : Lv N V I) (t : Leaves.State N V) (o : Option V) (t' : Leaves.State N V)
    (h : LvRel s t) (hn : (Except.ok (Leaves.next t) : Except Panic _) = .ok (o, t')) :
    ∃ m o1 s', o1 = o ∧ LvRel s' t' ∧ ∀ fuel, m ≤ fuel → lvNext fuel s = .ok (o1, s') := by
  obtain ⟨root, b, tp, items⟩ := s
  obtain ⟨root', b', tp', items'⟩ := t
  obtain ⟨rfl, hb, ht, rfl⟩ := h
  cases root with
  | some r =>
    obtain ⟨m, s', hg, hm⟩ := lvLoop_sim b' (kids r :: tp') (val r :: items) true hb (.cons (splitI_gives r) ht)
    simp only [Leaves.next] at hn
    rw [Except.ok.injEq] at hn
    rw [hn] at hg hm
    refine ⟨m, _, s', rfl, hg, fun f hf => ?_⟩
    simp only [lvNext, splitI_value, hm f hf]
  | none =>
    obtain ⟨m, s', hg, hm⟩ := lvLoop_sim b' tp' items false hb ht
    simp only [Leaves.next] at hn
    rw [Except.ok.injEq] at hn
    rw [hn] at hg hm
    refine ⟨m, _, s', rfl, hg, fun f hf => ?_⟩
    simp only [lvNext, hm f hf]

/-- The states of the two depth-first leaves iterators with ancestors describe each other. -/
def LvAncRel (s : LvAnc N V I) (t : Leaves.AncState N V) : Prop :=
  s.root = t.root ∧ s.items = t.items ∧ GivesL s.old t.old ∧ GivesL s.new t.new

theorem givesL_tail {st : List I} {st' : List (List N)} (h : GivesL st st') : GivesL st.tail st'.tail := by
  cases h with
  | nil => exact .nil
  | cons _ h => exact h

theorem lvAncLoop_new {new : List I} {new' : List (List N)} (h : GivesL new new')
    (hn : ∀ (n : N) (ns : List N) (st : List (List N)), new' = (n :: ns) :: st → False) (f : Nat) (old : List I)
    (items : List V) (pushed : Bool) :
    lvAncLoop (N := N) (f + 1) old new items pushed = lvAncOld (lvAncLoop f) old new.tail items pushed := by
  cases h with
  | nil => rw [lvAncLoop, List.tail_nil]
  | @cons i l st st' hi hs =>
    cases l with
    | cons n l => exact absurd rfl (hn n l st')
    | nil =>
      have := gives_nil hi
      rcases hp : poll (N := N) i with ⟨o, i'⟩
      rw [hp] at this
      cases this
      rw [lvAncLoop]
      simp only [hp, List.tail_cons]

theorem lvAncOld_end {old : List I} {old' : List (List N)} (h : GivesL old old')
    (hn : ∀ (n : N) (ns : List N) (st : List (List N)), old' = (n :: ns) :: st → False)
    (more : List I → List I → List V → Bool → Except Panic (LvAnc N V I)) (new : List I) (items : List V) :
    lvAncOld more old new items false =
      match items.tail with
      | [] => .ok ⟨none, [], old.tail, new⟩
      | i :: is => more old.tail new (i :: is) false := by
  cases h with
  | nil => simp only [lvAncOld, List.tail_nil]; cases items.tail <;> rfl
  | @cons i l st st' hi hs =>
    cases l with
    | cons n l => exact absurd rfl (hn n l st')
    | nil =>
      have := gives_nil hi
      rcases hp : poll (N := N) i with ⟨o, i'⟩
      rw [hp] at this
      cases this
      simp only [lvAncOld, hp, List.tail_cons]
      cases items.tail <;> rfl

theorem lvAncLoop_sim (old' new' : List (List N)) (items : List V) (pushed : Bool) :
    ∀ {old new : List I}, GivesL old old' → GivesL new new' →
    ∃ m s', LvAncRel s' (Leaves.ancLoop old' new' items pushed) ∧ ∀ f, m ≤ f →
      lvAncLoop (N := N) f old new items pushed = .ok s' := by
  fun_induction Leaves.ancLoop old' new' items pushed with
  | case1 old' items pushed n ns new' ih =>
    intro old new ho hn
    cases hn with
    | cons hi hs =>
      next i st =>
      obtain ⟨h1, h2⟩ := gives_cons hi
      rcases hp : poll (N := N) i with ⟨o, i'⟩
      rw [hp] at h1 h2
      cases h1
      obtain ⟨m, s', hg, hm⟩ := ih ho (.cons (splitI_gives n) (.cons h2 hs))
      refine ⟨m + 1, s', hg, fun f hf => ?_⟩
      obtain ⟨f, rfl⟩ := Nat.exists_eq_add_of_le' hf
      rw [show f + (m + 1) = (f + m) + 1 from rfl, lvAncLoop]
      simp only [hp, splitI_value]
      exact hm _ (by omega)
  | case2 old' items new' hx =>
    intro old new ho hn
    refine ⟨1, ⟨none, items, old, new.tail⟩, ⟨rfl, rfl, ho, givesL_tail hn⟩, fun f hf => ?_⟩
    obtain ⟨f, rfl⟩ := Nat.exists_eq_add_of_le' hf
    rw [lvAncLoop_new hn hx]
    simp [lvAncOld]
  | case3 items pushed new' hx hpu n ns old' ih =>
    intro old new ho hn
    cases ho with
    | cons hi hs =>
      next i st =>
      obtain ⟨h1, h2⟩ := gives_cons hi
      rcases hp : poll (N := N) i with ⟨o, i'⟩
      rw [hp] at h1 h2
      cases h1
      obtain ⟨m, s', hg, hm⟩ := ih (.cons h2 hs) (.cons (splitI_gives n) (givesL_tail hn))
      refine ⟨m + 1, s', hg, fun f hf => ?_⟩
      obtain ⟨f, rfl⟩ := Nat.exists_eq_add_of_le' hf
      rw [show f + (m + 1) = (f + m) + 1 from rfl, lvAncLoop_new hn hx]
      simp only [lvAncOld, hpu, hp, splitI_value]
      exact hm _ (by omega)
  | case4 items pushed new' hx hpu old' hy hi =>
    intro old new ho hn
    refine ⟨1, ⟨none, [], old.tail, new.tail⟩, ⟨rfl, rfl, givesL_tail ho, givesL_tail hn⟩, fun f hf => ?_⟩
    obtain ⟨f, rfl⟩ := Nat.exists_eq_add_of_le' hf
    rw [lvAncLoop_new hn hx, eq_false_of_ne_true hpu, lvAncOld_end ho hy, hi]
  | case5 items pushed new' hx hpu old' hy i is hi ih =>
    intro old new ho hn
    obtain ⟨m, s', hg, hm⟩ := ih (givesL_tail ho) (givesL_tail hn)
    refine ⟨m + 1, s', hg, fun f hf => ?_⟩
    obtain ⟨f, rfl⟩ := Nat.exists_eq_add_of_le' hf
    rw [show f + (m + 1) = (f + m) + 1 from rfl, lvAncLoop_new hn hx, eq_false_of_ne_true hpu, lvAncOld_end ho hy, hi]
    exact hm _ (by omega)

theorem lvAncNext_sim (s : LvAnc N V I) (t : Leaves.AncState N V) (o : Option (List V)) (t' : Leaves.AncState N V)
    (h : LvAncRel s t) (hn : (Except.ok (Leaves.ancNext t) : Except Panic _) = .ok (o, t')) :
    ∃ m o1 s', o1 = o ∧ LvAncRel s' t' ∧ ∀ fuel, m ≤ fuel → lvAncNext fuel s = .ok (o1, s') := by
  refine streamE_sim (adv := lvAncAdvance) (adv' := fun t => .ok (Leaves.ancAdvance t)) (get' := Leaves.ancGet) LvAncRel
    Eq (fun s t h => by rw [lvAncGet, Leaves.ancGet, h.2.1]) ?_ s t o t' h hn
  rintro ⟨root, items, old, new⟩ ⟨root', items', old', new'⟩ t' ⟨rfl, rfl, ho, hn⟩ ha
  cases ha
  cases root with
  | some r =>
    obtain ⟨m, s', hg, hm⟩ := lvAncLoop_sim old' (kids r :: new') (val r :: items) true ho (.cons (splitI_gives r) hn)
    refine ⟨m, s', hg, fun f hf => ?_⟩
    simp only [lvAncAdvance, splitI_value, hm f hf]
  | none =>
    obtain ⟨m, s', hg, hm⟩ := lvAncLoop_sim old' new' items.tail false ho hn
    exact ⟨m, s', hg, fun f hf => hm f hf⟩

/-! ### Breadth-first -/

/-- What a `Peekable` has still to yield; an answer `None` fetched ahead is the end. -/
def PeekGives (p : Peek N I) (l : List N) : Prop :=
  match p.peeked with
  | none => Gives p.it l
  | some none => l = []
  | some (some n) => ∃ l', l = n :: l' ∧ Gives p.it l'

theorem peek_ahead {i : I} {l : List N} (h : Gives i l) : PeekGives (Peek.ahead i) l ∧
    (poll (N := N) i).1.isSome = !l.isEmpty := by
  cases l with
  | nil => simp [PeekGives, Peek.ahead, gives_nil h]
  | cons n l =>
    obtain ⟨h1, h2⟩ := gives_cons h
    simp only [PeekGives, Peek.ahead, h1]
    exact ⟨⟨l, rfl, h2⟩, rfl⟩

theorem peek_nil {p : Peek N I} (h : PeekGives p []) : p.next.1 = none := by
  obtain ⟨pk, it⟩ := p
  cases pk with
  | none => exact gives_nil h
  | some a =>
    cases a with
    | none => rfl
    | some n => obtain ⟨l, hl, -⟩ := h; cases hl

theorem peek_cons {p : Peek N I} {n : N} {l : List N} (h : PeekGives p (n :: l)) :
    p.next.1 = some n ∧ PeekGives p.next.2 l := by
  obtain ⟨pk, it⟩ := p
  cases pk with
  | none => exact gives_cons h
  | some a =>
    cases a with
    | none => cases h
    | some n =>
      obtain ⟨l', hl, h⟩ := h
      cases hl
      exact ⟨rfl, h⟩

/-- The lists describe the peekable iterators, one by one. -/
abbrev PeekL (st : List (Peek N I)) (st' : List (List N)) : Prop := List.Forall₂ PeekGives st st'

/-- The states of the two breadth-first leaves iterators describe each other. -/
def BfsLvRel (s : BfsLv N I) (t : Bfs.LeavesState N) : Prop :=
  s.root = t.root ∧ GivesL s.old t.old ∧ PeekL s.new t.new

theorem bfsLvLoopNew_sim {st : List (Peek N I)} {st' : List (List N)} (h : PeekL st st') :
    (bfsLvLoopNew st).1 = (Bfs.leavesLoopNew st').1 ∧ BfsLvRel (bfsLvLoopNew st).2 (Bfs.leavesLoopNew st').2 := by
  induction h with
  | nil => exact ⟨rfl, rfl, .nil, .nil⟩
  | @cons i l st st' hi hs ih =>
    cases l with
    | nil =>
      have := peek_nil hi
      rcases hp : i.next with ⟨o, i'⟩
      rw [hp] at this
      cases this
      simpa only [bfsLvLoopNew, hp, Bfs.leavesLoopNew] using ih
    | cons n l =>
      obtain ⟨h1, h2⟩ := peek_cons hi
      rcases hp : i.next with ⟨o, i'⟩
      rw [hp] at h1 h2
      cases h1
      obtain ⟨h3, h4⟩ := peek_ahead (splitI_gives n)
      simp only [bfsLvLoopNew, hp, Bfs.leavesLoopNew, h4, splitI_value]
      exact ⟨trivial, rfl, .nil, List.rel_append (.cons h2 hs) (.cons h3 .nil)⟩

theorem bfsLvLoop_sim {st : List I} {st' : List (List N)} (h : GivesL st st') {new : List (Peek N I)}
    {new' : List (List N)} (hn : PeekL new new') :
    (bfsLvLoop new st).1 = (Bfs.leavesLoop new' st').1 ∧ BfsLvRel (bfsLvLoop new st).2 (Bfs.leavesLoop new' st').2 := by
  induction h with
  | nil => exact bfsLvLoopNew_sim hn
  | @cons i l st st' hi hs ih =>
    cases l with
    | nil =>
      have := gives_nil hi
      rcases hp : poll (N := N) i with ⟨o, i'⟩
      rw [hp] at this
      cases this
      simpa only [bfsLvLoop, hp, Bfs.leavesLoop] using ih
    | cons n l =>
      obtain ⟨h1, h2⟩ := gives_cons hi
      rcases hp : poll (N := N) i with ⟨o, i'⟩
      rw [hp] at h1 h2
      cases h1
      obtain ⟨h3, h4⟩ := peek_ahead (splitI_gives n)
      simp only [bfsLvLoop, hp, Bfs.leavesLoop, h4, splitI_value]
      exact ⟨trivial, rfl, .cons h2 hs, List.rel_append hn (.cons h3 .nil)⟩

theorem bfsLvStep_sim {s : BfsLv N I} {t : Bfs.LeavesState N} (h : BfsLvRel s t) :
    (bfsLvStep s).1 = (Bfs.leavesBfsNext t).1 ∧ BfsLvRel (bfsLvStep s).2 (Bfs.leavesBfsNext t).2 := by
  obtain ⟨root, old, new⟩ := s
  obtain ⟨root', old', new'⟩ := t
  obtain ⟨rfl, ho, hn⟩ := h
  cases root with
  | some r =>
    obtain ⟨h3, h4⟩ := peek_ahead (splitI_gives r)
    simp only [bfsLvStep, Bfs.leavesBfsNext, h4, splitI_value]
    exact ⟨trivial, rfl, ho, List.rel_append hn (.cons h3 .nil)⟩
  | none => exact bfsLvLoop_sim ho hn

theorem bfsLvNext_run (t : Bfs.LeavesState N) : ∀ {s : BfsLv N I}, BfsLvRel s t →
    ∃ m s', BfsLvRel s' (Bfs.leavesNext t).2 ∧ ∀ f, m ≤ f → bfsLvNext f s = .ok ((Bfs.leavesNext t).1, s') := by
  fun_induction Bfs.leavesNext t with
  | case1 t t' ht =>
    intro s h
    obtain ⟨h1, h2⟩ := bfsLvStep_sim h
    rcases hp : bfsLvStep s with ⟨o, s'⟩
    rw [hp, ht] at h1 h2
    cases h1
    refine ⟨1, s', h2, fun f hf => ?_⟩
    obtain ⟨f, rfl⟩ := Nat.exists_eq_add_of_le' hf
    simp only [bfsLvNext, hp]
  | case2 t x t' ht ih =>
    intro s h
    obtain ⟨h1, h2⟩ := bfsLvStep_sim h
    rcases hp : bfsLvStep s with ⟨o, s'⟩
    rw [hp, ht] at h1 h2
    cases h1
    obtain ⟨m, s2, hg, hm⟩ := ih h2
    refine ⟨m + 1, s2, hg, fun f hf => ?_⟩
    obtain ⟨f, rfl⟩ := Nat.exists_eq_add_of_le' hf
    rw [show f + (m + 1) = (f + m) + 1 from rfl, bfsLvNext]
    simp only [hp]
    exact hm _ (by omega)
  | case3 t x t' ht =>
    intro s h
    obtain ⟨h1, h2⟩ := bfsLvStep_sim h
    rcases hp : bfsLvStep s with ⟨o, s'⟩
    rw [hp, ht] at h1 h2
    cases h1
    refine ⟨1, s', h2, fun f hf => ?_⟩
    obtain ⟨f, rfl⟩ := Nat.exists_eq_add_of_le' hf
    simp only [bfsLvNext, hp]

theorem bfsLvNext_sim (s : BfsLv N I) (t : Bfs.LeavesState N) (o : Option V) (t' : Bfs.LeavesState N)
    (h : BfsLvRel s t) (hn : (Except.ok (Bfs.leavesNext t) : Except Panic _) = .ok (o, t')) :
    ∃ m o1 s', o1 = o ∧ BfsLvRel s' t' ∧ ∀ fuel, m ≤ fuel → bfsLvNext fuel s = .ok (o1, s') := by
  obtain ⟨m, s', hg, hm⟩ := bfsLvNext_run t h
  rw [Except.ok.injEq] at hn
  rw [hn] at hg hm
  exact ⟨m, _, s', rfl, hg, hm⟩

/-- The states of the two breadth-first leaves iterators with ancestors describe each other.  The root has children if
it is still to come. -/
def BfsLvAncRel (s : BfsLvAnc N V I) (t : Bfs.AncState N V) : Prop :=
  s.isRoot = t.isRoot ∧ s.cs = t.cs ∧ PeekL s.queue t.queue ∧ (t.isRoot = true → ∃ n ns q, t.queue = (n :: ns) :: q)

theorem bfsLvAncLoop_sim (isRoot : Bool) (st' : List (List N)) (cs : Bfs.CacheState V) : ∀ {st : List (Peek N I)}
    (t' : Bfs.AncState N V), PeekL st st' → (isRoot = true → ∃ n ns q, st' = (n :: ns) :: q) →
      Bfs.lvLoop isRoot st' cs = .ok t' →
    ∃ m s', BfsLvAncRel s' t' ∧ ∀ f, m ≤ f → bfsLvAncLoop f isRoot st cs = .ok s' := by
  fun_induction Bfs.lvLoop isRoot st' cs with
  | case1 isRoot cs =>
    intro st t' h hr hl
    cases h
    cases hl
    refine ⟨1, ⟨isRoot, { cs with items := [] }, []⟩, ⟨rfl, rfl, .nil, fun h => ?_⟩, fun f hf => ?_⟩
    · exact hr h
    · obtain ⟨f, rfl⟩ := Nat.exists_eq_add_of_le' hf
      rw [bfsLvAncLoop]
  | case2 isRoot cs it q e he =>
    intro st t' h hr hl
    cases hl
  | case3 isRoot cs q cs1 hset n ns hk =>
    intro st t' h hr hl
    cases hl
    cases h with
    | cons hi hs =>
      next i st =>
      obtain ⟨h1, h2⟩ := peek_cons hi
      rcases hp : i.next with ⟨o, i'⟩
      rw [hp] at h1 h2
      cases h1
      obtain ⟨h3, h4⟩ := peek_ahead (splitI_gives n)
      refine ⟨1, ⟨false, _, (i' :: st) ++ [Peek.ahead (splitI n).2]⟩,
        ⟨rfl, rfl, List.rel_append (.cons h2 hs) (.cons h3 .nil), fun h => by cases h⟩, fun f hf => ?_⟩
      obtain ⟨f, rfl⟩ := Nat.exists_eq_add_of_le' hf
      rw [bfsLvAncLoop]
      simp [hset, hp, h4, hk, splitI_value]
  | case4 isRoot cs q cs1 hset n ns hk ih =>
    intro st t' h hr hl
    cases h with
    | cons hi hs =>
      next i st =>
      obtain ⟨h1, h2⟩ := peek_cons hi
      rcases hp : i.next with ⟨o, i'⟩
      rw [hp] at h1 h2
      cases h1
      obtain ⟨h3, h4⟩ := peek_ahead (splitI_gives n)
      obtain ⟨m, s', hg, hm⟩ := ih t' (List.rel_append (.cons h2 hs) (.cons h3 .nil)) (fun h => by cases h) hl
      refine ⟨m + 1, s', hg, fun f hf => ?_⟩
      obtain ⟨f, rfl⟩ := Nat.exists_eq_add_of_le' hf
      rw [show f + (m + 1) = (f + m) + 1 from rfl, bfsLvAncLoop]
      simp only [hset, hp, h4, hk, splitI_value]
      exact hm _ (by omega)
  | case5 cs q cs1 hset =>
    intro st t' h hr hl
    obtain ⟨n, ns, q', hq⟩ := hr rfl
    cases hq
  | case6 isRoot cs q cs1 hset hroot e he =>
    intro st t' h hr hl
    cases hl
  | case7 isRoot cs q cs1 hset hroot cs2 hret ih =>
    intro st t' h hr hl
    cases h with
    | cons hi hs =>
      next i st =>
      have := peek_nil hi
      rcases hp : i.next with ⟨o, i'⟩
      rw [hp] at this
      cases this
      obtain ⟨m, s', hg, hm⟩ := ih t' hs (fun h => absurd h hroot) hl
      refine ⟨m + 1, s', hg, fun f hf => ?_⟩
      obtain ⟨f, rfl⟩ := Nat.exists_eq_add_of_le' hf
      rw [show f + (m + 1) = (f + m) + 1 from rfl, bfsLvAncLoop]
      simp only [hset, hp, hroot, hret]
      simpa [hroot] using hm (f + m) (by omega)

theorem bfsLvAncNext_sim (s : BfsLvAnc N V I) (t : Bfs.AncState N V) (o : Option (List V)) (t' : Bfs.AncState N V)
    (h : BfsLvAncRel s t) (hn : Bfs.lvNext t = .ok (o, t')) :
    ∃ m o1 s', o1 = o ∧ BfsLvAncRel s' t' ∧ ∀ fuel, m ≤ fuel → bfsLvAncNext fuel s = .ok (o1, s') := by
  refine streamE_sim BfsLvAncRel Eq (fun s t h => by rw [bfsLvAncGet, Bfs.ancGet, h.2.1]) ?_ s t o t' h hn
  rintro ⟨ir, cs, q⟩ ⟨ir', cs', q'⟩ t' ⟨rfl, rfl, hq, hr⟩ ha
  exact bfsLvAncLoop_sim _ q' _ t' hq hr ha

end Poll

end TreeIter
