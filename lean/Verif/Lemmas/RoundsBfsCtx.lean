import Verif.Lemmas.RoundsCtx
import Verif.Lemmas.BfsCtx

/-!
# The rounds of the breadth-first iterator with context: helper lemmas

The arguments are those for the iterator with ancestors.
-/

universe u v w

namespace TreeIter

variable {N : Type u} {V : Type v}

namespace Bfs

namespace CtxCache

theorem setTop_ancestors (s : CtxCache V) (cs : List (Option (Cache (V × Nat)))) : (s.setTop cs).ancestors = s.ancestors := by
  obtain ⟨a, p, st, c⟩ := s
  cases st <;> rfl

theorem setTop_stack_length (s : CtxCache V) (cs : List (Option (Cache (V × Nat)))) :
    (s.setTop cs).stack.length = s.stack.length := by
  obtain ⟨a, p, st, c⟩ := s
  cases st <;> rfl

theorem total_setTop (s : CtxCache V) (cs : List (Option (Cache (V × Nat)))) :
    (s.setTop cs).total + Cache.sizeL s.topChildren = s.total + Cache.sizeL cs := by
  obtain ⟨a, p, stack, cache⟩ := s
  cases stack with
  | nil => simp only [setTop, total, topChildren, Cache.setChildren, Cache.size_eq, Cache.children]; omega
  | cons t st =>
    simp only [setTop, total, topChildren, Cache.setChildren, List.map_cons, List.sum_cons]
    rw [Cache.size_eq t, Cache.size_eq (.mk _ cs)]
    simp only [Cache.children]
    omega

/-- `giveBack` and `popToParent` together. -/
theorem moveUp_facts {s s1 : CtxCache V} (h : s.giveBack = .ok s1) :
    Within 1 s.ancestors s1.popToParent.ancestors ∧ s1.popToParent.total = s.total ∧
      (s.ancestors.length ≤ s.stack.length + 1 → s1.popToParent.ancestors.length ≤ s1.popToParent.stack.length + 1) := by
  obtain ⟨anc, path, stack, cache⟩ := s
  have hz : ∀ (o : Option (V × Nat)) (t : Cache (V × Nat)), (Cache.mk o t.children).size = t.size := fun o t => by
    rw [Cache.size_eq t, Cache.size_eq (.mk o t.children), Cache.children]
  rcases anc with _ | ⟨x, _ | ⟨y, anc⟩⟩ <;> rcases stack with _ | ⟨t, _ | ⟨t', stack⟩⟩ <;> rcases path with _ | ⟨p, path⟩ <;>
    simp only [giveBack, Except.ok.injEq, reduceCtorEq] at h <;> subst h <;>
    refine ⟨?_, ?_, ?_⟩
  all_goals first
    | exact Within.refl _ _
    | exact Within.pop _ _
    | skip
  all_goals simp only [popToParent, pushTop, setTop, topChildren, total, Cache.setChildren, List.map_cons, List.map_nil,
      List.sum_cons, List.sum_nil, List.length_cons, List.length_nil]
  all_goals try rw [Cache.size_eq (.mk _ (_ ++ _)), Cache.children, sizeL_append]
  all_goals try simp only [Cache.sizeL, Cache.sizeO, hz]
  all_goals try rw [Cache.size_eq cache]
  all_goals try rw [Cache.size_eq t']
  all_goals omega

theorem advanceRounds_le (start fuel : Nat) (s : CtxCache V) : advanceRounds start fuel s ≤ fuel := by
  induction fuel generalizing s with
  | zero => simp [advanceRounds]
  | succ fuel ih =>
    rw [advanceRounds]
    split
    · omega
    · split
      · omega
      · dsimp only
        split
        · omega
        · exact Nat.succ_le_succ (ih _)
    · split
      · omega
      · exact Nat.succ_le_succ (ih _)

theorem advanceDfs_facts (start fuel : Nat) (s : CtxCache V) : ∀ s', advanceDfs start fuel s = .ok s' →
    Within (advanceRounds start fuel s) s.ancestors s'.ancestors ∧ s'.total = s.total ∧
      (s.ancestors.length ≤ s.stack.length + 1 → s'.ancestors.length ≤ s'.stack.length + 1) := by
  induction fuel generalizing s with
  | zero => intro s' h; cases h
  | succ fuel ih =>
    intro s' h
    rw [advanceDfs] at h
    rw [advanceRounds]
    split at h <;> rename_i hc0 <;> rw [hc0]
    · cases h; exact ⟨Within.refl _ _, rfl, id⟩
    · rename_i c rest
      simp only
      split at h
      · cases h
      · rename_i v p hv
        have ht := total_setTop s rest
        rw [hc0, Cache.sizeL, Cache.sizeO, Cache.size_eq] at ht
        have e : total (⟨v :: (s.setTop rest).ancestors, p :: (s.setTop rest).path, .mk none c.children :: (s.setTop rest).stack,
            (s.setTop rest).cache⟩ : CtxCache V) = s.total := by
          have e1 : Cache.size (.mk none c.children) = 1 + Cache.sizeL c.children := Cache.size_eq _
          simp only [total, List.map_cons, List.sum_cons] at ht ⊢
          omega
        have g : s.ancestors.length ≤ s.stack.length + 1 → (v :: (s.setTop rest).ancestors).length ≤
            (Cache.mk none c.children :: (s.setTop rest).stack).length + 1 := by
          simp only [List.length_cons, setTop_ancestors, setTop_stack_length]
          omega
        have w : Within 1 s.ancestors (v :: (s.setTop rest).ancestors) := by
          rw [setTop_ancestors]
          exact Within.push v s.ancestors
        simp only [hv]
        by_cases hc : (c.children.isEmpty &&
            decide ((v :: (s.setTop rest).ancestors).length ≥ start)) = true
        · rw [if_pos hc] at h ⊢
          cases h
          exact ⟨w, e, g⟩
        · rw [if_neg hc] at h ⊢
          have := ih _ s' h
          exact ⟨(w.trans this.1).mono (by omega), this.2.1.trans e, fun hg => this.2.2 (g hg)⟩
    · rename_i rest
      simp only
      split at h
      · cases h
      · rename_i s1 h1
        have h2 := moveUp_facts h1
        have h3 := ih _ s' h
        have ht := total_setTop s (if rest.isEmpty then [] else rest ++ [none])
        rw [hc0, Cache.sizeL, Cache.sizeO] at ht
        have e : Cache.sizeL (if rest.isEmpty then [] else rest ++ [none]) = Cache.sizeL rest := by
          cases rest with
          | nil => rfl
          | cons a rest => simp [sizeL_append, Cache.sizeL, Cache.sizeO]
        rw [e] at ht
        simp only [h1]
        rw [setTop_ancestors, setTop_stack_length] at h2
        exact ⟨(h2.1.trans h3.1).mono (by omega), by omega, fun hg => h3.2.2 (h2.2.2 hg)⟩

theorem dropSpent_facts (st : List (Cache (V × Nat))) (anc : List V) (path : List Nat) :
    Within (CacheState.dropRounds st) anc (dropSpent st anc path).2.1 ∧
      CacheState.dropRounds st + ((dropSpent st anc path).1.map Cache.size).sum ≤ (st.map Cache.size).sum ∧
      (anc.length ≤ st.length + 1 → (dropSpent st anc path).2.1.length ≤ (dropSpent st anc path).1.length + 1) := by
  fun_induction dropSpent st anc path with
  | case1 t st anc path h => rw [CacheState.dropRounds, if_pos h]; exact ⟨Within.refl _ _, by simp, id⟩
  | case2 t st anc path h ih =>
    rw [CacheState.dropRounds, if_neg h]
    have := Cache.size_eq t
    refine ⟨((Within.tail anc).trans ih.1).mono (by omega), by simp only [List.map_cons, List.sum_cons]; omega,
      fun hg => ih.2.2 ?_⟩
    simp only [List.length_tail, List.length_cons] at hg ⊢
    omega
  | case3 => exact ⟨Within.refl _ _, by simp [CacheState.dropRounds], id⟩

theorem retireRounds_le (s : CtxCache V) : s.retireRounds ≤ 2 * s.total + 2 := by
  unfold retireRounds
  split
  · have h := advanceRounds_le (s.setTop (none :: s.topChildren)).ancestors.length
      (2 * (s.setTop (none :: s.topChildren)).total + 2) (s.setTop (none :: s.topChildren))
    have ht := total_setTop s (none :: s.topChildren)
    rw [Cache.sizeL, Cache.sizeO] at ht
    dsimp only
    omega
  · have hd := (dropSpent_facts s.stack s.ancestors s.path).2.1
    generalize dropSpent s.stack s.ancestors s.path = d at *
    obtain ⟨st, anc, path⟩ := d
    have h := advanceRounds_le anc.length (2 * total ⟨anc, path, st, s.cache⟩ + 2) ⟨anc, path, st, s.cache⟩
    dsimp only at hd ⊢
    simp only [total] at h ⊢
    omega

theorem retire_facts {s s' : CtxCache V} (h : s.retire = .ok s') :
    Within s.retireRounds s.ancestors s'.ancestors ∧ s'.total ≤ s.total ∧
      (s.ancestors.length ≤ s.stack.length + 1 → s'.ancestors.length ≤ s'.stack.length + 1) := by
  unfold retire at h
  unfold retireRounds
  by_cases hc : (!s.topChildren.isEmpty) = true
  · simp only [if_pos hc] at h ⊢
    have h1 := advanceDfs_facts _ _ _ _ h
    have ht := total_setTop s (none :: s.topChildren)
    rw [Cache.sizeL, Cache.sizeO] at ht
    have w := h1.1
    rw [setTop_ancestors] at w
    refine ⟨w.mono (by simp [setTop_ancestors]), by omega, fun hg => h1.2.2 ?_⟩
    rw [setTop_ancestors, setTop_stack_length]
    exact hg
  · simp only [if_neg hc] at h ⊢
    have hd := dropSpent_facts s.stack s.ancestors s.path
    generalize dropSpent s.stack s.ancestors s.path = d at *
    obtain ⟨st, anc, path⟩ := d
    have h1 := advanceDfs_facts _ _ _ _ h
    refine ⟨hd.1.trans h1.1, ?_, fun hg => h1.2.2 (hd.2.2 hg)⟩
    rw [h1.2.1]
    have := hd.2.1
    simp only [total] at this ⊢
    omega

/-- Whether the last ancestor has yet to be put into the cache. -/
def hot (s : CtxCache V) : Nat := if s.ancestors.length = s.stack.length + 2 then 1 else 0

theorem settle_facts {cs cs' : CtxCache V} (h : settle cs = .ok cs') : Within 1 cs.ancestors cs'.ancestors ∧
    (cs.ancestors.length ≤ cs.stack.length + 2 →
      cs'.total = cs.total + cs.hot ∧ cs'.ancestors.length ≤ cs'.stack.length + 1) := by
  unfold settle at h
  split at h
  · rename_i hh
    rw [hot, if_pos hh]
    obtain ⟨anc, path, stack, cache⟩ := cs
    rcases anc with _ | ⟨x, _ | ⟨y, _ | ⟨z, anc⟩⟩⟩
    · simp at hh
    · simp at hh
    · simp only [popItem] at h
      split at h
      · cases h
      · cases h
        refine ⟨Within.pop _ _, fun _ => ⟨?_, by simp⟩⟩
        simp only [total, Cache.size_pushBack, Cache.sizeO, Cache.size, Cache.sizeL]
        omega
    · simp only [popItem] at h
      simp only [List.length_cons] at hh
      split at h
      · split at h
        · cases h
        · cases h
          rename_i hk _ _
          refine ⟨Within.pop _ _, fun _ => ⟨?_, by simp only [List.length_cons, List.length_modify]; omega⟩⟩
          simp only [total]
          rw [CacheState.sum_modify _ _ _ (by omega)]
          simp only [Cache.size, Cache.sizeL]
          omega
      · cases h
  · rename_i hh
    cases h
    rw [hot, if_neg hh]
    exact ⟨Within.refl _ _, fun _ => ⟨rfl, by omega⟩⟩

end CtxCache

/-- The child iterators of a state, with that of the node on display. -/
def ctxQueue (s : CtxState V (List N) N) : List (List N) := s.queue ++ (s.children.map fun cs => [cs]).getD []

open CtxCache in
theorem ctxLoop_facts [TreeNode N V] (M : Nat) (q : List (List N)) : ∀ (cc : CtxCache V) (c : Nat),
    (∀ s', ctxLoop q cc c = .ok s' → s'.isRoot = false ∧
        (s'.cc.ancestors ≠ [] → Within (ctxLoopRounds q cc + 1) cc.ancestors s'.cc.ancestors) ∧
        loopPolls q + debt (ctxQueue s') ≤ debt q) ∧
    (cc.ancestors.length ≤ cc.stack.length + 2 → cc.total + cc.hot + stackNodes q ≤ M →
      ctxLoopRounds q cc ≤ roundStock M q ∧
        ∀ s', ctxLoop q cc c = .ok s' → (s'.cc.ancestors.length ≤ s'.cc.stack.length + 2 ∧
          s'.cc.total + s'.cc.hot + stackNodes (ctxQueue s') ≤ M) ∧
            ctxLoopRounds q cc + roundStock M (ctxQueue s') ≤ roundStock M q) := by
  induction q with
  | nil =>
    intro cc c
    have hno : ∀ s', ctxLoop ([] : List (List N)) cc c ≠ .ok s' := by
      intro s' h
      rw [ctxLoop] at h
      split at h <;> cases h
    refine ⟨fun s' h => absurd h (hno s'), fun hg hM => ⟨?_, fun s' h => absurd h (hno s')⟩⟩
    rw [ctxLoopRounds]
    split <;> simp [roundStock, stackNodes]
  | cons ns q ih =>
    intro cc c
    rw [ctxLoopRounds, ctxLoop]
    cases hs : cc.settle with
    | error e =>
      refine ⟨fun s' h => (by cases h), fun hg hM => ⟨?_, fun s' h => (by cases h)⟩⟩
      simp only [roundStock]
      omega
    | ok cc1 =>
      obtain ⟨w1, t1⟩ := settle_facts hs
      cases ns with
      | cons n ns =>
        obtain ⟨e1, e2⟩ := roundStock_take (V := V) M n ns q
        simp only
        have e3 := debt_take (V := V) n ns q
        have e4 : debt (kids n :: ns :: q) = debt ((ns :: q) ++ [kids n]) := by
          have h1 := debt_append [kids n] (ns :: q)
          have h2 := debt_append (ns :: q) [kids n]
          rw [List.singleton_append] at h1
          omega
        cases hk : checkedSucc c with
        | error e => exact ⟨fun s' h => (by cases h), fun hg hM => ⟨by omega, fun s' h => (by cases h)⟩⟩
        | ok c' =>
          simp only
          refine ⟨fun s' h => ?_, fun hg hM => ⟨by omega, fun s' h => ?_⟩⟩
          · cases h
            refine ⟨rfl, fun _ => w1.trans (Within.push _ _), ?_⟩
            have : ctxQueue (⟨false, ⟨val n :: cc1.ancestors, c :: cc1.path, cc1.stack, cc1.cache⟩, some (kids n), ns :: q, c'⟩ :
              CtxState V (List N) N) = (ns :: q) ++ [kids n] := rfl
            rw [this, loopPolls]
            omega
          · cases h
            obtain ⟨t1, g1⟩ := t1 hg
            have hh : hot ⟨val n :: cc1.ancestors, c :: cc1.path, cc1.stack, cc1.cache⟩ ≤ 1 := by unfold hot; split <;> omega
            have : ctxQueue (⟨false, ⟨val n :: cc1.ancestors, c :: cc1.path, cc1.stack, cc1.cache⟩, some (kids n), ns :: q, c'⟩ :
              CtxState V (List N) N) = (ns :: q) ++ [kids n] := rfl
            rw [this]
            refine ⟨⟨by simp only [List.length_cons]; omega, ?_⟩, by omega⟩
            change cc1.total + hot ⟨val n :: cc1.ancestors, c :: cc1.path, cc1.stack, cc1.cache⟩ +
              stackNodes ((ns :: q) ++ [kids n]) ≤ M
            omega
      | nil =>
        have e1 := roundStock_empty (V := V) M q
        have e2 := stackNodes_empty (V := V) q
        have e3 := debt_empty (V := V) q
        have r1 := retireRounds_le cc1
        simp only
        cases hr : cc1.retire with
        | error e =>
          refine ⟨fun s' h => (by cases h), fun hg hM => ⟨?_, fun s' h => (by cases h)⟩⟩
          obtain ⟨t1, g1⟩ := t1 hg
          simp only
          omega
        | ok cc2 =>
          obtain ⟨w2, t2, g2⟩ := retire_facts hr
          simp only
          by_cases hq : q.isEmpty
          · simp only [hq, if_true]
            obtain rfl := List.isEmpty_iff.1 hq
            have hz : ctxQueue (⟨false, { cc2 with ancestors := [] }, none, [], 0⟩ : CtxState V (List N) N) = [] := rfl
            refine ⟨fun s' h => ?_, fun hg hM => ?_⟩
            · cases h
              rw [hz]
              exact ⟨rfl, fun h => by simp at h, by rw [loopPolls, loopPolls, debt_empty]; omega⟩
            · obtain ⟨t1, g1⟩ := t1 hg
              refine ⟨by omega, fun s' h => ?_⟩
              cases h
              rw [hz]
              refine ⟨⟨by simp, ?_⟩, by omega⟩
              have : total { cc2 with ancestors := ([] : List V) } = cc2.total := rfl
              rw [this]
              simp only [hot, List.length_nil]
              rw [if_neg (by omega)]
              omega
          · simp only [hq, Bool.false_eq_true, if_false]
            obtain ⟨i1, i2⟩ := ih cc2 0
            refine ⟨fun s' h => ?_, fun hg hM => ?_⟩
            · obtain ⟨j1, j2, j3⟩ := i1 s' h
              refine ⟨j1, fun hne => ((w1.trans w2).trans (j2 hne)).mono (by omega), ?_⟩
              rw [loopPolls, debt_empty]
              omega
            · obtain ⟨t1, g1⟩ := t1 hg
              have g2 := g2 g1
              have hh : cc2.hot = 0 := by rw [hot, if_neg (by omega)]
              obtain ⟨k1, k2⟩ := i2 (by omega) (by omega)
              refine ⟨by omega, fun s' h => ?_⟩
              obtain ⟨j1, j2⟩ := k2 s' h
              exact ⟨j1, by omega⟩

/-- Cache and nodes to come are together no more than `M`. -/
def CtxFits [TreeNode N V] (M : Nat) (s : CtxState V (List N) N) : Prop :=
  s.cc.ancestors.length ≤ s.cc.stack.length + 2 ∧ s.cc.total + s.cc.hot + stackNodes (ctxQueue s) ≤ M

/-- Stock of the rounds of `Bfs.ctxNext`. -/
def ctxRoundStock [TreeNode N V] (M : Nat) (s : CtxState V (List N) N) : Nat := roundStock M (ctxQueue s)

/-- Stock of the polls of `Bfs.ctxNext`. -/
def ctxStock [TreeNode N V] (s : CtxState V (List N) N) : Nat := debt (ctxQueue s)

/-- What a call that does not panic is. -/
theorem ctxNext_cases [SplitNode N V] {s s' : CtxState V (List N) N} {o : Option (Ctx V (List N))}
    (h : ctxNext s = .ok (o, s')) : o = ctxGet s' ∧
      ((s.isRoot = true ∧ s' = { s with isRoot := false }) ∨ (s.isRoot = false ∧ s.cc.ancestors = [] ∧ s' = s) ∨
        (s.isRoot = false ∧ s.cc.ancestors ≠ [] ∧
          ∃ cs, s.children = some cs ∧ ctxLoop (s.queue ++ [cs]) s.cc s.counter = .ok s')) := by
  obtain ⟨r, cc, ch, q, c⟩ := s
  simp only [ctxNext, streamNextE, ctxAdvance] at h
  cases r with
  | true =>
    simp only [if_true, Except.ok.injEq, Prod.mk.injEq] at h
    obtain ⟨rfl, rfl⟩ := h
    exact ⟨rfl, .inl ⟨rfl, rfl⟩⟩
  | false =>
    simp only [Bool.false_eq_true, if_false] at h
    by_cases ha : cc.ancestors.isEmpty
    · simp only [ha, if_true, Except.ok.injEq, Prod.mk.injEq] at h
      obtain ⟨rfl, rfl⟩ := h
      exact ⟨rfl, .inr (.inl ⟨rfl, List.isEmpty_iff.1 ha, rfl⟩)⟩
    · simp only [ha, Bool.false_eq_true, if_false] at h
      cases ch with
      | none => simp at h
      | some cs =>
        simp only at h
        cases hc : ctxLoop (q ++ [cs]) cc c with
        | error e => simp [hc] at h
        | ok s1 =>
          simp only [hc, Except.ok.injEq, Prod.mk.injEq] at h
          obtain ⟨rfl, rfl⟩ := h
          exact ⟨rfl, .inr (.inr ⟨rfl, by simpa using ha, cs, rfl, hc⟩)⟩

theorem ctxRounds_loop [SplitNode N V] {s : CtxState V (List N) N} {cs : List N} (hr : s.isRoot = false)
    (ha : s.cc.ancestors ≠ []) (hc : s.children = some cs) : ctxRounds s = ctxLoopRounds (s.queue ++ [cs]) s.cc ∧
      ctxPolls s = loopPolls (s.queue ++ [cs]) ∧ ctxQueue s = s.queue ++ [cs] := by
  have : s.cc.ancestors.isEmpty = false := by simpa using ha
  simp [ctxRounds, ctxPolls, ctxQueue, hr, this, hc]

theorem ctxNext_paid [TreeNode N V] (s : CtxState V (List N) N) :
    ctxPolls s ≤ ctxStock s ∧ ∀ o s', ctxNext s = .ok (o, s') → ctxPolls s + ctxStock s' ≤ ctxStock s := by
  constructor
  · unfold ctxPolls
    split
    · omega
    · split
      · omega
      · split
        · omega
        · rename_i cs hc
          rw [ctxStock, ctxQueue, hc]
          exact loopPolls_le _
  · intro o s' h
    rcases (ctxNext_cases h).2 with ⟨h1, rfl⟩ | ⟨h1, h2, rfl⟩ | ⟨h1, h2, cs, h3, h4⟩
    · have : ctxStock { s with isRoot := false } = ctxStock s := rfl
      rw [this]
      simp [ctxPolls, h1]
    · simp [ctxPolls, h1, h2]
    · obtain ⟨-, e2, e3⟩ := ctxRounds_loop h1 h2 h3
      have := ((ctxLoop_facts 0 _ _ _).1 s' h4).2.2
      rw [e2, ctxStock, ctxStock, e3]
      exact this

theorem ctxNext_bounded [TreeNode N V] (M : Nat) (s : CtxState V (List N) N) (hf : CtxFits M s) :
    ctxRounds s ≤ ctxRoundStock M s ∧
      ∀ o s', ctxNext s = .ok (o, s') → CtxFits M s' ∧ ctxRounds s + ctxRoundStock M s' ≤ ctxRoundStock M s := by
  constructor
  · unfold ctxRounds
    split
    · omega
    · split
      · omega
      · split
        · omega
        · rename_i cs hc
          have hq : ctxQueue s = s.queue ++ [cs] := by simp [ctxQueue, hc]
          rw [ctxRoundStock, hq]
          exact ((ctxLoop_facts M _ s.cc s.counter).2 hf.1 (hq ▸ hf.2)).1
  · intro o s' h
    rcases (ctxNext_cases h).2 with ⟨h1, rfl⟩ | ⟨h1, h2, rfl⟩ | ⟨h1, h2, cs, h3, h4⟩
    · refine ⟨hf, ?_⟩
      have : ctxRoundStock M { s with isRoot := false } = ctxRoundStock M s := rfl
      rw [this]
      simp [ctxRounds, h1]
    · exact ⟨hf, by simp [ctxRounds, h1, h2]⟩
    · obtain ⟨e1, -, e3⟩ := ctxRounds_loop h1 h2 h3
      have := ((ctxLoop_facts M _ s.cc s.counter).2 hf.1 (e3 ▸ hf.2)).2 s' h4
      rw [e1, ctxRoundStock, ctxRoundStock, e3]
      exact this

theorem ctxStock_total [TreeNode N V] (k : Nat) (s : CtxState V (List N) N) :
    totalOverE ctxNext ctxPolls k s ≤ ctxStock s :=
  totalOverE_paid (φ := ctxStock) (fun s => (ctxNext_paid s).1) (fun s => (ctxNext_paid s).2) k s

theorem ctxRounds_total [TreeNode N V] (n : N) (path : List Nat) (k : Nat) :
    totalOverE ctxNext ctxRounds k (CtxState.new n path) ≤
      2 * (treeOf n).size * (treeOf n).size + 4 * (treeOf n).size := by
  have hm : (treeOf n).size = stackNodes [kids n] + 1 := by
    rw [treeOf, size_map, size_unfold]; simp [stackNodes]; omega
  have hq : ctxQueue (CtxState.new n path) = [kids n] := rfl
  have h0 : CtxFits (treeOf n).size (CtxState.new n path) := ⟨by simp [CtxState.new], by
    rw [hq]
    simp [CtxState.new, CtxCache.total, CtxCache.hot, Cache.size, Cache.sizeL]
    omega⟩
  have h := totalOverE_paidI (next := ctxNext) (cost := ctxRounds) (φ := ctxRoundStock (treeOf n).size)
    (CtxFits (N := N) (treeOf n).size) (fun s hs => (ctxNext_bounded _ s hs).1)
    (fun s o s' hs h => (ctxNext_bounded _ s hs).2 o s' h) k (CtxState.new n path) h0
  refine h.trans ?_
  simp only [ctxRoundStock, hq, roundStock, List.length_cons, List.length_nil]
  rw [← hm]
  have : (treeOf n).size * (2 * (treeOf n).size + 3) = 2 * (treeOf n).size * (treeOf n).size + 3 * (treeOf n).size := by ring
  omega

/-- The walk from the slice on display over the slices to come costs at least its length. -/
theorem ctxWalk_le [TreeNode N V] [DecidableEq V] (l : List (Ctx V (List N))) :
    ∀ s : CtxState V (List N) N, s.isRoot = false → (∀ k < l.length, nthCallE ctxNext k s = .ok l[k]?) →
      walkLength (s.cc.ancestors.reverse :: l.map Ctx.ancestors) ≤ totalOverE ctxNext ctxRounds l.length s + l.length := by
  induction l with
  | nil => intro s _ _; simp [walkLength]
  | cons a l ih =>
    intro s hr h
    have h0 := h 0 (by simp)
    cases hn : ctxNext s with
    | error e => simp [nthCallE, stateAfterE, hn] at h0
    | ok r =>
      obtain ⟨o, s'⟩ := r
      have ho : o = some a := by simpa [nthCallE, stateAfterE, hn] using h0
      subst ho
      obtain ⟨h1, h2⟩ := ctxNext_cases hn
      have ha : a.ancestors = s'.cc.ancestors.reverse ∧ s'.cc.ancestors ≠ [] := by
        unfold ctxGet at h1
        split at h1
        · cases h1
        · rename_i hne
          cases h1
          exact ⟨rfl, by simpa using hne⟩
      have key : Within (ctxRounds s + 1) s.cc.ancestors s'.cc.ancestors ∧ s'.isRoot = false := by
        rcases h2 with ⟨h3, -⟩ | ⟨-, -, rfl⟩ | ⟨h3, h4, cs, h5, h6⟩
        · rw [hr] at h3; cases h3
        · exact ⟨Within.refl _ _, hr⟩
        · obtain ⟨f1, f2, -⟩ := (ctxLoop_facts 0 _ _ _).1 s' h6
          rw [(ctxRounds_loop h3 h4 h5).1]
          exact ⟨f2 ha.2, f1⟩
      have h3 := sliceDist_le key.1
      have h4 := ih s' key.2 (fun k hk => by
        have := h (k + 1) (by simpa using hk)
        rw [nthCallE, stateAfterE, hn] at this
        simpa [nthCallE] using this)
      simp only [List.map_cons, walkLength, totalOverE, hn, List.length_cons]
      rw [ha.1]
      omega

/-! ## Binary nodes -/

theorem binScan_paid [BinNode N V] (it : List (Option N)) (c : Nat) (q : List (List (Option N))) :
    (∀ n ss c', binScan it c = .ok (some n, ss, c') →
      slotPolls (it :: q) + slotsDebt ((ss :: q) ++ [slots n]) = slotsDebt (it :: q)) ∧
    (∀ ss c', binScan it c = .ok (none, ss, c') → slotPolls (it :: q) + slotsDebt q = slotPolls q + slotsDebt (it :: q)) := by
  fun_induction binScan it c with
  | case1 c =>
    refine ⟨fun n ss c' h => by simp at h, fun ss c' h => ?_⟩
    rw [slotPolls, slotsDebt_empty]
    omega
  | case2 => exact ⟨fun n ss c' h => (by cases h), fun ss c' h => (by cases h)⟩
  | case3 c ss c1 hk ih =>
    refine ⟨fun n ss' c' h => ?_, fun ss' c' h => ?_⟩
    · have := ih.1 n ss' c' h
      rw [slotPolls, slotsDebt_none]
      omega
    · have := ih.2 ss' c' h
      rw [slotPolls, slotsDebt_none]
      omega
  | case4 m ss c =>
    refine ⟨fun n ss' c' h => ?_, fun ss' c' h => by simp at h⟩
    simp only [Except.ok.injEq, Prod.mk.injEq, Option.some.injEq] at h
    obtain ⟨rfl, rfl, rfl⟩ := h
    have h1 := slotsDebt_append [slots m] (ss :: q)
    have h2 := slotsDebt_append (ss :: q) [slots m]
    rw [List.singleton_append] at h1
    rw [slotPolls, slotsDebt_some]
    omega

/-- The slot iterators of a state, with that of the node on display. -/
def binCtxQueue (s : CtxState V (Option N × Option N) (Option N)) : List (List (Option N)) :=
  s.queue ++ (s.children.map fun cs => [[cs.1, cs.2]]).getD []

/-- Stock of the polls of `Bfs.binCtxNext`. -/
def binCtxStock [BinNode N V] (s : CtxState V (Option N × Option N) (Option N)) : Nat := slotsDebt (binCtxQueue s)

theorem binCtxLoop_paid [BinNode N V] (q : List (List (Option N))) : ∀ (cc : CtxCache V) (c : Nat) s',
    binCtxLoop q cc c = .ok s' → slotPolls q + binCtxStock s' ≤ slotsDebt q := by
  induction q with
  | nil =>
    intro cc c s' h
    rw [binCtxLoop] at h
    split at h <;> cases h
  | cons it q ih =>
    intro cc c s' h
    rw [binCtxLoop] at h
    split at h
    · cases h
    · rename_i cc1 _
      simp only at h
      obtain ⟨p1, p2⟩ := binScan_paid it c q
      split at h
      · cases h
      · rename_i n ss c1 hs
        split at h
        · cases h
        · cases h
          exact Nat.le_of_eq (p1 n ss c1 hs)
      · rename_i ss c1 hs
        have p2 := p2 ss c1 hs
        have hle := slotPolls_le q
        split at h
        · cases h
        · rename_i cc2 _
          split at h
          · rename_i hq
            obtain rfl := List.isEmpty_iff.1 hq
            cases h
            rw [slotPolls] at p2
            have : binCtxStock (⟨false, { cc2 with ancestors := [] }, none, [], 0⟩ :
              CtxState V (Option N × Option N) (Option N)) = 0 := rfl
            rw [slotsDebt_nil] at p2
            omega
          · have := ih _ _ s' h
            omega

theorem binCtxNext_paid [BinNode N V] (s : CtxState V (Option N × Option N) (Option N)) :
    binCtxPolls s ≤ binCtxStock s ∧ ∀ o s', binCtxNext s = .ok (o, s') → binCtxPolls s + binCtxStock s' ≤ binCtxStock s := by
  obtain ⟨r, cc, ch, q, c⟩ := s
  cases r with
  | true =>
    refine ⟨by simp [binCtxPolls], fun o s' h => ?_⟩
    simp only [binCtxNext, streamNextE, binCtxAdvance, if_true, Except.ok.injEq, Prod.mk.injEq] at h
    obtain ⟨-, rfl⟩ := h
    simp [binCtxPolls, binCtxStock, binCtxQueue]
  | false =>
    by_cases ha : cc.ancestors.isEmpty
    · refine ⟨by simp [binCtxPolls, ha], fun o s' h => ?_⟩
      simp only [binCtxNext, streamNextE, binCtxAdvance, ha, Bool.false_eq_true, if_false, if_true, Except.ok.injEq,
        Prod.mk.injEq] at h
      obtain ⟨-, rfl⟩ := h
      simp [binCtxPolls, ha]
    · cases ch with
      | none =>
        refine ⟨by simp [binCtxPolls, ha], fun o s' h => ?_⟩
        simp [binCtxNext, streamNextE, binCtxAdvance, ha] at h
      | some cs =>
        obtain ⟨l, r⟩ := cs
        have e1 : binCtxPolls (⟨false, cc, some (l, r), q, c⟩ : CtxState V (Option N × Option N) (Option N)) =
            slotPolls (q ++ [[l, r]]) := by simp [binCtxPolls, ha]
        have e2 : binCtxStock (⟨false, cc, some (l, r), q, c⟩ : CtxState V (Option N × Option N) (Option N)) =
            slotsDebt (q ++ [[l, r]]) := rfl
        rw [e1, e2]
        refine ⟨slotPolls_le _, fun o s' h => ?_⟩
        simp only [binCtxNext, streamNextE, binCtxAdvance, ha, Bool.false_eq_true, if_false] at h
        cases hc : binCtxLoop (q ++ [[l, r]]) cc c with
        | error e => simp [hc] at h
        | ok s1 =>
          simp only [hc, Except.ok.injEq, Prod.mk.injEq] at h
          obtain ⟨-, rfl⟩ := h
          exact binCtxLoop_paid _ _ _ _ hc

end Bfs

/-! ## Forks -/

theorem arityLt_forkArm (a h : Nat) : ArityLt (forkArm a h) := by
  induction h with
  | zero =>
    rw [Bfs.arityLt_iff]
    exact ⟨Nat.lt_of_lt_of_le (by decide : 0 < 1) (Nat.one_le_two_pow), fun c hc => by simp [forkArm, kids, SplitNode.split] at hc⟩
  | succ h ih =>
    rw [Bfs.arityLt_iff]
    refine ⟨Nat.lt_of_le_of_lt (m := 1) (Nat.le_refl 1) (by decide), fun c hc => ?_⟩
    obtain rfl : c = forkArm a h := by simpa [forkArm, kids, SplitNode.split] using hc
    exact ih

theorem arityLt_fork (h : Nat) : ArityLt (fork h) := by
  rw [Bfs.arityLt_iff]
  refine ⟨Nat.lt_of_le_of_lt (m := 2) (Nat.le_refl 2) (by decide), fun c hc => ?_⟩
  have : c = forkArm 1 h ∨ c = forkArm 2 h := by simpa [fork, kids, SplitNode.split] using hc
  rcases this with rfl | rfl
  · exact arityLt_forkArm 1 h
  · exact arityLt_forkArm 2 h

end TreeIter
