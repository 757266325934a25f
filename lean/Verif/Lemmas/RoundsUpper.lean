import Verif.Lemmas.RoundsBfs

/-!
# An upper bound for the rounds of the breadth-first iterator with ancestors: helper lemmas
-/

universe u v w

namespace TreeIter

variable {N : Type u} {V : Type v}

/-- Calls paid for out of a stock, as long as an invariant holds. -/
theorem totalOverE_paidI {S : Type u} {O : Type v} {next : S → Except Panic (Option O × S)} {cost φ : S → Nat} (I : S → Prop)
    (h : ∀ s, I s → cost s ≤ φ s) (h' : ∀ s o s', I s → next s = .ok (o, s') → I s' ∧ cost s + φ s' ≤ φ s) (k : Nat) :
    ∀ s, I s → totalOverE next cost k s ≤ φ s := by
  induction k with
  | zero => intro s _; simp [totalOverE]
  | succ k ih =>
    intro s hi
    simp only [totalOverE]
    cases hn : next s with
    | error e => simpa using h s hi
    | ok r =>
      obtain ⟨o, s'⟩ := r
      have h2 := h' s o s' hi hn
      have h1 := ih s' h2.1
      simp only
      omega

namespace Bfs

namespace Cache
variable {β : Type w}

theorem size_eq (c : Cache β) : c.size = 1 + sizeL c.children := by
  obtain ⟨v, cs⟩ := c
  rw [size, children]

theorem size_pushBack (c : Cache β) (d : Option (Cache β)) : (c.pushBack d).size = c.size + sizeO d := by
  rw [pushBack, size, sizeL_append, size_eq, sizeL, sizeL]
  omega

end Cache

namespace CacheState
variable {β : Type w}

theorem total_setTop (s : CacheState β) (cs : List (Option (Cache β))) :
    (s.setTop cs).total + Cache.sizeL s.topChildren = s.total + Cache.sizeL cs := by
  obtain ⟨items, stack, cache⟩ := s
  cases stack with
  | nil => simp only [setTop, total, topChildren, Cache.setChildren, Cache.size_eq, Cache.children]; omega
  | cons t st =>
    simp only [setTop, total, topChildren, Cache.setChildren, List.map_cons, List.sum_cons]
    rw [Cache.size_eq t, Cache.size_eq (.mk _ cs)]
    simp only [Cache.children]
    omega

theorem setTop_stack_length (s : CacheState β) (cs : List (Option (Cache β))) : (s.setTop cs).stack.length = s.stack.length := by
  obtain ⟨i, st, c⟩ := s
  cases st <;> rfl

theorem moveUp_total {s s' : CacheState β} (h : s.moveUp = .ok s') :
    s'.total = s.total ∧ (s.items.length ≤ s.stack.length + 1 → s'.items.length ≤ s'.stack.length + 1) := by
  obtain ⟨items, stack, cache⟩ := s
  rcases items with _ | ⟨x, _ | ⟨y, items⟩⟩ <;> rcases stack with _ | ⟨t, _ | ⟨t', stack⟩⟩ <;>
    simp only [moveUp, Except.ok.injEq, reduceCtorEq] at h <;> subst h <;>
    simp only [total, Cache.size_pushBack, Cache.sizeO, List.map_cons, List.map_nil, List.sum_cons, List.sum_nil,
      List.length_cons, List.length_nil] <;>
    refine ⟨?_, by omega⟩
  all_goals try rw [Cache.size_eq t, Cache.size_eq (.mk _ t.children)]
  all_goals try simp only [Cache.children]
  all_goals omega

theorem advanceRounds_le (start fuel : Nat) (s : CacheState β) : advanceRounds start fuel s ≤ fuel := by
  induction fuel generalizing s with
  | zero => simp [advanceRounds]
  | succ fuel ih =>
    rw [advanceRounds]
    split
    · omega
    · split
      · omega
      · dsimp only
        split
        · omega
        · have := ih; exact Nat.succ_le_succ (this _)
    · split
      · omega
      · exact Nat.succ_le_succ (ih _)

theorem advanceDfs_total (start fuel : Nat) (s : CacheState β) : ∀ s', advanceDfs start fuel s = .ok s' →
    s'.total = s.total ∧ (s.items.length ≤ s.stack.length + 1 → s'.items.length ≤ s'.stack.length + 1) := by
  induction fuel generalizing s with
  | zero => intro s' h; cases h
  | succ fuel ih =>
    intro s' h
    rw [advanceDfs] at h
    split at h <;> rename_i ht
    · cases h; exact ⟨rfl, id⟩
    · rename_i c rest
      split at h
      · cases h
      · rename_i v hv
        have ht := total_setTop s rest
        rw [‹s.topChildren = _›, Cache.sizeL, Cache.sizeO, Cache.size_eq] at ht
        have e : total (⟨v :: (s.setTop rest).items, .mk none c.children :: (s.setTop rest).stack, (s.setTop rest).cache⟩ :
            CacheState β) = s.total := by
          have e1 : Cache.size (.mk none c.children) = 1 + Cache.sizeL c.children := Cache.size_eq _
          simp only [total, List.map_cons, List.sum_cons] at ht ⊢
          omega
        have g : s.items.length ≤ s.stack.length + 1 →
            (v :: (s.setTop rest).items).length ≤ (Cache.mk none c.children :: (s.setTop rest).stack).length + 1 := by
          simp only [List.length_cons, setTop_items, setTop_stack_length]
          omega
        dsimp only at h
        split at h
        · cases h
          exact ⟨e, g⟩
        · have := ih _ s' h
          exact ⟨this.1.trans e, fun hg => this.2 (g hg)⟩
    · rename_i rest
      split at h
      · cases h
      · rename_i s1 h1
        have h2 := moveUp_total h1
        have h3 := ih _ s' h
        have ht := total_setTop s (if rest.isEmpty then [] else rest ++ [none])
        rw [‹s.topChildren = _›, Cache.sizeL, Cache.sizeO] at ht
        have e : Cache.sizeL (if rest.isEmpty then [] else rest ++ [none]) = Cache.sizeL rest := by
          cases rest with
          | nil => rfl
          | cons a rest => simp [sizeL_append, Cache.sizeL, Cache.sizeO]
        rw [e] at ht
        refine ⟨by omega, fun hg => h3.2 (h2.2 ?_)⟩
        rw [setTop_items, setTop_stack_length]
        exact hg

theorem dropSpent_total (st : List (Cache β)) (items : List β) :
    dropRounds st + ((dropSpent st items).1.map Cache.size).sum ≤ (st.map Cache.size).sum ∧
      (items.length ≤ st.length + 1 → (dropSpent st items).2.length ≤ (dropSpent st items).1.length + 1) := by
  fun_induction dropSpent st items with
  | case1 t st items h => rw [dropRounds, if_pos h]; exact ⟨by simp, id⟩
  | case2 t st items h ih =>
    rw [dropRounds, if_neg h]
    have := Cache.size_eq t
    refine ⟨by simp only [List.map_cons, List.sum_cons]; omega, fun hg => ih.2 ?_⟩
    simp only [List.length_tail, List.length_cons] at hg ⊢
    omega
  | case3 => exact ⟨by simp [dropRounds], id⟩

theorem retireRounds_le (s : CacheState β) : s.retireRounds ≤ 2 * s.total + 2 := by
  unfold retireRounds
  split
  · have h := advanceRounds_le (s.setTop (none :: s.topChildren)).items.length
      (2 * (s.setTop (none :: s.topChildren)).total + 2) (s.setTop (none :: s.topChildren))
    have ht := total_setTop s (none :: s.topChildren)
    rw [Cache.sizeL, Cache.sizeO] at ht
    dsimp only
    omega
  · have h := advanceRounds_le (dropSpent s.stack s.items).2.length
      (2 * total ⟨(dropSpent s.stack s.items).2, (dropSpent s.stack s.items).1, s.cache⟩ + 2)
      ⟨(dropSpent s.stack s.items).2, (dropSpent s.stack s.items).1, s.cache⟩
    have hd := (dropSpent_total s.stack s.items).1
    dsimp only
    simp only [total] at h ⊢
    omega

theorem retire_total {s s' : CacheState β} (h : s.retire = .ok s') :
    s'.total ≤ s.total ∧ (s.items.length ≤ s.stack.length + 1 → s'.items.length ≤ s'.stack.length + 1) := by
  unfold retire at h
  by_cases hc : (!s.topChildren.isEmpty) = true
  · simp only [if_pos hc] at h
    have h1 := advanceDfs_total _ _ _ _ h
    have ht := total_setTop s (none :: s.topChildren)
    rw [Cache.sizeL, Cache.sizeO] at ht
    refine ⟨by omega, fun hg => h1.2 ?_⟩
    rw [setTop_items, setTop_stack_length]
    exact hg
  · simp only [if_neg hc] at h
    have h1 := advanceDfs_total _ _ _ _ h
    have hd := dropSpent_total s.stack s.items
    refine ⟨?_, fun hg => h1.2 (hd.2 hg)⟩
    rw [h1.1]
    simp only [total]
    omega

/-- Whether the last item has yet to be put into the cache. -/
def hot (s : CacheState β) : Nat := if s.items.length = s.stack.length + 2 then 1 else 0

theorem sum_modify (st : List (Cache β)) (i : Nat) (d : Cache β) (h : i < st.length) :
    ((st.modify i (·.pushBack (some d))).map Cache.size).sum = (st.map Cache.size).sum + d.size := by
  induction st generalizing i with
  | nil => simp at h
  | cons t st ih =>
    cases i with
    | zero => simp [Cache.size_pushBack, Cache.sizeO]; omega
    | succ i =>
      simp only [List.modify_succ_cons, List.map_cons, List.sum_cons, ih i (by simpa using h)]
      omega

end CacheState

open CacheState in
theorem settle_total {cs cs' : CacheState V} (h : settle cs = .ok cs') (hg : cs.items.length ≤ cs.stack.length + 2) :
    cs'.total = cs.total + cs.hot ∧ cs'.items.length ≤ cs'.stack.length + 1 := by
  unfold settle at h
  split at h
  · rename_i hh
    rw [hot, if_pos hh]
    obtain ⟨items, stack, cache⟩ := cs
    rcases items with _ | ⟨x, _ | ⟨y, items⟩⟩
    · simp at hh
    · simp at hh
    · simp only [popItem] at h
      simp only [List.length_cons] at hh
      split at h
      · cases h
        refine ⟨?_, by simp⟩
        simp only [total, Cache.size_pushBack, Cache.sizeO, Cache.size, Cache.sizeL]
        omega
      · split at h
        · cases h
          rename_i hk
          refine ⟨?_, by simp only [List.length_cons, List.length_modify]; omega⟩
          simp only [total]
          rw [sum_modify _ _ _ (by omega)]
          simp only [Cache.size, Cache.sizeL]
          omega
        · cases h
  · rename_i hh
    cases h
    rw [hot, if_neg hh]
    exact ⟨rfl, by omega⟩

/-- What the rounds to come can cost when the cache never holds more than `M` nodes. -/
def roundStock [TreeNode N V] (M : Nat) (q : List (List N)) : Nat :=
  (stackNodes q + q.length) * (2 * M + 3) + stackNodes q + 1

theorem roundStock_empty [TreeNode N V] (M : Nat) (q : List (List N)) :
    roundStock M ([] :: q) = roundStock M q + (2 * M + 3) := by
  simp only [roundStock, stackNodes, List.map_cons, List.map_nil, List.sum_nil, List.sum_cons, List.length_cons]
  have : (0 + (List.map (fun ns => (List.map (fun n => (unfold n).size) ns).sum) q).sum + (q.length + 1)) * (2 * M + 3) =
    ((List.map (fun ns => (List.map (fun n => (unfold n).size) ns).sum) q).sum + q.length) * (2 * M + 3) + (2 * M + 3) := by
      ring
  omega

theorem roundStock_take [TreeNode N V] (M : Nat) (n : N) (ns : List N) (q : List (List N)) :
    roundStock M ((n :: ns) :: q) = roundStock M ((ns :: q) ++ [kids n]) + 1 ∧
      stackNodes ((n :: ns) :: q) = stackNodes ((ns :: q) ++ [kids n]) + 1 := by
  have h := size_unfold n
  have e : stackNodes ((n :: ns) :: q) = stackNodes ((ns :: q) ++ [kids n]) + 1 := by
    simp only [stackNodes, List.map_cons, List.sum_cons, List.map_append, List.sum_append, List.map_nil, List.sum_nil]
    omega
  refine ⟨?_, e⟩
  have e2 : stackNodes ((n :: ns) :: q) + ((n :: ns) :: q).length =
      stackNodes ((ns :: q) ++ [kids n]) + ((ns :: q) ++ [kids n]).length := by
    rw [e]
    simp only [List.length_append, List.length_cons, List.length_nil]
    omega
  rw [roundStock, e2, roundStock]
  omega

theorem stackNodes_empty [TreeNode N V] (q : List (List N)) : stackNodes ([] :: q) = stackNodes q := by
  simp [stackNodes]

open CacheState in
theorem ancLoop_bounded [TreeNode N V] (M : Nat) (q : List (List N)) : ∀ cs : CacheState V,
    cs.items.length ≤ cs.stack.length + 2 → cs.total + cs.hot + stackNodes q ≤ M →
      ancLoopRounds q cs ≤ roundStock M q ∧
        ∀ s', ancLoop q cs = .ok s' → (s'.cs.items.length ≤ s'.cs.stack.length + 2 ∧
          s'.cs.total + s'.cs.hot + stackNodes s'.queue ≤ M) ∧
            ancLoopRounds q cs + roundStock M s'.queue ≤ roundStock M q := by
  induction q with
  | nil =>
    intro cs hg hM
    constructor
    · rw [ancLoopRounds]
      split <;> simp [roundStock, stackNodes]
    · intro s' h
      rw [ancLoop] at h
      split at h <;> cases h
  | cons ns q ih =>
    intro cs hg hM
    rw [ancLoopRounds, ancLoop]
    cases hs : settle cs with
    | error e =>
      refine ⟨?_, fun s' h => by cases h⟩
      simp only [roundStock]
      omega
    | ok cs1 =>
      obtain ⟨t1, g1⟩ := settle_total hs hg
      cases ns with
      | cons n ns =>
        obtain ⟨e1, e2⟩ := roundStock_take (V := V) M n ns q
        simp only
        refine ⟨by omega, fun s' h => ?_⟩
        cases h
        have hh : hot { cs1 with items := val n :: cs1.items } ≤ 1 := by unfold hot; split <;> omega
        refine ⟨⟨by simp only [List.length_cons]; omega, ?_⟩, by simp only at e1 ⊢; omega⟩
        change cs1.total + hot { cs1 with items := val n :: cs1.items } + stackNodes ((ns :: q) ++ [kids n]) ≤ M
        omega
      | nil =>
        have e1 := roundStock_empty (V := V) M q
        have e2 := stackNodes_empty (V := V) q
        have r1 := retireRounds_le cs1
        simp only
        cases hr : cs1.retire with
        | error e => exact ⟨by simp only; omega, fun s' h => by cases h⟩
        | ok cs2 =>
          obtain ⟨t2, g2⟩ := retire_total hr
          simp only
          by_cases hq : q.isEmpty
          · simp only [hq, if_true]
            obtain rfl := List.isEmpty_iff.1 hq
            refine ⟨by omega, fun s' h => ?_⟩
            cases h
            refine ⟨⟨by simp, ?_⟩, by simp only; omega⟩
            have : total { cs2 with items := ([] : List V) } = cs2.total := rfl
            rw [this]
            simp only [hot, List.length_nil]
            rw [if_neg (by omega)]
            omega
          · have g2 := g2 g1
            have hh : cs2.hot = 0 := by rw [hot, if_neg (by omega)]
            obtain ⟨i1, i2⟩ := ih cs2 (by omega) (by omega)
            simp only [hq, Bool.false_eq_true, if_false]
            refine ⟨by omega, fun s' h => ?_⟩
            obtain ⟨j1, j2⟩ := i2 s' h
            exact ⟨j1, by omega⟩

open CacheState in
theorem ancNext_bounded [TreeNode N V] (M : Nat) (s : AncState N V)
    (hg : s.cs.items.length ≤ s.cs.stack.length + 2) (hM : s.cs.total + s.cs.hot + stackNodes s.queue ≤ M) :
    ancRounds s ≤ roundStock M s.queue ∧
      ∀ o s', ancNext s = .ok (o, s') → (s'.cs.items.length ≤ s'.cs.stack.length + 2 ∧
        s'.cs.total + s'.cs.hot + stackNodes s'.queue ≤ M) ∧
          ancRounds s + roundStock M s'.queue ≤ roundStock M s.queue := by
  obtain ⟨r, cs, q⟩ := s
  cases r with
  | true =>
    refine ⟨by simp [ancRounds], fun o s' h => ?_⟩
    simp only [ancNext, streamNextE, ancAdvance, if_true, Except.ok.injEq, Prod.mk.injEq] at h
    obtain ⟨-, rfl⟩ := h
    exact ⟨⟨hg, hM⟩, by simp [ancRounds]⟩
  | false =>
    obtain ⟨h1, h2⟩ := ancLoop_bounded M q cs hg hM
    refine ⟨by simpa [ancRounds] using h1, fun o s' h => ?_⟩
    simp only [ancNext, streamNextE, ancAdvance, Bool.false_eq_true, if_false] at h
    cases hc : ancLoop q cs with
    | error e => simp [hc] at h
    | ok s1 =>
      simp only [hc, Except.ok.injEq, Prod.mk.injEq] at h
      obtain ⟨-, rfl⟩ := h
      simpa [ancRounds] using h2 s1 hc

open CacheState in
/-- The cache and the nodes still to come are together no more than `M`. -/
def AncFits [TreeNode N V] (M : Nat) (s : AncState N V) : Prop :=
  s.cs.items.length ≤ s.cs.stack.length + 2 ∧ s.cs.total + s.cs.hot + stackNodes s.queue ≤ M

/-- `roundStock` of a state. -/
def ancRoundStock [TreeNode N V] (M : Nat) (s : AncState N V) : Nat := roundStock M s.queue

open CacheState in
theorem ancRounds_total [TreeNode N V] (n : N) (k : Nat) :
    totalOverE ancNext ancRounds k (AncState.new n) ≤ 2 * (treeOf n).size * (treeOf n).size + 4 * (treeOf n).size := by
  have hm : (treeOf n).size = stackNodes [kids n] + 1 := by
    rw [treeOf, size_map, size_unfold]; simp [stackNodes]; omega
  have h0 : AncFits (treeOf n).size (AncState.new n) := ⟨by simp [AncState.new], by
    simp [AncState.new, total, hot, Cache.size, Cache.sizeL]
    omega⟩
  have h := totalOverE_paidI (next := ancNext) (cost := ancRounds) (φ := ancRoundStock (treeOf n).size)
    (AncFits (N := N) (treeOf n).size) (fun s hs => (ancNext_bounded _ s hs.1 hs.2).1)
    (fun s o s' hs h => (ancNext_bounded _ s hs.1 hs.2).2 o s' h) k (AncState.new n) h0
  refine h.trans ?_
  simp only [ancRoundStock, AncState.new, roundStock, List.length_cons, List.length_nil]
  rw [← hm]
  have : (treeOf n).size * (2 * (treeOf n).size + 3) = 2 * (treeOf n).size * (treeOf n).size + 3 * (treeOf n).size := by ring
  omega

end Bfs

end TreeIter
