import Verif.Lemmas.SliceEditBfsCtx

/-! # The breadth-first context cache never copies a value

`Lemmas/SliceEditBfsCtx` shows this for the states that a traversal can be in.  Here nothing is assumed of the state, as a
client can change it between two steps. -/

universe u v w

namespace TreeIter

namespace Bfs

variable {V : Type u} [DecidableEq V]

/-- The nodes on the traversal stack hold no value of their own. -/
def CtxCache.NoValue (s : CtxCache V) : Prop := ∀ t ∈ s.stack, t.value = none

/-- The cache without the ancestors and the path. -/
def CtxCache.bare (s : CtxCache V) : CacheState (V × Nat) := ⟨[], s.stack, s.cache⟩

omit [DecidableEq V] in
theorem bare_setTop (s : CtxCache V) (cs : List (Option (Cache (V × Nat)))) : (s.setTop cs).bare = s.bare.setTop cs := by
  obtain ⟨anc, path, stack, cache⟩ := s
  cases stack <;> rfl

omit [DecidableEq V] in
theorem bare_topChildren (s : CtxCache V) : s.bare.topChildren = s.topChildren := by
  obtain ⟨anc, path, stack, cache⟩ := s
  cases stack <;> rfl

theorem live_bare (s : CtxCache V) (a : V) : s.live.count a = s.ancestors.count a + (s.bare.live.map Prod.fst).count a := by
  simp [CtxCache.live, CtxCache.kept, CtxCache.bare, CacheState.live, CacheState.kept]

omit [DecidableEq V] in
theorem setTop_ancestors (s : CtxCache V) (cs : List (Option (Cache (V × Nat)))) : (s.setTop cs).ancestors = s.ancestors := by
  obtain ⟨anc, path, stack, cache⟩ := s
  cases stack <;> rfl

omit [DecidableEq V] in
theorem ctxSetTop_noValue (s : CtxCache V) (cs : List (Option (Cache (V × Nat)))) (h : s.NoValue) : (s.setTop cs).NoValue := by
  have := setTop_noValue s.bare cs h
  rw [← bare_setTop] at this
  exact this

theorem ctxSetTop_count (s : CtxCache V) (cs : List (Option (Cache (V × Nat)))) (a : V) :
    (s.setTop cs).live.count a + ((Cache.valsL s.topChildren).map Prod.fst).count a =
      s.live.count a + ((Cache.valsL cs).map Prod.fst).count a := by
  have h1 := ((setTop_live s.bare cs).map Prod.fst).count_eq a
  rw [← bare_setTop, List.map_append, List.map_append, List.count_append, List.count_append, bare_topChildren] at h1
  rw [live_bare, live_bare, setTop_ancestors]
  omega

theorem giveBack_count (s s' : CtxCache V) (hn : s.NoValue) (h : s.giveBack = .ok s') (a : V) :
    s'.popToParent.live.count a = s.live.count a ∧ s'.popToParent.NoValue := by
  have key : ∀ s' : CtxCache V, (∀ t ∈ s'.stack.tail, t.value = none) →
      s'.popToParent.live.count a = s'.live.count a ∧ s'.popToParent.NoValue := by
    intro s' hs
    obtain ⟨anc, path, stack, cache⟩ := s'
    cases stack with
    | nil => exact ⟨rfl, fun t ht => absurd ht (by simp [CtxCache.popToParent])⟩
    | cons t st =>
      simp only [CtxCache.popToParent, CtxCache.pushTop]
      have h1 := ctxSetTop_count ⟨anc, path, st, cache⟩ ((⟨anc, path, st, cache⟩ : CtxCache V).topChildren ++ [some t]) a
      refine ⟨?_, ctxSetTop_noValue _ _ hs⟩
      rw [valsL_append, valsL_some, valsL_nil, List.map_append, List.count_append] at h1
      simp only [CtxCache.live, CtxCache.kept, List.flatMap_cons, vals_eq, List.map_append, List.count_append, List.append_nil] at h1 ⊢
      omega
  obtain ⟨anc, path, stack, cache⟩ := s
  have hk := key s'
  rcases anc with _ | ⟨x, _ | ⟨y, anc⟩⟩
  · obtain rfl := Except.ok.inj h
    exact hk fun t ht => hn t (List.mem_of_mem_tail ht)
  · obtain rfl := Except.ok.inj h
    exact hk fun t ht => hn t (List.mem_of_mem_tail ht)
  · simp only [CtxCache.giveBack] at h
    rcases stack with _ | ⟨t, st⟩
    · cases h
    · rcases path with _ | ⟨p, ps⟩
      · cases h
      · obtain rfl := Except.ok.inj h
        obtain ⟨h1, h2⟩ := hk fun t' ht => hn t' (List.mem_cons_of_mem _ ht)
        refine ⟨h1.trans ?_, h2⟩
        have h3 := hn t (List.mem_cons_self ..)
        simp only [CtxCache.live, CtxCache.kept, List.flatMap_cons, vals_eq, value_mk, children_mk, h3, Option.toList_some,
          Option.toList_none, List.map_append, List.map_cons, List.map_nil, List.nil_append, List.count_append, List.count_cons,
          List.count_nil]
        omega

theorem ctxAdvanceDfs_count (start fuel : Nat) (s s' : CtxCache V) (hn : s.NoValue) (h : s.advanceDfs start fuel = .ok s') (a : V) :
    s'.live.count a = s.live.count a ∧ s'.NoValue := by
  induction fuel generalizing s with
  | zero => cases h
  | succ fuel ih =>
    rw [CtxCache.advanceDfs] at h
    split at h
    · obtain rfl := Except.ok.inj h
      exact ⟨rfl, hn⟩
    · rename_i c rest ht
      split at h
      · cases h
      · rename_i v p hv
        have h1 := ctxSetTop_count s rest a
        have h2 := ctxSetTop_noValue s rest hn
        rw [ht, valsL_some, hv] at h1
        have h3 : (⟨v :: (s.setTop rest).ancestors, p :: (s.setTop rest).path, .mk none c.children :: (s.setTop rest).stack,
            (s.setTop rest).cache⟩ : CtxCache V).live.count a = s.live.count a := by
          simp only [CtxCache.live, CtxCache.kept, List.flatMap_cons, vals_eq, value_mk, children_mk, Option.toList_some,
            Option.toList_none, List.map_append, List.map_cons, List.map_nil, List.nil_append, List.count_append,
            List.count_cons, List.count_nil] at h1 ⊢
          omega
        have h4 : (⟨v :: (s.setTop rest).ancestors, p :: (s.setTop rest).path, .mk none c.children :: (s.setTop rest).stack,
            (s.setTop rest).cache⟩ : CtxCache V).NoValue := by
          intro t ht
          rcases List.mem_cons.1 ht with rfl | ht
          · rfl
          · exact h2 t ht
        simp only at h
        split at h
        · obtain rfl := Except.ok.inj h
          exact ⟨h3, h4⟩
        · obtain ⟨h5, h6⟩ := ih _ h4 h
          exact ⟨h5.trans h3, h6⟩
    · rename_i rest ht
      split at h
      · cases h
      · rename_i s1 hg
        obtain ⟨h1, h2⟩ := giveBack_count _ _ (ctxSetTop_noValue s _ hn) hg a
        obtain ⟨h3, h4⟩ := ih _ h2 h
        refine ⟨h3.trans (h1.trans ?_), h4⟩
        have h5 := ctxSetTop_count s (if rest.isEmpty then [] else rest ++ [none]) a
        have h7 : Cache.valsL (if rest.isEmpty then [] else rest ++ [none]) = Cache.valsL rest := by
          cases rest with
          | nil => rfl
          | cons c cs => simp [valsL_append, Cache.valsL, Cache.valsO]
        rw [ht, valsL_none, h7] at h5
        omega

theorem ctxDropSpent_count (stack : List (Cache (V × Nat))) (anc : List V) (path : List Nat) (c : Cache (V × Nat)) (a : V) :
    (⟨(CtxCache.dropSpent stack anc path).2.1, (CtxCache.dropSpent stack anc path).2.2, (CtxCache.dropSpent stack anc path).1, c⟩ :
      CtxCache V).live.count a ≤ (⟨anc, path, stack, c⟩ : CtxCache V).live.count a := by
  induction stack generalizing anc path with
  | nil => simp [CtxCache.dropSpent]
  | cons t st ih =>
    rw [CtxCache.dropSpent]
    split
    · exact Nat.le_refl _
    · have h1 := ih anc.tail path.tail
      have h2 := count_tail_le a anc
      simp only [CtxCache.live, CtxCache.kept, List.flatMap_cons, List.map_append, List.count_append] at h1 ⊢
      omega

omit [DecidableEq V] in
theorem ctxDropSpent_mem (stack : List (Cache (V × Nat))) (anc : List V) (path : List Nat) :
    ∀ t ∈ (CtxCache.dropSpent stack anc path).1, t ∈ stack := by
  induction stack generalizing anc path with
  | nil => simp [CtxCache.dropSpent]
  | cons t st ih =>
    rw [CtxCache.dropSpent]
    split
    · exact fun _ h => h
    · exact fun t h => List.mem_cons_of_mem _ (ih _ _ t h)

theorem ctxRetire_count (s s' : CtxCache V) (hn : s.NoValue) (h : s.retire = .ok s') (a : V) :
    s'.live.count a ≤ s.live.count a ∧ s'.NoValue := by
  simp only [CtxCache.retire] at h
  split at h
  · obtain ⟨h1, h2⟩ := ctxAdvanceDfs_count _ _ _ _ (ctxSetTop_noValue _ _ hn) h a
    have h3 := ctxSetTop_count s (none :: s.topChildren) a
    rw [valsL_none] at h3
    exact ⟨by omega, h2⟩
  · obtain ⟨h1, h2⟩ := ctxAdvanceDfs_count _ _ _ _ (by
      intro t ht
      exact hn t (ctxDropSpent_mem _ _ _ t ht)) h a
    refine ⟨?_, h2⟩
    rw [h1]
    exact ctxDropSpent_count _ _ _ _ a

omit [DecidableEq V] in
theorem modify_noValue (stack : List (Cache (V × Nat))) (hn : ∀ t ∈ stack, t.value = none) (i : Nat) (c : Option (Cache (V × Nat))) :
    ∀ t ∈ stack.modify i (·.pushBack c), t.value = none := by
  intro t ht
  obtain ⟨j, hj⟩ := List.getElem?_of_mem ht
  simp only [List.getElem?_modify, Option.map_eq_map, Option.map_eq_some_iff] at hj
  obtain ⟨t', h1, rfl⟩ := hj
  have := hn t' (List.mem_of_getElem? h1)
  split
  · cases t'; simpa [Cache.pushBack, Cache.value] using this
  · exact this

omit [DecidableEq V] in
theorem ctxSettle_noValue (s s' : CtxCache V) (hn : s.NoValue) (h : s.settle = .ok s') : s'.NoValue := by
  rw [CtxCache.settle] at h
  split at h
  · obtain ⟨anc, path, stack, c⟩ := s
    rcases anc with _ | ⟨x, _ | ⟨y, _ | ⟨z, anc⟩⟩⟩
    · cases h
    · obtain rfl := Except.ok.inj h
      exact hn
    · simp only [CtxCache.popItem] at h
      split at h
      · cases h
      · obtain rfl := Except.ok.inj h
        exact hn
    · simp only [CtxCache.popItem] at h
      split at h
      · split at h
        · cases h
        · obtain rfl := Except.ok.inj h
          exact modify_noValue _ hn _ _
      · cases h
  · obtain rfl := Except.ok.inj h
    exact hn

/-! ## The two iterators -/

/-- All values in the state and in the nodes to come. -/
def CtxState.all (s : CtxState V (List (Tree V)) (Tree V)) : List V := s.cc.live ++ pend s.queue ++ pend s.children.toList

/-- The same for binary nodes. -/
def CtxState.binAll (s : CtxState V (Option (BinTree V) × Option (BinTree V)) (Option (BinTree V))) : List V :=
  s.cc.live ++ pend2 s.queue ++ Preorder.pairVals s.children

theorem ctxLoop_count (queue : List (List (Tree V))) (cc : CtxCache V) (counter : Nat) (s : CtxState V (List (Tree V)) (Tree V))
    (hn : cc.NoValue) (h : ctxLoop queue cc counter = .ok s) (a : V) :
    s.all.count a ≤ (cc.live ++ pend queue).count a ∧ s.cc.NoValue := by
  induction queue generalizing cc counter with
  | nil =>
    rw [ctxLoop] at h
    split at h <;> cases h
  | cons l q ih =>
    rw [ctxLoop] at h
    split at h
    · cases h
    · rename_i cc1 h1
      have h2 := (ctxSettle_live _ _ h1).count_eq a
      have h3 := ctxSettle_noValue _ _ hn h1
      cases l with
      | cons n ns =>
        simp only at h
        split at h
        · cases h
        · obtain rfl := Except.ok.inj h
          refine ⟨?_, h3⟩
          simp only [CtxState.all, CtxCache.live, CtxCache.kept, List.cons_append, pend_cons, List.flatMap_cons,
            Option.toList_some, List.count_append, List.count_cons, preorder_kids n] at h2 ⊢
          simp only [pend, List.flatMap_nil, List.count_nil]
          omega
      | nil =>
        simp only at h
        split at h
        · cases h
        · rename_i cc2 h4
          obtain ⟨h5, h6⟩ := ctxRetire_count _ _ h3 h4 a
          split at h
          · obtain rfl := Except.ok.inj h
            refine ⟨?_, h6⟩
            simp only [CtxState.all, CtxCache.live, CtxCache.kept, List.count_append, pend, Option.toList_none, List.flatMap_nil,
              List.count_nil] at h2 h5 ⊢
            omega
          · obtain ⟨h7, h8⟩ := ih _ _ h6 h
            refine ⟨?_, h8⟩
            rw [List.count_append] at h7 ⊢
            simp only [pend_cons, List.flatMap_nil, List.nil_append]
            omega

theorem ctxAdvance_count (s s' : CtxState V (List (Tree V)) (Tree V)) (hn : s.cc.NoValue) (h : ctxAdvance s = .ok s') (a : V) :
    s'.all.count a ≤ s.all.count a ∧ s'.cc.NoValue := by
  simp only [ctxAdvance] at h
  split at h
  · obtain rfl := Except.ok.inj h
    exact ⟨Nat.le_refl _, hn⟩
  · split at h
    · obtain rfl := Except.ok.inj h
      exact ⟨Nat.le_refl _, hn⟩
    · split at h
      · cases h
      · rename_i cs hc
        obtain ⟨h1, h2⟩ := ctxLoop_count _ _ _ _ hn h a
        refine ⟨?_, h2⟩
        rw [pend_append] at h1
        simpa only [CtxState.all, hc, Option.toList_some, List.append_assoc] using h1

omit [DecidableEq V] in
theorem binScan_vals (l : List (Option (BinTree V))) (k : Nat) (o : Option (BinTree V)) (l' : List (Option (BinTree V))) (k' : Nat)
    (h : binScan l k = .ok (o, l', k')) : l.flatMap slotVals = slotVals o ++ l'.flatMap slotVals := by
  induction l generalizing k with
  | nil =>
    obtain ⟨rfl, rfl, -⟩ := by simpa [binScan] using h
    simp [slotVals]
  | cons x l ih =>
    cases x with
    | none =>
      rw [binScan] at h
      split at h
      · cases h
      · simpa [slotVals] using ih _ h
    | some n =>
      obtain ⟨rfl, rfl, -⟩ := by simpa [binScan] using h
      rfl

theorem binCtxLoop_count (queue : List (List (Option (BinTree V)))) (cc : CtxCache V) (counter : Nat)
    (s : CtxState V (Option (BinTree V) × Option (BinTree V)) (Option (BinTree V)))
    (hn : cc.NoValue) (h : binCtxLoop queue cc counter = .ok s) (a : V) :
    s.binAll.count a ≤ (cc.live ++ pend2 queue).count a ∧ s.cc.NoValue := by
  induction queue generalizing cc counter with
  | nil =>
    rw [binCtxLoop] at h
    split at h <;> cases h
  | cons l q ih =>
    rw [binCtxLoop] at h
    split at h
    · cases h
    · rename_i cc1 h1
      have h2 := (ctxSettle_live _ _ h1).count_eq a
      have h3 := ctxSettle_noValue _ _ hn h1
      simp only at h
      split at h
      · cases h
      · rename_i n ss k hs
        have hv := binScan_vals _ _ _ _ _ hs
        split at h
        · cases h
        · obtain rfl := Except.ok.inj h
          refine ⟨?_, h3⟩
          simp only [CtxState.binAll, CtxCache.live, CtxCache.kept, List.cons_append, pend2_cons, hv, slotVals_some n,
            Preorder.pairVals, List.flatMap_cons, List.flatMap_nil, Option.toList_some, List.count_append, List.count_cons,
            List.count_nil] at h2 ⊢
          omega
      · split at h
        · cases h
        · rename_i cc2 h4
          obtain ⟨h5, h6⟩ := ctxRetire_count _ _ h3 h4 a
          split at h
          · obtain rfl := Except.ok.inj h
            refine ⟨?_, h6⟩
            simp only [CtxState.binAll, CtxCache.live, CtxCache.kept, List.count_append, pend2, Preorder.pairVals,
              Option.toList_none, List.flatMap_nil, List.count_nil] at h2 h5 ⊢
            omega
          · obtain ⟨h7, h8⟩ := ih _ _ h6 h
            refine ⟨?_, h8⟩
            rw [List.count_append] at h7 ⊢
            simp only [pend2_cons, List.count_append]
            omega

theorem binCtxAdvance_count (s s' : CtxState V (Option (BinTree V) × Option (BinTree V)) (Option (BinTree V)))
    (hn : s.cc.NoValue) (h : binCtxAdvance s = .ok s') (a : V) :
    s'.binAll.count a ≤ s.binAll.count a ∧ s'.cc.NoValue := by
  simp only [binCtxAdvance] at h
  split at h
  · obtain rfl := Except.ok.inj h
    exact ⟨Nat.le_refl _, hn⟩
  · split at h
    · obtain rfl := Except.ok.inj h
      exact ⟨Nat.le_refl _, hn⟩
    · split at h
      · cases h
      · rename_i l r hc
        obtain ⟨h1, h2⟩ := binCtxLoop_count _ _ _ _ hn h a
        refine ⟨?_, h2⟩
        rw [pend2_append] at h1
        simpa only [CtxState.binAll, hc, Preorder.pairVals, pend2, Option.toList_some, List.flatMap_cons, List.flatMap_nil,
          List.append_nil, List.append_assoc] using h1

end Bfs

end TreeIter
