import Verif.Model.Uninit

/-! # The entries of the breadth-first caches have values -/

universe u v w x

namespace TreeIter

variable {N : Type u} {V : Type v} {β : Type w}

/-- The outcome of a step is no read of uninitialised memory, and what it leaves satisfies `Inv`. -/
def Safe {S : Type u} (Inv : S → Prop) : Except Panic S → Prop
  | .ok s => Inv s
  | .error e => e ≠ .uninit

theorem Safe.ok {S : Type u} {Inv : S → Prop} {r : Except Panic S} {s : S} (h : Safe Inv r) (e : r = .ok s) : Inv s := by
  subst e
  exact h

theorem Safe.err {S : Type u} {S' : Type v} {Inv : S → Prop} {Inv' : S' → Prop} {r : Except Panic S} {p : Panic}
    (h : Safe Inv r) (e : r = .error p) : Safe Inv' (.error p) := by
  subst e
  exact h

/-- What holds at the beginning and is kept by all steps holds in every run. -/
theorem Lending.Run.inv {S : Type w} {O : Type x} {it : Lending S O V} {may : List O → O → O → Prop} {s₀ s : S}
    {seen : List O} (Inv : S → Prop) (h0 : Inv s₀) (hn : ∀ s, Inv s → Safe (fun r => Inv r.2) (it.next s))
    (hw : ∀ seen s o o', Inv s → it.get s = some o → may seen o o' → Inv (it.put s o')) (h : it.Run may s₀ seen s) :
    Inv s := by
  induction h with
  | start => exact h0
  | next _ h ih => exact (hn _ ih).ok h
  | write _ h1 h2 ih => exact hw _ _ _ _ ih h1 h2

theorem Lending.NoUninit.of_inv {S : Type w} {O : Type x} {it : Lending S O V} {may : List O → O → O → Prop} {s₀ : S}
    (Inv : S → Prop) (h0 : Inv s₀) (hn : ∀ s, Inv s → Safe (fun r => Inv r.2) (it.next s))
    (hw : ∀ seen s o o', Inv s → it.get s = some o → may seen o o' → Inv (it.put s o')) : it.NoUninit may s₀ := by
  intro seen s h h'
  have := hn s (h.inv Inv h0 hn hw)
  rw [h'] at this
  exact this rfl

/-- For a streaming iterator `advance` alone matters. -/
theorem Safe.streamNextE {S : Type u} {O : Type v} {advance : S → Except Panic S} {get : S → Option O} {Inv : S → Prop} {s : S}
    (h : Safe Inv (advance s)) : Safe (fun r => Inv r.2) (streamNextE advance get s) := by
  unfold TreeIter.streamNextE
  cases h1 : advance s with
  | error e => exact fun h2 => by simp [Safe, h1, h2] at h
  | ok s1 => simpa [Safe, h1] using h

namespace Bfs

/-- An entry has a value, and so has every entry below it. -/
inductive Cache.Full : Cache β → Prop
  | mk (v : β) (cs : List (Option (Cache β))) (h : ∀ c, some c ∈ cs → c.Full) : Full (.mk (some v) cs)

/-- All entries of a deque have values. -/
def FullL (cs : List (Option (Cache β))) : Prop := ∀ c, some c ∈ cs → c.Full

theorem FullL.nil : FullL ([] : List (Option (Cache β))) := fun _ h => by simp at h

theorem FullL.tail {o : Option (Cache β)} {cs : List (Option (Cache β))} (h : FullL (o :: cs)) : FullL cs :=
  fun c hc => h c (List.mem_cons_of_mem _ hc)

theorem FullL.none {cs : List (Option (Cache β))} (h : FullL cs) : FullL (none :: cs) :=
  fun c hc => h c (by simpa using hc)

theorem FullL.append {a b : List (Option (Cache β))} (ha : FullL a) (hb : FullL b) : FullL (a ++ b) :=
  fun c hc => (List.mem_append.1 hc).elim (ha c) (hb c)

theorem FullL.single {c : Cache β} (h : c.Full) : FullL [some c] := fun d hd => by
  obtain rfl : d = c := by simpa using hd
  exact h

theorem Full.children {c : Cache β} (h : c.Full) : FullL c.children := by
  cases h with
  | mk v cs h => exact h

theorem Full.leaf (b : β) : (Cache.mk (some b) []).Full := .mk b [] fun _ h => by simp at h

/-- The entries of the stack are without value, what is below them is not. -/
def FullS (cache : Cache β) (stack : List (Cache β)) : Prop := FullL cache.children ∧ ∀ t ∈ stack, FullL t.children

theorem FullS.tail {cache t : Cache β} {st : List (Cache β)} (h : FullS cache (t :: st)) : FullS cache st :=
  ⟨h.1, fun x hx => h.2 x (List.mem_cons_of_mem _ hx)⟩

theorem FullS.cons {cache t : Cache β} {st : List (Cache β)} (h : FullS cache st) (ht : FullL t.children) :
    FullS cache (t :: st) :=
  ⟨h.1, fun x hx => by
    rcases List.mem_cons.1 hx with rfl | hx
    · exact ht
    · exact h.2 x hx⟩

theorem FullS.modify {cache : Cache β} {st : List (Cache β)} (h : FullS cache st) (i : Nat) {c : Cache β} (hc : c.Full) :
    FullS cache (st.modify i (·.pushBack (some c))) := by
  refine ⟨h.1, fun t ht => ?_⟩
  obtain ⟨j, hj, rfl⟩ := List.mem_iff_getElem.1 ht
  rw [List.getElem_modify]
  have hj' : j < st.length := by simpa using hj
  split
  · exact (h.2 _ (List.getElem_mem hj')).append (.single hc)
  · exact h.2 _ (List.getElem_mem hj')

/-! ## `attach_ancestors` -/

namespace CacheState

/-- All entries have values and there is an item for each entry of the stack and one more. -/
def Ok (s : CacheState β) : Prop := FullS s.cache s.stack ∧ s.stack.length < s.items.length

theorem Ok.topChildren {s : CacheState β} (h : s.Ok) : FullL s.topChildren := by
  obtain ⟨items, stack, cache⟩ := s
  cases stack with
  | nil => exact h.1.1
  | cons t st => exact h.1.2 t (by simp)

theorem Ok.setTop {s : CacheState β} (h : s.Ok) {cs : List (Option (Cache β))} (hc : FullL cs) : (s.setTop cs).Ok := by
  obtain ⟨items, stack, cache⟩ := s
  cases stack with
  | nil => exact ⟨⟨hc, fun _ h => by simp [CacheState.setTop] at h⟩, h.2⟩
  | cons t st => exact ⟨h.1.tail.cons hc, h.2⟩

theorem setTop_stack (s : CacheState β) (cs : List (Option (Cache β))) :
    (s.setTop cs).stack.length = s.stack.length ∧ (s.setTop cs).items = s.items := by
  unfold CacheState.setTop
  split <;> simp [*]

theorem Ok.moveUp {s s' : CacheState β} (h : s.Ok) (h' : s.moveUp = .ok s') : s'.Ok := by
  obtain ⟨items, stack, cache⟩ := s
  match items, stack with
  | v :: i :: is, [t] =>
    obtain rfl := Except.ok.inj h'
    exact ⟨⟨h.1.1.append (.single (.mk _ _ (h.1.2 t (by simp)))), fun _ h => by simp at h⟩, by simp⟩
  | v :: i :: is, t :: p :: st =>
    obtain rfl := Except.ok.inj h'
    refine ⟨h.1.tail.tail.cons ((h.1.2 p (by simp)).append (.single (.mk _ _ (h.1.2 t (by simp))))), ?_⟩
    have := h.2
    simp only [List.length_cons] at this ⊢
    omega
  | _ :: _ :: _, [] => cases h'
  | [], t :: st => exact absurd h.2 (by simp)
  | [_], t :: st => exact absurd h.2 (by simp)
  | [], [] => exact absurd h.2 (by simp)
  | [v], [] =>
    obtain rfl := Except.ok.inj h'
    exact h

theorem moveUp_ne {s : CacheState β} : s.moveUp ≠ .error .uninit := by
  unfold CacheState.moveUp
  intro h
  split at h
  · split at h <;> cases h
  · cases h
  · split at h <;> cases h
  · cases h

theorem Ok.advanceDfs (start fuel : Nat) {s : CacheState β} (h : s.Ok) : Safe Ok (s.advanceDfs start fuel) := by
  induction fuel generalizing s with
  | zero => exact fun h => by cases h
  | succ fuel ih =>
    rw [CacheState.advanceDfs]
    have ht := h.topChildren
    split
    · exact h
    · rename_i c rest hc
      rw [hc] at ht
      have hf := ht c (by simp)
      obtain ⟨v, cs, hcs⟩ := hf
      simp only [Cache.value]
      have h1 := h.setTop ht.tail
      have h2 : (⟨v :: (s.setTop rest).items, .mk none (Cache.mk (some v) cs).children :: (s.setTop rest).stack,
          (s.setTop rest).cache⟩ : CacheState β).Ok := ⟨h1.1.cons hcs, by simpa using h1.2⟩
      split
      · exact h2
      · exact ih h2
    · rename_i rest hc
      rw [hc] at ht
      have hf : FullL (if rest.isEmpty then [] else rest ++ [none]) := by
        split
        · exact .nil
        · exact ht.tail.append (FullL.none .nil)
      split
      · rename_i e he
        rintro rfl
        exact moveUp_ne he
      · rename_i s1 hs1
        exact ih ((h.setTop hf).moveUp hs1)

theorem dropSpent_ok {cache : Cache β} (stack : List (Cache β)) (items : List β) (h : FullS cache stack)
    (hl : stack.length < items.length) :
    FullS cache (dropSpent stack items).1 ∧ (dropSpent stack items).1.length < (dropSpent stack items).2.length := by
  induction stack generalizing items with
  | nil => exact ⟨h, hl⟩
  | cons t st ih =>
    rw [CacheState.dropSpent]
    split
    · exact ⟨h, hl⟩
    · refine ih _ h.tail ?_
      simp only [List.length_cons, List.length_tail] at hl ⊢
      omega

theorem Ok.retire {s : CacheState β} (h : s.Ok) : Safe Ok s.retire := by
  unfold CacheState.retire
  refine Ok.advanceDfs _ _ ?_
  split
  · exact h.setTop h.topChildren.none
  · exact dropSpent_ok _ _ h.1 h.2

theorem Ok.settle {s : CacheState β} (h : s.Ok) : Safe Ok (settle s) := by
  obtain ⟨items, stack, cache⟩ := s
  unfold Bfs.settle
  split
  · rename_i hl
    match items with
    | [] => exact absurd h.2 (by simp)
    | [v] => simp at hl
    | [v, i] => exact ⟨⟨h.1.1.append (.single (Full.leaf v)), h.1.2⟩, by simpa using hl⟩
    | v :: i :: j :: is =>
      simp only [CacheState.popItem, List.isEmpty_cons, Bool.false_eq_true, if_false]
      split
      · refine ⟨h.1.modify _ (Full.leaf v), ?_⟩
        simp only [List.length_cons, List.length_modify] at hl ⊢
        omega
      · exact fun h => by cases h
  · exact h

end CacheState

/-- The iterator is at a node, or it has finished. -/
def AncState.Ok (s : AncState N V) : Prop := s.cs.Ok ∨ s.isRoot = false ∧ s.cs.items = [] ∧ s.queue = []

theorem ancLoop_ok [SplitNode N V] (queue : List (List N)) (cs : CacheState V) (h : cs.Ok) :
    Safe AncState.Ok (ancLoop queue cs) := by
  induction queue generalizing cs with
  | nil =>
    rw [ancLoop]
    have h1 := h.settle
    split
    · rename_i e he
      exact h1.err he
    · exact fun h => by cases h
  | cons it q ih =>
    have h1 := h.settle
    rw [ancLoop.eq_def]
    split
    · rename_i e he
      exact h1.err he
    · rename_i cs1 hs
      replace h1 : cs1.Ok := (h1.ok hs)
      cases it with
      | cons n ns => exact .inl ⟨h1.1, Nat.lt_succ_of_lt h1.2⟩
      | nil =>
        have h2 := h1.retire
        dsimp only
        split
        · rename_i e he
          exact h2.err he
        · rename_i cs2 hr
          split
          · exact .inr ⟨rfl, rfl, rfl⟩
          · exact ih _ (h2.ok hr)

theorem ancAdvance_ok [SplitNode N V] (s : AncState N V) (h : s.Ok) : Safe AncState.Ok (ancAdvance s) := by
  unfold ancAdvance
  split
  · rename_i hr
    rcases h with h | h
    · exact .inl h
    · exact absurd hr (by simp [h.1])
  · rcases h with h | ⟨-, h1, h2⟩
    · exact ancLoop_ok _ _ h
    · rw [h2, ancLoop]
      simp only [settle, h1, List.length_nil]
      exact fun h => by cases h

theorem AncState.Ok.new [SplitNode N V] (n : N) : (AncState.new n : AncState N V).Ok :=
  .inl ⟨⟨.nil, fun _ h => by simp [AncState.new] at h⟩, by simp [AncState.new]⟩

theorem CacheState.Ok.write {cs : CacheState V} (h : cs.Ok) {as : List V} (hl : as.length = cs.items.length) :
    CacheState.Ok { cs with items := as.reverse } := ⟨h.1, by simpa [hl] using h.2⟩

theorem ancGet_some {s : AncState N V} {o : List V} (h : ancGet s = some o) :
    s.cs.items ≠ [] ∧ o.length = s.cs.items.length := by
  obtain ⟨h1, rfl⟩ : s.cs.items ≠ [] ∧ s.cs.items.reverse = o := by simpa [ancGet] using h
  exact ⟨h1, by simp⟩

theorem AncState.Ok.put [SplitNode N V] {s : AncState N V} {o o' : List V} (h : s.Ok) (h1 : ancGet s = some o)
    (h2 : o'.length = o.length) : ((lendAncestors (N := N) (V := V)).put s o').Ok := by
  obtain ⟨h3, h4⟩ := ancGet_some h1
  rcases h with h | h
  · exact .inl (h.write (h2.trans h4))
  · exact absurd h.2.1 h3

/-- The iterator of leaves is at a node, or it has finished. -/
def AncState.LvOk (s : AncState N V) : Prop := s.cs.Ok ∨ s.cs.items = [] ∧ s.queue = []

theorem lvLoop_ok [TreeNode N V] (isRoot : Bool) (queue : List (List N)) (cs : CacheState V)
    (h : cs.Ok ∨ queue = []) : Safe AncState.LvOk (lvLoop isRoot queue cs) := by
  fun_induction lvLoop isRoot queue cs with
  | case1 => exact .inr ⟨rfl, rfl⟩
  | case2 isRoot cs it q e he => exact (((h.resolve_right (by simp)).settle).err he)
  | case3 isRoot q cs1 cs2 hs n ns hk =>
    have h : cs2.Ok := (((h.resolve_right (by simp)).settle).ok hs)
    exact .inl ⟨h.1, Nat.lt_succ_of_lt h.2⟩
  | case4 isRoot q cs1 cs2 hs n ns hk ih =>
    have h : cs2.Ok := (((h.resolve_right (by simp)).settle).ok hs)
    exact ih (.inl ⟨h.1, Nat.lt_succ_of_lt h.2⟩)
  | case5 q cs1 cs2 hs => exact .inl (((h.resolve_right (by simp)).settle).ok hs)
  | case6 isRoot q cs1 cs2 hs hr e he =>
    have h : cs2.Ok := (((h.resolve_right (by simp)).settle).ok hs)
    exact h.retire.err he
  | case7 isRoot q cs1 cs2 hs hr cs3 h3 ih =>
    have h : cs2.Ok := (((h.resolve_right (by simp)).settle).ok hs)
    exact ih (.inl (h.retire.ok h3))

theorem AncState.LvOk.put [TreeNode N V] {s : AncState N V} {o o' : List V} (h : s.LvOk) (h1 : ancGet s = some o)
    (h2 : o'.length = o.length) : ((lendLeaves (N := N) (V := V)).put s o').LvOk := by
  obtain ⟨h3, h4⟩ := ancGet_some h1
  rcases h with h | h
  · exact .inl (h.write (h2.trans h4))
  · exact absurd h.1 h3

/-! ## `attach_context` -/

namespace CtxCache

/-- All entries have values and there is an ancestor for each entry of the stack and one more. -/
def Ok (s : CtxCache V) : Prop := FullS s.cache s.stack ∧ s.stack.length < s.ancestors.length

theorem Ok.topChildren {s : CtxCache V} (h : s.Ok) : FullL s.topChildren := by
  obtain ⟨anc, path, stack, cache⟩ := s
  cases stack with
  | nil => exact h.1.1
  | cons t st => exact h.1.2 t (by simp)

theorem Ok.setTop {s : CtxCache V} (h : s.Ok) {cs : List (Option (Cache (V × Nat)))} (hc : FullL cs) : (s.setTop cs).Ok := by
  obtain ⟨anc, path, stack, cache⟩ := s
  cases stack with
  | nil => exact ⟨⟨hc, fun _ h => by simp [CtxCache.setTop] at h⟩, h.2⟩
  | cons t st => exact ⟨h.1.tail.cons hc, h.2⟩

/-- `giveBack` leaves the value at the top of the stack, which `popToParent` moves away. -/
theorem Ok.giveBack {s : CtxCache V} (h : s.Ok) : Safe (fun s' => s'.popToParent.Ok) s.giveBack := by
  obtain ⟨anc, path, stack, cache⟩ := s
  match anc, stack, path with
  | v :: a :: as, [], _ => exact fun h => by cases h
  | v :: a :: as, _ :: _, [] => exact fun h => by cases h
  | v :: a :: as, [t], p :: ps =>
    exact ⟨⟨h.1.1.append (.single (.mk _ _ (h.1.2 t (by simp)))), fun _ h => by
      simp [CtxCache.popToParent, CtxCache.pushTop, CtxCache.setTop] at h⟩,
      by simp [CtxCache.popToParent, CtxCache.pushTop, CtxCache.setTop]⟩
  | v :: a :: as, t :: q :: st, p :: ps =>
    refine ⟨h.1.tail.tail.cons ((h.1.2 q (by simp)).append (.single (.mk _ _ (h.1.2 t (by simp))))), ?_⟩
    have := h.2
    simp only [CtxCache.popToParent, CtxCache.pushTop, CtxCache.setTop, List.length_cons] at this ⊢
    omega
  | [], stack, _ => exact absurd h.2 (by simp)
  | [_], _ :: _, _ => exact absurd h.2 (by simp)
  | [v], [], _ => exact h

theorem Ok.advanceDfs (start fuel : Nat) {s : CtxCache V} (h : s.Ok) : Safe Ok (s.advanceDfs start fuel) := by
  induction fuel generalizing s with
  | zero => exact fun h => by cases h
  | succ fuel ih =>
    rw [CtxCache.advanceDfs]
    have ht := h.topChildren
    split
    · exact h
    · rename_i c rest hc
      rw [hc] at ht
      have hf := ht c (by simp)
      obtain ⟨v, cs, hcs⟩ := hf
      simp only [Cache.value]
      have h1 := h.setTop ht.tail
      have h2 : (⟨v.1 :: (s.setTop rest).ancestors, v.2 :: (s.setTop rest).path,
          .mk none (Cache.mk (some v) cs).children :: (s.setTop rest).stack, (s.setTop rest).cache⟩ : CtxCache V).Ok :=
        ⟨h1.1.cons hcs, by simpa using h1.2⟩
      split
      · exact h2
      · exact ih h2
    · rename_i rest hc
      rw [hc] at ht
      have hf : FullL (if rest.isEmpty then [] else rest ++ [none]) := by
        split
        · exact .nil
        · exact ht.tail.append (FullL.none .nil)
      have h1 := (h.setTop hf).giveBack
      split
      · rename_i e he
        exact h1.err he
      · rename_i s1 hs1
        exact ih (h1.ok hs1)

theorem dropSpent_ok {cache : Cache (V × Nat)} (stack : List (Cache (V × Nat))) (anc : List V) (path : List Nat)
    (h : FullS cache stack) (hl : stack.length < anc.length) :
    FullS cache (dropSpent stack anc path).1 ∧
      (dropSpent stack anc path).1.length < (dropSpent stack anc path).2.1.length := by
  induction stack generalizing anc path with
  | nil => exact ⟨h, hl⟩
  | cons t st ih =>
    rw [CtxCache.dropSpent]
    split
    · exact ⟨h, hl⟩
    · refine ih _ _ h.tail ?_
      simp only [List.length_cons, List.length_tail] at hl ⊢
      omega

theorem Ok.retire {s : CtxCache V} (h : s.Ok) : Safe Ok s.retire := by
  unfold CtxCache.retire
  refine Ok.advanceDfs _ _ ?_
  split
  · exact h.setTop h.topChildren.none
  · exact dropSpent_ok _ _ _ h.1 h.2

theorem Ok.settle {s : CtxCache V} (h : s.Ok) : Safe Ok s.settle := by
  obtain ⟨anc, path, stack, cache⟩ := s
  unfold CtxCache.settle
  split
  · rename_i hl
    match anc, path with
    | [], _ => exact absurd h.2 (by simp)
    | [v], _ => simp at hl
    | [v, i], [] => exact fun h => by cases h
    | [v, i], p :: ps => exact ⟨⟨h.1.1.append (.single (Full.leaf (v, p))), h.1.2⟩, by simpa using hl⟩
    | v :: i :: j :: is, path =>
      simp only [CtxCache.popItem]
      split
      · split
        · exact fun h => by cases h
        · refine ⟨h.1.modify _ (Full.leaf _), ?_⟩
          simp only [List.length_cons, List.length_modify] at hl ⊢
          omega
      · exact fun h => by cases h
  · exact h

end CtxCache

/-- The iterator is at a node, or it has finished. -/
def CtxState.Ok {C : Type x} {I : Type w} (s : CtxState V C I) : Prop := s.cc.Ok ∨ s.cc.ancestors = []

theorem CtxState.Ok.new [SplitNode N V] (n : N) (path : List Nat) : (CtxState.new n path : CtxState V (List N) N).Ok :=
  .inl ⟨⟨.nil, fun _ h => by simp [CtxState.new] at h⟩, by simp [CtxState.new]⟩

theorem CtxState.Ok.binNew [SplitNode2 N V] (n : N) (path : List Nat) :
    (CtxState.binNew n path : CtxState V (Option N × Option N) (Option N)).Ok :=
  .inl ⟨⟨.nil, fun _ h => by simp [CtxState.binNew] at h⟩, by simp [CtxState.binNew]⟩

/-- Leaving a context with as many ancestors or more. -/
theorem CtxState.Ok.put {C : Type x} {I : Type w} {s : CtxState V C I} {o o' : Ctx V C} (h : s.Ok) (h1 : ctxGet s = some o)
    (h2 : o.ancestors.length ≤ o'.ancestors.length) :
    CtxState.Ok { s with cc := { s.cc with path := o'.path.reverse, ancestors := o'.ancestors.reverse }, children := o'.children } := by
  obtain ⟨h3, rfl⟩ : s.cc.ancestors ≠ [] ∧ Ctx.mk s.cc.path.reverse s.cc.ancestors.reverse s.children = o := by
    simpa [ctxGet] using h1
  have h4 := h.resolve_right h3
  refine .inl ⟨h4.1, ?_⟩
  have := h4.2
  simp only [List.length_reverse] at h2 ⊢
  omega

theorem checkedSucc_safe (n : Nat) : Safe (fun _ => True) (checkedSucc n) := by
  unfold checkedSucc
  split
  · trivial
  · exact fun h => by cases h

theorem ctxLoop_ok [SplitNode N V] (queue : List (List N)) (cc : CtxCache V) (counter : Nat) (h : cc.Ok) :
    Safe CtxState.Ok (ctxLoop queue cc counter) := by
  induction queue generalizing cc counter with
  | nil =>
    rw [ctxLoop]
    have h1 := h.settle
    split
    · rename_i e he
      exact h1.err he
    · exact fun h => by cases h
  | cons it q ih =>
    have h1 := h.settle
    rw [ctxLoop.eq_def]
    split
    · rename_i e he
      exact h1.err he
    · rename_i cc1 hs
      replace h1 : cc1.Ok := (h1.ok hs)
      cases it with
      | cons n ns =>
        dsimp only
        split
        · rename_i e he
          exact ((checkedSucc_safe counter).err he)
        · exact .inl ⟨h1.1, Nat.lt_succ_of_lt h1.2⟩
      | nil =>
        have h2 := h1.retire
        dsimp only
        split
        · rename_i e he
          exact h2.err he
        · rename_i cc2 hr
          split
          · exact .inr rfl
          · exact ih _ _ (h2.ok hr)

theorem ctxAdvance_ok [SplitNode N V] (s : CtxState V (List N) N) (h : s.Ok) : Safe CtxState.Ok (ctxAdvance s) := by
  unfold ctxAdvance
  split
  · exact h
  · split
    · exact h
    · rename_i he
      split
      · exact fun h => by cases h
      · exact ctxLoop_ok _ _ _ (h.resolve_right (by simpa using he))

theorem binScan_safe (it : List (Option N)) (counter : Nat) : Safe (fun _ => True) (binScan it counter) := by
  induction it generalizing counter with
  | nil => trivial
  | cons o it ih =>
    cases o with
    | some n => trivial
    | none =>
      rw [binScan]
      split
      · rename_i e he
        exact ((checkedSucc_safe counter).err he)
      · exact ih _

theorem binCtxLoop_ok [SplitNode2 N V] (queue : List (List (Option N))) (cc : CtxCache V) (counter : Nat) (h : cc.Ok) :
    Safe CtxState.Ok (binCtxLoop queue cc counter) := by
  induction queue generalizing cc counter with
  | nil =>
    rw [binCtxLoop]
    have h1 := h.settle
    split
    · rename_i e he
      exact h1.err he
    · exact fun h => by cases h
  | cons it q ih =>
    have h1 := h.settle
    rw [binCtxLoop.eq_def]
    split
    · rename_i e he
      exact h1.err he
    · rename_i cc1 hs
      replace h1 : cc1.Ok := (h1.ok hs)
      dsimp only
      split
      · rename_i e he
        exact ((binScan_safe it counter).err he)
      · split
        · rename_i e he
          exact ((checkedSucc_safe _).err he)
        · exact .inl ⟨h1.1, Nat.lt_succ_of_lt h1.2⟩
      · have h2 := h1.retire
        split
        · rename_i e he
          exact h2.err he
        · rename_i cc2 hr
          split
          · exact .inr rfl
          · exact ih _ _ (h2.ok hr)

theorem binCtxAdvance_ok [SplitNode2 N V] (s : CtxState V (Option N × Option N) (Option N)) (h : s.Ok) :
    Safe CtxState.Ok (binCtxAdvance s) := by
  unfold binCtxAdvance
  split
  · exact h
  · split
    · exact h
    · rename_i he
      split
      · exact fun h => by cases h
      · exact binCtxLoop_ok _ _ _ (h.resolve_right (by simpa using he))

end Bfs

/-! ## Collections -/

theorem Coll.ctxPull_safe {S : Type w} {O : Type x} (Inv : S → Prop) (mk : N → List Nat → S)
    (next : S → Except Panic (Option O × S)) (hn : ∀ s, Inv s → Safe (fun r => Inv r.2) (next s))
    (hm : ∀ n path, Inv (mk n path)) (index : Nat) (rest : List N) :
    Safe (fun s : Coll.CtxState N S => ∀ i ∈ s.inner, Inv i) (Coll.ctxPull mk next index rest) := by
  induction rest generalizing index with
  | nil => exact fun i hi => by simp at hi
  | cons n rest ih =>
    rw [Coll.ctxPull]
    have h1 := hn _ (hm n [wrapSucc index])
    split
    · rename_i e he
      exact h1.err he
    · rename_i o s he
      rw [he] at h1
      exact fun i hi => (Option.some.inj hi) ▸ h1
    · exact ih _

theorem Coll.ctxAdvance_safe {S : Type w} {O : Type x} (Inv : S → Prop) (mk : N → List Nat → S)
    (next : S → Except Panic (Option O × S)) (hn : ∀ s, Inv s → Safe (fun r => Inv r.2) (next s))
    (hm : ∀ n path, Inv (mk n path)) (s : Coll.CtxState N S) (h : ∀ i ∈ s.inner, Inv i) :
    Safe (fun s : Coll.CtxState N S => ∀ i ∈ s.inner, Inv i) (Coll.ctxAdvance mk next s) := by
  unfold Coll.ctxAdvance
  split
  · exact Coll.ctxPull_safe Inv mk next hn hm _ _
  · rename_i i hi
    have h1 := hn i (h i hi)
    split
    · rename_i e he
      exact h1.err he
    · rename_i o i' he
      rw [he] at h1
      exact fun j hj => (Option.some.inj hj) ▸ h1
    · exact Coll.ctxPull_safe Inv mk next hn hm _ _

end TreeIter
