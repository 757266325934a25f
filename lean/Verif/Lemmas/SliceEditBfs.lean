import Verif.Lemmas.SliceEditAnc

universe u v w x y

namespace TreeIter

/-! # Lemmas about editing the ancestors of an owned breadth-first traversal -/

namespace Bfs

section Cache
variable {β : Type u} {γ : Type v}

namespace Cache

mutual
/-- Apply a function to the values of a cache node. -/
def map (g : β → γ) : Cache β → Cache γ
  | .mk v cs => .mk (v.map g) (mapL g cs)
/-- Apply a function to the values of a deque. -/
def mapL (g : β → γ) : List (Option (Cache β)) → List (Option (Cache γ))
  | [] => []
  | c :: cs => mapO g c :: mapL g cs
/-- Apply a function to the values of an entry. -/
def mapO (g : β → γ) : Option (Cache β) → Option (Cache γ)
  | none => none
  | some c => some (c.map g)
end

theorem mapL_append (g : β → γ) (a b : List (Option (Cache β))) : mapL g (a ++ b) = mapL g a ++ mapL g b := by
  induction a with
  | nil => simp [mapL]
  | cons c cs ih => simp [mapL, ih]

theorem mapL_length (g : β → γ) (a : List (Option (Cache β))) : (mapL g a).length = a.length := by
  induction a with
  | nil => simp [mapL]
  | cons c cs ih => simp [mapL, ih]

theorem mapL_isEmpty (g : β → γ) (a : List (Option (Cache β))) : (mapL g a).isEmpty = a.isEmpty := by
  cases a <;> simp [mapL]

theorem map_value (g : β → γ) (c : Cache β) : (c.map g).value = c.value.map g := by
  cases c; simp [map, value]

theorem map_children (g : β → γ) (c : Cache β) : (c.map g).children = mapL g c.children := by
  cases c; simp [map, children]

theorem map_setChildren (g : β → γ) (c : Cache β) (cs : List (Option (Cache β))) :
    (c.setChildren cs).map g = (c.map g).setChildren (mapL g cs) := by
  cases c; simp [map, setChildren, value]

theorem map_pushBack (g : β → γ) (c : Cache β) (d : Option (Cache β)) :
    (c.pushBack d).map g = (c.map g).pushBack (mapO g d) := by
  cases c; simp [map, pushBack, value, children, mapL_append, mapL]

mutual
theorem map_size (g : β → γ) : ∀ c : Cache β, (c.map g).size = c.size
  | .mk v cs => by rw [map, size, size, mapL_size g cs]
theorem mapL_size (g : β → γ) : ∀ cs : List (Option (Cache β)), sizeL (mapL g cs) = sizeL cs
  | [] => by simp [mapL, sizeL]
  | c :: cs => by rw [mapL, sizeL, sizeL, mapO_size g c, mapL_size g cs]
theorem mapO_size (g : β → γ) : ∀ c : Option (Cache β), sizeO (mapO g c) = sizeO c
  | none => by simp [mapO, sizeO]
  | some c => by rw [mapO, sizeO, sizeO, map_size g c]
end

mutual
theorem map_congr_vals (g g' : β → γ) : ∀ c : Cache β, (∀ a ∈ c.vals, g a = g' a) → c.map g = c.map g'
  | .mk v cs, h => by
    rw [vals] at h
    rw [map, map, mapL_congr_vals g g' cs fun a ha => h a (by simp [ha])]
    cases v with
    | none => rfl
    | some v => rw [Option.map_some, Option.map_some, h v (by simp)]
theorem mapL_congr_vals (g g' : β → γ) : ∀ cs : List (Option (Cache β)), (∀ a ∈ valsL cs, g a = g' a) → mapL g cs = mapL g' cs
  | [], _ => by simp [mapL]
  | c :: cs, h => by
    rw [valsL] at h
    rw [mapL, mapL, mapO_congr_vals g g' c fun a ha => h a (by simp [ha]), mapL_congr_vals g g' cs fun a ha => h a (by simp [ha])]
theorem mapO_congr_vals (g g' : β → γ) : ∀ c : Option (Cache β), (∀ a ∈ valsO c, g a = g' a) → mapO g c = mapO g' c
  | none, _ => by simp [mapO]
  | some c, h => by
    rw [valsO] at h
    rw [mapO, mapO, map_congr_vals g g' c h]
end

end Cache

namespace CacheState

/-- Apply a function to the values of a state. -/
def map (g : β → γ) (s : CacheState β) : CacheState γ := ⟨s.items.map g, s.stack.map (Cache.map g), s.cache.map g⟩

theorem map_topChildren (g : β → γ) (s : CacheState β) : (s.map g).topChildren = Cache.mapL g s.topChildren := by
  obtain ⟨items, _ | ⟨t, st⟩, c⟩ := s <;> simp [map, topChildren, Cache.map_children]

theorem map_setTop (g : β → γ) (s : CacheState β) (cs : List (Option (Cache β))) :
    (s.setTop cs).map g = (s.map g).setTop (Cache.mapL g cs) := by
  obtain ⟨items, _ | ⟨t, st⟩, c⟩ := s <;> simp [map, setTop, Cache.map_setChildren]

theorem map_total (g : β → γ) (s : CacheState β) : (s.map g).total = s.total := by
  simp only [total, map, List.map_map, Cache.map_size]
  congr 2
  refine List.map_congr_left fun c _ => ?_
  simp [Cache.map_size]

theorem map_moveUp (g : β → γ) (s : CacheState β) : (s.map g).moveUp = s.moveUp.map (map g) := by
  obtain ⟨items, stack, c⟩ := s
  rcases items with _ | ⟨x, _ | ⟨y, items⟩⟩ <;> rcases stack with _ | ⟨t, _ | ⟨t', stack⟩⟩ <;>
    simp [map, moveUp, Except.map, Cache.map_pushBack, Cache.mapO, Cache.map, Cache.map_children]

theorem map_advanceDfs (g : β → γ) (start fuel : Nat) (s : CacheState β) :
    (s.map g).advanceDfs start fuel = (s.advanceDfs start fuel).map (map g) := by
  induction fuel generalizing s with
  | zero => rfl
  | succ fuel ih =>
    rw [advanceDfs, advanceDfs, map_topChildren]
    rcases s.topChildren with _ | ⟨_ | c, rest⟩
    · simp [Cache.mapL, Except.map]
    · simp only [Cache.mapL, Cache.mapO]
      have h1 : (if (Cache.mapL g rest).isEmpty then [] else Cache.mapL g rest ++ [none]) =
          Cache.mapL g (if rest.isEmpty then [] else rest ++ [none]) := by
        rw [Cache.mapL_isEmpty]
        split <;> simp [Cache.mapL, Cache.mapL_append, Cache.mapO]
      rw [h1, ← map_setTop, map_moveUp]
      rcases (s.setTop (if rest.isEmpty then [] else rest ++ [none])).moveUp with e | s1
      · rfl
      · exact ih s1
    · simp only [Cache.mapL, Cache.mapO, Cache.map_value]
      rcases c.value with _ | v
      · rfl
      · have h1 : (⟨g v :: ((s.map g).setTop (Cache.mapL g rest)).items,
            .mk none (c.map g).children :: ((s.map g).setTop (Cache.mapL g rest)).stack,
            ((s.map g).setTop (Cache.mapL g rest)).cache⟩ : CacheState γ) =
            map g ⟨v :: (s.setTop rest).items, .mk none c.children :: (s.setTop rest).stack, (s.setTop rest).cache⟩ := by
          rw [← map_setTop]
          simp [map, Cache.map, Cache.map_children]
        simp only [Option.map_some, h1, ih]
        have h2 : (g v :: ((s.map g).setTop (Cache.mapL g rest)).items).length = (v :: (s.setTop rest).items).length := by
          rw [← map_setTop]; simp [map]
        rw [Cache.map_children, Cache.mapL_isEmpty, h2]
        split <;> rfl

theorem map_modify {α : Type u} {δ : Type v} (h : α → δ) (a : α → α) (b : δ → δ) (hab : ∀ x, b (h x) = h (a x)) (l : List α) (i : Nat) :
    (l.map h).modify i b = (l.modify i a).map h := by
  induction l generalizing i with
  | nil => simp
  | cons x l ih => cases i <;> simp [hab, ih]

theorem map_popItem (g : β → γ) (s : CacheState β) : (s.map g).popItem = s.popItem.map (map g) := by
  obtain ⟨items, stack, c⟩ := s
  rcases items with _ | ⟨x, _ | ⟨y, items⟩⟩
  · rfl
  · simp [map, popItem, Except.map]
  · simp only [popItem, map, List.map_cons, List.isEmpty_map, List.length_cons, List.length_map]
    split
    · simp [Except.map, map, Cache.map_pushBack, Cache.mapO, Cache.map, Cache.mapL]
    · split
      · simp only [Except.map, map, List.map_cons]
        rw [map_modify (Cache.map g) (·.pushBack (some (.mk (some x) [])))]
        intro t
        simp [Cache.map_pushBack, Cache.mapO, Cache.map, Cache.mapL]
      · rfl

theorem map_dropSpent (g : β → γ) (stack : List (Cache β)) (items : List β) :
    dropSpent (stack.map (Cache.map g)) (items.map g) =
      ((dropSpent stack items).1.map (Cache.map g), (dropSpent stack items).2.map g) := by
  induction stack generalizing items with
  | nil => simp [dropSpent]
  | cons t st ih =>
    simp only [List.map_cons, dropSpent, Cache.map_children, Cache.mapL_length]
    split
    · simp
    · simpa using ih items.tail

theorem map_retire (g : β → γ) (s : CacheState β) : (s.map g).retire = s.retire.map (map g) := by
  simp only [retire, map_topChildren, Cache.mapL_isEmpty]
  split
  · have h1 : (s.map g).setTop (none :: Cache.mapL g s.topChildren) = (s.setTop (none :: s.topChildren)).map g := by
      rw [map_setTop]; simp [Cache.mapL, Cache.mapO]
    rw [h1, map_total, map_advanceDfs]
    simp [map]
  · have h1 : (⟨(dropSpent (s.map g).stack (s.map g).items).2, (dropSpent (s.map g).stack (s.map g).items).1, (s.map g).cache⟩ :
        CacheState γ) = map g ⟨(dropSpent s.stack s.items).2, (dropSpent s.stack s.items).1, s.cache⟩ := by
      simp [map, map_dropSpent]
    rw [h1, map_total, map_advanceDfs]
    simp [map]

theorem map_settle (g : β → γ) (s : CacheState β) : settle (s.map g) = (settle s).map (map g) := by
  simp only [settle]
  rw [map_popItem]
  simp only [map, List.length_map]
  split <;> rfl

end CacheState

end Cache

variable {N : Type u} {V : Type v} {N' : Type w} {V' : Type x}

/-- Apply a function to the nodes and one to the values of a state. -/
def AncState.map (h : N → N') (g : V → V') (s : AncState N V) : AncState N' V' :=
  ⟨s.isRoot, s.cs.map g, s.queue.map (List.map h)⟩

theorem ancLoop_map [SplitNode N V] [SplitNode N' V'] {h : N → N'} {g : V → V'} (hh : NodeHom h g) (queue : List (List N))
    (cs : CacheState V) :
    ancLoop (queue.map (List.map h)) (cs.map g) = (ancLoop queue cs).map (AncState.map h g) := by
  induction queue generalizing cs with
  | nil =>
    rw [ancLoop, ancLoop, CacheState.map_settle]
    rcases settle cs with e | cs <;> rfl
  | cons l q ih =>
    rw [ancLoop, ancLoop, CacheState.map_settle]
    rcases settle cs with e | cs
    · rfl
    · cases l with
      | cons n ns => simp [Except.map, AncState.map, CacheState.map, hh.val, hh.kids]
      | nil =>
        simp only [Except.map, List.map_cons, List.map_nil, CacheState.map_retire]
        rcases cs.retire with e | cs
        · rfl
        · simp only [List.isEmpty_map, ih]
          split
          · simp [AncState.map, CacheState.map]
          · rfl

theorem ancNext_map [SplitNode N V] [SplitNode N' V'] {h : N → N'} {g : V → V'} (hh : NodeHom h g) (s : AncState N V) :
    ancNext (s.map h g) = (ancNext s).map fun r => (r.1.map (List.map g), r.2.map h g) := by
  have h1 : ancAdvance (s.map h g) = (ancAdvance s).map (AncState.map h g) := by
    obtain ⟨isRoot, cs, queue⟩ := s
    cases isRoot with
    | true => rfl
    | false => exact ancLoop_map hh queue cs
  have h2 : ∀ s : AncState N V, ancGet (s.map h g) = (ancGet s).map (List.map g) := by
    intro s
    simp only [ancGet, AncState.map, CacheState.map, List.length_map]
    split <;> simp
  simp only [ancNext, streamNextE, h1]
  rcases ancAdvance s with e | s'
  · rfl
  · simp [Except.map, h2]

/-- All values in the state and in the nodes to come. -/
def AncState.allVals (s : AncState (Tree V) V) : List V := s.cs.live ++ pend s.queue

theorem dropSpent_count {β : Type u} [BEq β] (stack : List (Cache β)) (items : List β) (c : Cache β) (a : β) :
    (⟨(CacheState.dropSpent stack items).2, (CacheState.dropSpent stack items).1, c⟩ : CacheState β).live.count a ≤
      (⟨items, stack, c⟩ : CacheState β).live.count a := by
  induction stack generalizing items with
  | nil => simp [CacheState.dropSpent]
  | cons t st ih =>
    rw [CacheState.dropSpent]
    split
    · exact Nat.le_refl _
    · have := ih items.tail
      have := count_tail_le a items
      simp only [CacheState.live, CacheState.kept, List.flatMap_cons, List.count_append] at *
      omega

theorem dropSpent_mem {β : Type u} (stack : List (Cache β)) (items : List β) :
    ∀ t ∈ (CacheState.dropSpent stack items).1, t ∈ stack := by
  induction stack generalizing items with
  | nil => simp [CacheState.dropSpent]
  | cons t st ih =>
    rw [CacheState.dropSpent]
    split
    · exact fun _ h => h
    · exact fun t h => List.mem_cons_of_mem _ (ih _ t h)

theorem retire_count {β : Type u} [BEq β] [LawfulBEq β] (s s' : CacheState β) (hn : NoValue s) (h : s.retire = .ok s') :
    (∀ a, s'.live.count a ≤ s.live.count a) ∧ NoValue s' := by
  simp only [CacheState.retire] at h
  split at h
  · obtain ⟨h1, h2⟩ := advanceDfs_live _ _ _ _ (setTop_noValue _ _ hn) h
    refine ⟨fun a => ?_, h2⟩
    have h3 := setTop_live s (none :: s.topChildren)
    rw [valsL_none] at h3
    rw [h1.count_eq, ((List.perm_append_right_iff _).1 h3).count_eq]
    exact Nat.le_refl _
  · obtain ⟨h1, h2⟩ := advanceDfs_live _ _ _ _ (by
      intro t ht
      exact hn t (dropSpent_mem _ _ t ht)) h
    refine ⟨fun a => ?_, h2⟩
    rw [h1.count_eq]
    exact dropSpent_count _ _ _ a

theorem popItem_noValue {β : Type u} (s s' : CacheState β) (hn : NoValue s) (h : s.popItem = .ok s') : NoValue s' := by
  obtain ⟨items, stack, c⟩ := s
  rcases items with _ | ⟨x, _ | ⟨y, items⟩⟩
  · simp [CacheState.popItem] at h
  · obtain rfl := Except.ok.inj h
    exact hn
  · simp only [CacheState.popItem] at h
    split at h
    · obtain rfl := Except.ok.inj h
      exact hn
    · split at h
      · obtain rfl := Except.ok.inj h
        intro t ht
        obtain ⟨i, hi⟩ := List.getElem?_of_mem ht
        simp only [List.getElem?_modify, Option.map_eq_map, Option.map_eq_some_iff] at hi
        obtain ⟨t', h1, rfl⟩ := hi
        have := hn t' (List.mem_of_getElem? h1)
        split
        · cases t'; simpa [Cache.pushBack, Cache.value] using this
        · exact this
      · simp at h

theorem settle_noValue {β : Type u} (s s' : CacheState β) (hn : NoValue s) (h : settle s = .ok s') : NoValue s' := by
  rw [settle] at h
  split at h
  · exact popItem_noValue s s' hn h
  · obtain rfl := Except.ok.inj h
    exact hn

theorem ancLoop_count [BEq V] [LawfulBEq V] (queue : List (List (Tree V))) (cs : CacheState V) (s : AncState (Tree V) V)
    (hn : NoValue cs) (h : ancLoop queue cs = .ok s) :
    (∀ a, s.allVals.count a ≤ (cs.live ++ pend queue).count a) ∧ NoValue s.cs := by
  induction queue generalizing cs with
  | nil =>
    rw [ancLoop] at h
    split at h <;> cases h
  | cons l q ih =>
    rw [ancLoop] at h
    split at h
    · cases h
    · rename_i cs1 h1
      have h2 := fun a => (settle_live _ _ h1).count_eq a
      have h3 := settle_noValue _ _ hn h1
      cases l with
      | cons n ns =>
        simp only [Except.ok.injEq] at h
        subst h
        refine ⟨fun a => ?_, h3⟩
        specialize h2 a
        simp only [AncState.allVals, CacheState.live, CacheState.kept, List.cons_append, pend_cons, pend_append, List.flatMap_cons,
          List.count_append, List.count_cons, preorder_kids n] at h2 ⊢
        simp only [pend, List.flatMap_nil, List.count_nil]
        omega
      | nil =>
        simp only at h
        split at h
        · cases h
        · rename_i cs2 h4
          obtain ⟨h5, h6⟩ := retire_count _ _ h3 h4
          split at h
          · simp only [Except.ok.injEq] at h
            subst h
            refine ⟨fun a => ?_, h6⟩
            specialize h2 a
            specialize h5 a
            simp only [AncState.allVals, CacheState.live, CacheState.kept, List.count_append, pend, List.flatMap_nil, List.count_nil] at h2 h5 ⊢
            omega
          · obtain ⟨h7, h8⟩ := ih _ h6 h
            refine ⟨fun a => ?_, h8⟩
            specialize h2 a
            specialize h5 a
            specialize h7 a
            rw [List.count_append] at h7 ⊢
            simp only [pend_cons, List.flatMap_nil, List.nil_append]
            omega

/-- Every value is in one place. -/
def AncState.Good (s : AncState (Tree V) V) : Prop := s.allVals.Nodup ∧ NoValue s.cs

theorem ancAdvance_good [BEq V] [LawfulBEq V] (s s' : AncState (Tree V) V) (h : s.Good) (ha : ancAdvance s = .ok s') :
    s'.Good := by
  obtain ⟨isRoot, cs, queue⟩ := s
  cases isRoot with
  | true =>
    obtain rfl := Except.ok.inj ha
    exact h
  | false =>
    have h1 := ancLoop_count queue cs s' h.2 ha
    exact ⟨nodup_of_count_le h1.1 h.1, h1.2⟩

theorem edit_map {A : Type u} [DecidableEq A] (s : AncState (Tree A) A) (h : s.allVals.Nodup) (g : A → V) (ys : List V) :
    (s.map (Tree.map g) g).edit ys =
      s.map (Tree.map (writeAll g s.cs.items.reverse ys)) (writeAll g s.cs.items.reverse ys) := by
  simp only [AncState.allVals, CacheState.live, CacheState.kept, List.append_assoc] at h
  obtain ⟨h1, -, h3⟩ := List.nodup_append.1 h
  simp only [AncState.map, AncState.edit, CacheState.map, map_writeAll_reverse _ _ _ h1]
  rw [← map_pend_writeAll _ _ _ _ fun a ha hi => h3 a (List.mem_reverse.1 hi) a (by simp [ha]) rfl]
  congr 2
  · refine List.map_congr_left fun c hc => Cache.map_congr_vals _ _ _ fun a ha => (writeAll_of_notMem _ _ _ _ fun hi => ?_).symm
    exact h3 a (List.mem_reverse.1 hi) a (by rw [List.mem_append]; exact .inl (List.mem_flatMap.2 ⟨c, hc, ha⟩)) rfl
  · refine Cache.map_congr_vals _ _ _ fun a ha => (writeAll_of_notMem _ _ _ _ fun hi => ?_).symm
    exact h3 a (List.mem_reverse.1 hi) a (by simp [ha]) rfl

theorem ancGet_items (s : AncState N V) (as : List V) (h : ancGet s = some as) : as = s.cs.items.reverse := by
  simp only [ancGet] at h
  split at h
  · cases h
  · exact (Option.some.inj h).symm

end Bfs

end TreeIter
