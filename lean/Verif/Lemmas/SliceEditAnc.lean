import Verif.Lemmas.SliceEdit

/-! # The ancestor iterators are natural in the values of the nodes and hold each of them at most once -/

universe u v w x y

namespace TreeIter

variable {N : Type u} {V : Type v} {N' : Type w} {V' : Type x}

/-- A map of nodes. -/
structure NodeHom [SplitNode N V] [SplitNode N' V'] (h : N → N') (g : V → V') : Prop where
  val : ∀ n, val (h n) = g (val n)
  kids : ∀ n, kids (h n) = (kids n).map h

theorem treeOf_hom [TreeNode N V] : NodeHom (V := V) (V' := V) (treeOf : N → Tree V) id where
  val n := by rw [treeOf_eq]; rfl
  kids n := by rw [treeOf_eq]; rfl

theorem treeMap_hom (g : V → V') : NodeHom (V := V) (V' := V') (Tree.map g) g where
  val t := by cases t; rw [Tree.map_node]; rfl
  kids t := by cases t; rw [Tree.map_node]; rfl

/-- The values of the nodes that the iterators of a stack have still to yield. -/
def pend (st : List (List (Tree V))) : List V := st.flatMap fun l => l.flatMap Tree.preorder

theorem pend_cons (l : List (Tree V)) (st : List (List (Tree V))) : pend (l :: st) = l.flatMap Tree.preorder ++ pend st := rfl

theorem pend_append (st st' : List (List (Tree V))) : pend (st ++ st') = pend st ++ pend st' := by simp [pend]

theorem preorder_kids (t : Tree V) : t.preorder = val t :: (kids t).flatMap Tree.preorder := by
  cases t
  rw [Tree.preorder_node]
  rfl

section Write
variable {A : Type u} [DecidableEq A]

theorem map_tree_writeAll (g : A → V) (as : List A) (ys : List V) (t : Tree A) (h : ∀ a ∈ t.preorder, a ∉ as) :
    t.map g = t.map (writeAll g as ys) :=
  map_congr_mem _ _ _ fun a ha => (writeAll_of_notMem _ _ _ _ (h a ha)).symm

theorem map_pend_writeAll (g : A → V) (as : List A) (ys : List V) (st : List (List (Tree A))) (h : ∀ a ∈ pend st, a ∉ as) :
    st.map (List.map (Tree.map g)) = st.map (List.map (Tree.map (writeAll g as ys))) := by
  refine List.map_congr_left fun l hl => List.map_congr_left fun t ht => map_tree_writeAll _ _ _ _ fun a ha => h a ?_
  exact List.mem_flatMap.2 ⟨l, hl, List.mem_flatMap.2 ⟨t, ht, ha⟩⟩

theorem map_root_writeAll (g : A → V) (as : List A) (ys : List V) (o : Option (Tree A))
    (h : ∀ a ∈ o.toList.flatMap Tree.preorder, a ∉ as) : o.map (Tree.map g) = o.map (Tree.map (writeAll g as ys)) := by
  cases o with
  | none => rfl
  | some t => exact congrArg some (map_tree_writeAll _ _ _ _ fun a ha => h a (by simpa using ha))

end Write

theorem nodup_of_count_le [BEq V] [LawfulBEq V] {l l' : List V} (h : ∀ a, l'.count a ≤ l.count a) (hl : l.Nodup) : l'.Nodup := by
  rw [List.nodup_iff_count] at hl ⊢
  intro a
  have := h a
  have := hl a
  omega

theorem count_tail_le [BEq V] (a : V) (l : List V) : l.tail.count a ≤ l.count a := by
  cases l with
  | nil => simp
  | cons b l => simp [List.count_cons]

/-! ## Preorder -/

namespace Preorder

/-- Apply a function to the nodes and one to the values of a state. -/
def AncState.map (h : N → N') (g : V → V') (s : AncState N V) : AncState N' V' :=
  ⟨s.root.map h, s.stack.map (List.map h), s.items.map g⟩

theorem ancLoop_map (h : N → N') (g : V → V') (st : List (List N)) (it : List V) :
    ancLoop (st.map (List.map h)) (it.map g) =
      ((ancLoop st it).1.map h, (ancLoop st it).2.1.map (List.map h), (ancLoop st it).2.2.map g) := by
  induction st generalizing it with
  | nil => simp [ancLoop]
  | cons l st ih =>
    cases l with
    | nil => simpa [ancLoop] using ih it.tail
    | cons n ns => simp [ancLoop]

theorem ancNext_map [SplitNode N V] [SplitNode N' V'] {h : N → N'} {g : V → V'} (hh : NodeHom h g) (s : AncState N V) :
    okNext ancNext (s.map h g) = (okNext ancNext s).map fun r => (r.1.map (List.map g), r.2.map h g) := by
  have h1 : ancAdvance (s.map h g) = (ancAdvance s).map h g := by
    obtain ⟨root, st, it⟩ := s
    cases root with
    | some r => simp [ancAdvance, AncState.map, hh.val, hh.kids]
    | none =>
      simp only [ancAdvance, AncState.map, Option.map_none, ancLoop_map]
      rcases ancLoop st it with ⟨_ | n, st', it'⟩
      · simp
      · simp [hh.val, hh.kids]
  have h2 : ∀ s : AncState N V, ancGet (s.map h g) = (ancGet s).map (List.map g) := by
    intro s
    simp only [ancGet, AncState.map, List.length_map]
    split <;> simp
  simp only [okNext, ancNext, streamNext, Except.map, h1, h2]

/-- All values in the state and in the nodes to come. -/
def AncState.live (s : AncState (Tree V) V) : List V := s.items ++ s.root.toList.flatMap Tree.preorder ++ pend s.stack

theorem ancLoop_count [BEq V] (st : List (List (Tree V))) (it : List V) (a : V) :
    (ancLoop st it).2.2.count a + ((ancLoop st it).1.toList.flatMap Tree.preorder).count a +
      (pend (ancLoop st it).2.1).count a ≤ it.count a + (pend st).count a := by
  induction st generalizing it with
  | nil => simp [ancLoop]
  | cons l st ih =>
    cases l with
    | nil =>
      have := ih it.tail
      have := count_tail_le a it
      simp only [ancLoop, pend_cons, List.flatMap_nil, List.nil_append]
      omega
    | cons n ns =>
      simp only [ancLoop, pend_cons, List.flatMap_cons, List.count_append, Option.toList_some, List.flatMap_nil, List.count_nil]
      omega

theorem ancAdvance_count [BEq V] [LawfulBEq V] (s : AncState (Tree V) V) (a : V) :
    (ancAdvance s).live.count a ≤ s.live.count a := by
  obtain ⟨root, st, it⟩ := s
  cases root with
  | some r =>
    simp only [ancAdvance, AncState.live, Option.toList_some, Option.toList_none, List.flatMap_cons, List.flatMap_nil,
      List.count_append, List.count_cons, List.count_nil, pend_cons, preorder_kids r]
    omega
  | none =>
    have := ancLoop_count st it a
    simp only [ancAdvance, AncState.live, Option.toList_none, List.flatMap_nil]
    generalize ancLoop st it = r at this ⊢
    rcases r with ⟨_ | n, st', it'⟩
    · simp only [Option.toList_none, List.flatMap_nil, List.count_append, List.count_nil] at this ⊢
      omega
    · simp only [Option.toList_some, Option.toList_none, List.flatMap_cons, List.flatMap_nil, List.count_append,
        List.count_nil, List.count_cons, pend_cons, preorder_kids n] at this ⊢
      omega

theorem ancAdvance_live [BEq V] [LawfulBEq V] (s : AncState (Tree V) V) (h : s.live.Nodup) :
    (ancAdvance s).live.Nodup :=
  nodup_of_count_le (fun a => ancAdvance_count s a) h

theorem edit_map {A : Type u} [DecidableEq A] (s : AncState (Tree A) A) (h : s.live.Nodup) (g : A → V) (ys : List V) :
    (s.map (Tree.map g) g).edit ys = s.map (Tree.map (writeAll g s.items.reverse ys)) (writeAll g s.items.reverse ys) := by
  simp only [AncState.live, List.append_assoc] at h
  obtain ⟨h1, -, h3⟩ := List.nodup_append.1 h
  simp only [AncState.map, AncState.edit, map_writeAll_reverse _ _ _ h1]
  rw [← map_pend_writeAll _ _ _ _ fun a ha hi => h3 a (List.mem_reverse.1 hi) a (by simp [ha]) rfl,
    ← map_root_writeAll _ _ _ _ fun a ha hi => h3 a (List.mem_reverse.1 hi) a (by rw [List.mem_append]; exact .inl ha) rfl]

theorem ancGet_items (s : AncState N V) (as : List V) (h : ancGet s = some as) : as = s.items.reverse := by
  simp only [ancGet] at h
  split at h
  · exact (Option.some.inj h).symm
  · cases h

end Preorder

/-! ## Postorder -/

namespace Postorder

/-- Apply a function to the nodes and one to the values of a state. -/
def AncState.map (h : N → N') (g : V → V') (s : AncState N V) : AncState N' V' :=
  ⟨s.root.map h, s.items.map g, s.stack.map (List.map h)⟩

theorem ancLoop_map [TreeNode N V] [TreeNode N' V'] {h : N → N'} {g : V → V'} (hh : NodeHom h g) (st : List (List N))
    (it : List V) :
    ancLoop (st.map (List.map h)) (it.map g) = ((ancLoop st it).1.map g, (ancLoop st it).2.map (List.map h)) := by
  fun_induction ancLoop st it with
  | case1 items => simp [ancLoop]
  | case2 rest items => simp [ancLoop]
  | case3 n ns rest items ih =>
    rw [← ih, List.map_cons, List.map_cons, ancLoop, hh.val, hh.kids]
    rfl

theorem ancNext_map [TreeNode N V] [TreeNode N' V'] {h : N → N'} {g : V → V'} (hh : NodeHom h g) (s : AncState N V) :
    okNext ancNext (s.map h g) = (okNext ancNext s).map fun r => (r.1.map (List.map g), r.2.map h g) := by
  have h1 : ancAdvance (s.map h g) = (ancAdvance s).map h g := by
    obtain ⟨root, it, st⟩ := s
    cases root with
    | some r =>
      have := ancLoop_map hh (kids r :: st) (val r :: it)
      rw [List.map_cons, List.map_cons] at this
      simp only [ancAdvance, AncState.map, Option.map_some, hh.val, hh.kids, this, Option.map_none]
    | none =>
      have := ancLoop_map hh st it.tail
      simp only [ancAdvance, AncState.map, Option.map_none, List.map_tail] at this ⊢
      rw [this]
  have h2 : ∀ s : AncState N V, ancGet (s.map h g) = (ancGet s).map (List.map g) := by
    intro s
    simp only [ancGet, AncState.map, List.length_map]
    split <;> simp
  simp only [okNext, ancNext, streamNext, Except.map, h1, h2]

/-- All values in the state and in the nodes to come. -/
def AncState.live (s : AncState (Tree V) V) : List V := s.items ++ s.root.toList.flatMap Tree.preorder ++ pend s.stack

theorem ancLoop_count [BEq V] (st : List (List (Tree V))) (it : List V) (a : V) :
    (ancLoop st it).1.count a + (pend (ancLoop st it).2).count a ≤ it.count a + (pend st).count a := by
  fun_induction ancLoop st it with
  | case1 items => simp
  | case2 rest items => simp [pend_cons]
  | case3 n ns rest items ih =>
    simp only [pend_cons, List.flatMap_cons, List.count_append, List.count_cons, preorder_kids n] at ih ⊢
    omega

theorem ancAdvance_count [BEq V] [LawfulBEq V] (s : AncState (Tree V) V) (a : V) :
    (ancAdvance s).live.count a ≤ s.live.count a := by
  obtain ⟨root, it, st⟩ := s
  cases root with
  | some r =>
    have := ancLoop_count (kids r :: st) (val r :: it) a
    simp only [ancAdvance, AncState.live, Option.toList_some, Option.toList_none, List.flatMap_cons, List.flatMap_nil,
      List.count_append, List.count_cons, List.count_nil, pend_cons, preorder_kids r] at this ⊢
    omega
  | none =>
    have := ancLoop_count st it.tail a
    have := count_tail_le a it
    simp only [ancAdvance, AncState.live, Option.toList_none, List.flatMap_nil, List.count_append, List.count_nil]
    omega

theorem ancAdvance_live [BEq V] [LawfulBEq V] (s : AncState (Tree V) V) (h : s.live.Nodup) :
    (ancAdvance s).live.Nodup :=
  nodup_of_count_le (fun a => ancAdvance_count s a) h

theorem edit_map {A : Type u} [DecidableEq A] (s : AncState (Tree A) A) (h : s.live.Nodup) (g : A → V) (ys : List V) :
    (s.map (Tree.map g) g).edit ys = s.map (Tree.map (writeAll g s.items.reverse ys)) (writeAll g s.items.reverse ys) := by
  simp only [AncState.live, List.append_assoc] at h
  obtain ⟨h1, -, h3⟩ := List.nodup_append.1 h
  simp only [AncState.map, AncState.edit, map_writeAll_reverse _ _ _ h1]
  rw [← map_pend_writeAll _ _ _ _ fun a ha hi => h3 a (List.mem_reverse.1 hi) a (by simp [ha]) rfl,
    ← map_root_writeAll _ _ _ _ fun a ha hi => h3 a (List.mem_reverse.1 hi) a (by rw [List.mem_append]; exact .inl ha) rfl]

theorem ancGet_items (s : AncState N V) (as : List V) (h : ancGet s = some as) : as = s.items.reverse := by
  simp only [ancGet] at h
  split at h
  · exact (Option.some.inj h).symm
  · cases h

end Postorder

end TreeIter
