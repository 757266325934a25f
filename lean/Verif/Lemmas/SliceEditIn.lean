import Verif.Lemmas.SliceEditAnc

/-! # Lemmas about editing the ancestors of an owned in-order traversal -/

universe u v w x y

namespace TreeIter

variable {N : Type u} {V : Type v} {N' : Type w} {V' : Type x}

/-- A map of binary nodes. -/
structure BinNodeHom [SplitNode2 N V] [SplitNode2 N' V'] (h : N → N') (g : V → V') : Prop where
  val : ∀ n, val2 (h n) = g (val2 n)
  left : ∀ n, (split2 (h n)).2.1 = (split2 n).2.1.map h
  right : ∀ n, (split2 (h n)).2.2 = (split2 n).2.2.map h

theorem binTreeOf_hom [BinNode N V] : BinNodeHom (V := V) (V' := V) (binTreeOf : N → BinTree V) id where
  val n := by rw [binTreeOf, unfold2_eq, BinTree.map]; rfl
  left n := by
    rw [binTreeOf, unfold2_eq, BinTree.map, BinTree.mapO_eq]
    simp only [split2, Option.map_map]
    rfl
  right n := by
    rw [binTreeOf, unfold2_eq, BinTree.map, BinTree.mapO_eq, BinTree.mapO_eq]
    simp only [split2, Option.map_map]
    rfl

theorem binTreeMap_hom (g : V → V') : BinNodeHom (V := V) (V' := V') (BinTree.map g) g where
  val t := by cases t; rw [BinTree.map]; rfl
  left t := by cases t; rw [BinTree.map, BinTree.mapO_eq]; rfl
  right t := by cases t; rw [BinTree.map, BinTree.mapO_eq, BinTree.mapO_eq]; rfl

/-- The values in a slot. -/
def slotVals (o : Option (BinTree V)) : List V := o.toList.flatMap fun t => t.toTree.preorder

theorem slotVals_some (t : BinTree V) :
    slotVals (some t) = val2 t :: (slotVals (split2 t).2.1 ++ slotVals (split2 t).2.2) := by
  obtain ⟨a, l, r⟩ := t
  simp only [slotVals, Option.toList_some, List.flatMap_cons, List.flatMap_nil, List.append_nil, BinTree.toTree,
    Tree.preorder_node, BinTree.slotTrees_eq, List.flatMap_append]
  cases l <;> cases r <;> simp [val2, split2]

theorem map_slot_writeAll {A : Type u} [DecidableEq A] (g : A → V) (as : List A) (ys : List V) (o : Option (BinTree A))
    (h : ∀ a ∈ slotVals o, a ∉ as) : o.map (BinTree.map g) = o.map (BinTree.map (writeAll g as ys)) := by
  cases o with
  | none => rfl
  | some t =>
    refine congrArg some (map_congr_mem2 _ _ _ fun a ha => (writeAll_of_notMem _ _ _ _ (h a ?_)).symm)
    simpa [slotVals] using ha

namespace Inorder

/-- Apply a function to the nodes and one to the values of a state. -/
def AncState.map (h : N → N') (g : V → V') (s : AncState N V) : AncState N' V' :=
  ⟨s.right.map (Option.map h), s.items.map g, s.status⟩

theorem ancFind_map (h : N → N') (g : V → V') (st : List Status) (it : List V) (ri : List (Option N)) :
    ancFind st (it.map g) (ri.map (Option.map h)) =
      (ancFind st it ri).map (AncState.map h g) (fun r => (h r.1, r.2.map h g)) := by
  fun_induction ancFind st it ri with
  | case1 ss items right ih =>
    rw [ancFind, ← List.map_tail, ih]
  | case2 => rw [ancFind]; simp [AncState.map]
  | case3 => rw [List.map_nil, ancFind]; simp [AncState.map]
  | case4 => rw [List.map_cons, Option.map_some, ancFind]; simp [AncState.map]
  | case5 ss items right ih =>
    rw [← ih, List.map_cons, Option.map_none]
    conv => lhs; rw [ancFind]
  | case6 => rw [List.map_nil, ancFind]; simp [AncState.map]
  | case7 => rw [List.map_cons, Option.map_some, ancFind]; simp [AncState.map]
  | case8 items right ih => rw [List.map_cons, Option.map_none, ancFind, ih]

theorem ancDescend_map [BinNode N V] [BinNode N' V'] {h : N → N'} {g : V → V'} (hh : BinNodeHom h g) (o : Option N)
    (s : AncState N V) : ancDescend (o.map h) (s.map h g) = (ancDescend o s).map h g := by
  fun_induction ancDescend o s with
  | case1 => rw [Option.map_none, ancDescend]
  | case2 n s ih =>
    rw [← ih, Option.map_some, ancDescend, hh.left]
    congr 1
    simp [AncState.map, hh.right, hh.val]

theorem ancAdvance_map [BinNode N V] [BinNode N' V'] {h : N → N'} {g : V → V'} (hh : BinNodeHom h g) (s : AncState N V) :
    ancAdvance (s.map h g) = (ancAdvance s).map (AncState.map h g) := by
  have h1 := ancFind_map h g s.status s.items s.right
  simp only [ancAdvance]
  simp only [AncState.map] at h1 ⊢
  rw [h1]
  rcases ancFind s.status s.items s.right with s' | ⟨n, s'⟩
  · rfl
  · have h2 := ancDescend_map hh (some n) s'
    simp only [Option.map_some] at h2
    simp only [Sum.map_inr, AncState.map] at h2 ⊢
    rw [h2]
    simp only
    rcases (ancDescend (some n) s').status with _ | ⟨_, ss⟩ <;> rfl

theorem ancNext_map [BinNode N V] [BinNode N' V'] {h : N → N'} {g : V → V'} (hh : BinNodeHom h g) (s : AncState N V) :
    ancNext (s.map h g) = (ancNext s).map fun r => (r.1.map (List.map g), r.2.map h g) := by
  have h2 : ∀ s : AncState N V, ancGet (s.map h g) = (ancGet s).map (List.map g) := by
    intro s
    simp only [ancGet, AncState.map, List.length_map]
    split <;> simp
  simp only [ancNext, streamNextE, ancAdvance_map hh]
  rcases ancAdvance s with e | s'
  · rfl
  · simp [Except.map, h2]

/-- All values in the state and in the nodes to come. -/
def AncState.live (s : AncState (BinTree V) V) : List V := s.items ++ s.right.flatMap slotVals

theorem ancFind_count [BEq V] (st : List Status) (it : List V) (ri : List (Option (BinTree V))) (a : V) :
    (match ancFind st it ri with
      | .inl s => s.live.count a
      | .inr (n, s) => (slotVals (some n) ++ s.live).count a) ≤ (it ++ ri.flatMap slotVals).count a := by
  fun_induction ancFind st it ri with
  | case1 ss items right ih =>
    have := count_tail_le a items
    rw [List.count_append] at ih ⊢
    omega
  | case2 => exact Nat.le_refl _
  | case3 => simp [AncState.live]
  | case4 => simp only [AncState.live, List.flatMap_cons, List.count_append]; omega
  | case5 ss items right ih => simpa [slotVals] using ih
  | case6 => simp [AncState.live]
  | case7 => simp only [AncState.live, List.flatMap_cons, List.count_append]; omega
  | case8 items right ih => simpa [slotVals] using ih

theorem ancDescend_count [BEq V] (o : Option (BinTree V)) (s : AncState (BinTree V) V) (a : V) :
    (ancDescend o s).live.count a = (slotVals o ++ s.live).count a := by
  fun_induction ancDescend o s with
  | case1 => simp [slotVals]
  | case2 n s ih =>
    rw [ih, slotVals_some]
    simp only [AncState.live, List.flatMap_cons, List.count_append, List.count_cons, List.cons_append]
    omega

theorem ancAdvance_count [BEq V] [LawfulBEq V] (s s' : AncState (BinTree V) V) (a : V) (ha : ancAdvance s = .ok s') :
    s'.live.count a ≤ s.live.count a := by
  have h1 := ancFind_count s.status s.items s.right a
  rw [ancAdvance] at ha
  generalize ancFind s.status s.items s.right = r at h1 ha
  rcases r with s1 | ⟨n, s1⟩
  · obtain rfl := Except.ok.inj ha
    exact h1
  · have h2 := ancDescend_count (some n) s1 a
    simp only at ha h1
    split at ha
    · cases ha
    · obtain rfl := Except.ok.inj ha
      simp only [AncState.live] at h1 h2 ⊢
      omega

theorem ancAdvance_live [BEq V] [LawfulBEq V] (s s' : AncState (BinTree V) V) (h : s.live.Nodup) (ha : ancAdvance s = .ok s') :
    s'.live.Nodup :=
  nodup_of_count_le (fun a => ancAdvance_count s s' a ha) h

theorem edit_map {A : Type u} [DecidableEq A] (s : AncState (BinTree A) A) (h : s.live.Nodup) (g : A → V) (ys : List V) :
    (s.map (BinTree.map g) g).edit ys =
      s.map (BinTree.map (writeAll g s.items.reverse ys)) (writeAll g s.items.reverse ys) := by
  obtain ⟨h1, -, h3⟩ := List.nodup_append.1 h
  simp only [AncState.map, AncState.edit, map_writeAll_reverse _ _ _ h1]
  congr 1
  refine List.map_congr_left fun o ho => map_slot_writeAll _ _ _ _ fun a ha hi => ?_
  exact h3 a (List.mem_reverse.1 hi) a (List.mem_flatMap.2 ⟨o, ho, ha⟩) rfl

theorem ancGet_items (s : AncState N V) (as : List V) (h : ancGet s = some as) : as = s.items.reverse := by
  simp only [ancGet] at h
  split at h
  · exact (Option.some.inj h).symm
  · cases h

end Inorder

end TreeIter
