import Verif.Model.MutRef
import Verif.Spec.Cells
import Verif.Lemmas.Positions
import Mathlib.Logic.Function.Basic

/-! # Lemmas for iterating by mutable reference -/

universe u v w x y

namespace TreeIter

section Loop
variable {S : Type u} {A : Type v} {M : Type w} {V : Type x} {σ : Type y}

/-- A loop over distinct references that all have a cell. `fill` presents the memory as a function of addresses. -/
theorem forEachMut_spec [DecidableEq A] (next : S → Option A × S) (read : M → A → Option V) (write : M → A → V → M)
    (f : σ → V → σ × V) (fill : (A → V) → M) (k : Nat) (s : S) (refs : List A) (g : A → V) (w : σ)
    (hs : ∀ i, nthCall next i s = refs[i]?) (hnd : refs.Nodup)
    (hread : ∀ g, ∀ a ∈ refs, read (fill g) a = some (g a))
    (hwrite : ∀ g x, ∀ a ∈ refs, write (fill g) a x = fill (Function.update g a x)) :
    ∃ g', forEachMut next read write f k s (fill g) w =
        (fill g', (mapAccum f w ((refs.take k).map g)).2) ∧
      refs.map g' = (mapAccum f w ((refs.take k).map g)).1 ++ (refs.drop k).map g ∧
      ∀ a, a ∉ refs → g' a = g a := by
  induction k generalizing s refs g w with
  | zero => exact ⟨g, by simp [forEachMut, mapAccum], by simp [mapAccum], fun _ _ => rfl⟩
  | succ k ih =>
    have h0 := hs 0
    rw [nthCall, stateAfter] at h0
    rw [forEachMut]
    cases refs with
    | nil =>
      rcases hn : next s with ⟨o, s'⟩
      rw [hn] at h0
      obtain rfl : o = none := by simpa using h0
      exact ⟨g, by simp [mapAccum], by simp [mapAccum], fun _ _ => rfl⟩
    | cons a refs =>
      rcases hn : next s with ⟨o, s'⟩
      rw [hn] at h0
      obtain rfl : o = some a := by simpa using h0
      rw [List.nodup_cons] at hnd
      simp only [hread g a (by simp), hwrite g _ a (by simp)]
      obtain ⟨g', h1, h2, h3⟩ := ih s' refs (Function.update g a (f w (g a)).2) (f w (g a)).1
        (fun i => by
          have := hs (i + 1)
          rw [nthCall, stateAfter, hn] at this
          simpa [nthCall] using this)
        hnd.2 (fun g b hb => hread g b (by simp [hb])) (fun g x b hb => hwrite g x b (by simp [hb]))
      have hne : ∀ b ∈ refs, Function.update g a (f w (g a)).2 b = g b := fun b hb =>
        Function.update_of_ne (fun h : b = a => hnd.1 (h ▸ hb)) _ _
      have e1 : (refs.take k).map (Function.update g a (f w (g a)).2) = (refs.take k).map g :=
        List.map_congr_left fun b hb => hne b (List.mem_of_mem_take hb)
      have e2 : (refs.drop k).map (Function.update g a (f w (g a)).2) = (refs.drop k).map g :=
        List.map_congr_left fun b hb => hne b (List.mem_of_mem_drop hb)
      rw [e1] at h1 h2
      rw [e2] at h2
      refine ⟨g', ?_, ?_, ?_⟩
      · simpa [mapAccum] using h1
      · rw [List.map_cons, h2, h3 a hnd.1]
        simp [mapAccum]
      · intro b hb
        simp only [List.mem_cons, not_or] at hb
        rw [h3 b hb.2, Function.update_of_ne hb.1]

end Loop

section Cells
variable {V : Type u} {W : Type v}

/-- The tree of the same shape whose value at the path `p` is `g p`. -/
def Tree.fill (t : Tree V) (g : List Nat → W) : Tree W := t.located.map fun p => g p.path

theorem withPosL_get (cs : List (Tree V)) (pre : List Nat) (anc : List V) (i j : Nat) :
    (Tree.withPosL pre anc i cs)[j]? = cs[j]?.map fun c => c.withPos (pre ++ [i + j]) anc := by
  induction cs generalizing i j with
  | nil => simp [Tree.withPosL]
  | cons c cs ih =>
    cases j with
    | zero => simp [Tree.withPosL]
    | succ j =>
      rw [Tree.withPosL, List.getElem?_cons_succ, ih, List.getElem?_cons_succ]
      have : i + 1 + j = i + (j + 1) := by omega
      rw [this]

theorem cell_withPos (t : Tree V) (g : List Nat → W) (pre : List Nat) (anc : List V) (q : List Nat) :
    ((t.withPos pre anc).map fun p => g p.path).cell q = (t.cell q).map fun _ => g (pre ++ q) := by
  induction q generalizing t pre anc with
  | nil => cases t; simp [Tree.withPos, Tree.map, Tree.cell]
  | cons i q ih =>
    cases t with
    | node a cs =>
      rw [Tree.withPos, Tree.map_node, Tree.cell, Tree.cell, List.getElem?_map, withPosL_get]
      cases cs[i]? with
      | none => rfl
      | some c => simp [ih]

theorem cell_fill (t : Tree V) (g : List Nat → W) (q : List Nat) :
    (t.fill g).cell q = (t.cell q).map fun _ => g q := by
  simpa [Tree.fill, Tree.located] using cell_withPos t g [] [] q

theorem map_withPos_congr (t : Tree V) (g g' : List Nat → W) (pre : List Nat) (anc : List V)
    (h : ∀ p, pre <+: p → g p = g' p) :
    (t.withPos pre anc).map (fun p => g p.path) = (t.withPos pre anc).map fun p => g' p.path := by
  induction t using Tree.ind generalizing pre anc with
  | h a cs ih =>
    rw [Tree.withPos, Tree.map_node, Tree.map_node]
    congr 1
    · exact h pre (List.prefix_refl pre)
    · refine List.ext_getElem? fun j => ?_
      rw [List.getElem?_map, List.getElem?_map, withPosL_get]
      cases hj : cs[j]? with
      | none => rfl
      | some c =>
        simp only [Option.map_some, Option.some.injEq]
        exact ih c (List.mem_of_getElem? hj) _ _ fun p hp =>
          h p (List.IsPrefix.trans (List.prefix_append ..) hp)

theorem setCell_withPos (t : Tree V) (g : List Nat → W) (x : W) (pre : List Nat) (anc : List V)
    (q : List Nat) (hq : (t.cell q).isSome) :
    ((t.withPos pre anc).map fun p => g p.path).setCell q x =
      (t.withPos pre anc).map fun p => Function.update g (pre ++ q) x p.path := by
  induction q generalizing t pre anc with
  | nil =>
    cases t with
    | node a cs =>
      rw [Tree.withPos, Tree.map_node, Tree.map_node, Tree.setCell]
      congr 1
      · simp
      · refine List.ext_getElem? fun j => ?_
        rw [List.getElem?_map, List.getElem?_map, withPosL_get]
        cases hj : cs[j]? with
        | none => rfl
        | some c =>
          simp only [Option.map_some, Option.some.injEq]
          refine map_withPos_congr c _ _ _ _ fun p hp => ?_
          rw [Function.update_of_ne]
          rintro rfl
          have := hp.length_le
          simp at this
          omega
  | cons i q ih =>
    cases t with
    | node a cs =>
      rw [Tree.withPos, Tree.map_node, Tree.map_node, Tree.setCell, List.getElem?_map, withPosL_get]
      rw [Tree.cell] at hq
      cases hi : cs[i]? with
      | none => rw [hi] at hq; simp at hq
      | some c =>
        rw [hi] at hq
        simp only [Option.map_some]
        congr 1
        · simp
        · refine List.ext_getElem? fun j => ?_
          rw [List.getElem?_map, List.getElem?_set]
          have hlen : i < ((Tree.withPosL pre (anc ++ [a]) 0 cs).map
              (Tree.map fun p => g p.path)).length := by
            rw [List.length_map]
            by_contra hc
            have := withPosL_get cs pre (anc ++ [a]) 0 i
            rw [hi, List.getElem?_eq_none (Nat.le_of_not_lt hc)] at this
            simp at this
          by_cases hij : i = j
          · subst hij
            rw [if_pos rfl, if_pos hlen, withPosL_get, hi]
            simp only [Option.map_some, Option.some.injEq]
            rw [ih c _ _ hq]
            simp
          · rw [if_neg hij, List.getElem?_map, withPosL_get]
            cases hj : cs[j]? with
            | none => rfl
            | some d =>
              simp only [Option.map_some, Option.some.injEq]
              refine map_withPos_congr d _ _ _ _ fun p hp => ?_
              rw [Function.update_of_ne]
              rintro rfl
              obtain ⟨r, hr⟩ := hp
              simp only [List.append_assoc, List.append_cancel_left_eq, List.singleton_append,
                List.cons.injEq] at hr
              omega

theorem setCell_fill (t : Tree V) (g : List Nat → W) (x : W) (q : List Nat) (hq : (t.cell q).isSome) :
    (t.fill g).setCell q x = t.fill (Function.update g q x) := by
  simpa [Tree.fill, Tree.located] using setCell_withPos t g x [] [] q hq

theorem cell_of_mem_withPos (t : Tree V) (pre : List Nat) (anc : List V) :
    ∀ p ∈ (t.withPos pre anc).preorder, ∃ q, p.path = pre ++ q ∧ t.cell q = some p.item := by
  induction t using Tree.ind generalizing pre anc with
  | h a cs ih =>
    rw [Tree.withPos, Tree.preorder_node]
    intro p hp
    rw [List.mem_cons, List.mem_flatMap] at hp
    rcases hp with rfl | ⟨d, hd, hp⟩
    · exact ⟨[], by simp, rfl⟩
    · obtain ⟨j, hj⟩ := List.getElem?_of_mem hd
      rw [withPosL_get] at hj
      cases hc : cs[j]? with
      | none => simp [hc] at hj
      | some c =>
        rw [hc] at hj
        simp only [Option.map_some, Option.some.injEq] at hj
        subst hj
        obtain ⟨q, h1, h2⟩ := ih c (List.mem_of_getElem? hc) _ _ p hp
        exact ⟨j :: q, by simp [h1], by simp [Tree.cell, hc, h2]⟩

theorem cell_of_mem_located (t : Tree V) (p : Pos V) (hp : p ∈ t.located.preorder) :
    t.cell p.path = some p.item := by
  obtain ⟨q, h1, h2⟩ := cell_of_mem_withPos t [] [] p hp
  simp only [List.nil_append] at h1
  rw [h1, h2]

theorem map_congr_mem {α : Type u} {β : Type v} (t : Tree α) (f g : α → β) (h : ∀ a ∈ t.preorder, f a = g a) :
    t.map f = t.map g := by
  induction t using Tree.ind with
  | h a cs ih =>
    rw [Tree.preorder_node] at h
    rw [Tree.map_node, Tree.map_node, h a (by simp)]
    congr 1
    exact List.map_congr_left fun c hc => ih c hc fun b hb =>
      h b (by simp only [List.mem_cons, List.mem_flatMap]; exact Or.inr ⟨c, hc, hb⟩)

/-- Every tree is filled with its own values. -/
theorem exists_fill (t : Tree V) : ∃ g, t.fill g = t := by
  refine ⟨fun p => (t.cell p).getD t.value, ?_⟩
  rw [Tree.fill]
  conv => rhs; rw [← map_item_located t]
  exact map_congr_mem _ _ _ fun p hp => by rw [cell_of_mem_located t p hp]; rfl

theorem shape_fill (t : Tree V) (g : List Nat → W) : (t.fill g).shape = t.shape := by
  rw [Tree.fill, Tree.shape, Tree.map_map, Tree.shape]
  conv => rhs; rw [← map_item_located t, Tree.map_map]
  rfl

/-- The tree of references of a mutably borrowed tree. -/
theorem treeOf_mutRef_aux (t : Tree V) (pre : List Nat) (anc : List V) :
    treeOf (MutRef.mk pre t) = (t.withPos pre anc).map Pos.path := by
  induction t using Tree.ind generalizing pre anc with
  | h a cs ih =>
    rw [treeOf, unfold_eq, Tree.map_node, Tree.withPos, Tree.map_node]
    congr 1
    refine List.ext_getElem? fun j => ?_
    simp only [List.getElem?_map, withPosL_get, kids, split, Tree.children, List.getElem?_mapIdx,
      Option.map_map]
    cases hj : cs[j]? with
    | none => rfl
    | some c =>
      simp only [Option.map_some, Option.some.injEq, Function.comp_apply]
      simpa [treeOf] using ih c (List.mem_of_getElem? hj) (pre ++ [j]) (anc ++ [a])

theorem treeOf_mutRef (t : Tree V) : treeOf (MutRef.mk [] t) = t.located.map Pos.path :=
  treeOf_mutRef_aux t [] []

theorem leaves_sublist_preorder (t : Tree V) : t.leaves.Sublist t.preorder := by
  induction t using Tree.ind with
  | h a cs ih =>
    rw [Tree.leaves_node, Tree.preorder_node]
    split
    · exact List.Sublist.cons_cons a (List.nil_sublist _)
    · refine List.Sublist.cons a ?_
      rename_i h
      clear h
      induction cs with
      | nil => exact List.Sublist.refl _
      | cons c cs ihc =>
        rw [List.flatMap_cons, List.flatMap_cons]
        exact List.Sublist.append (ih c (by simp)) (ihc fun d hd => ih d (by simp [hd]))

/-! ## Binary trees -/

/-- The binary tree of the same shape whose value at the path `p` is `g p`. -/
def BinTree.fill (t : BinTree V) (g : List Nat → W) : BinTree W := t.located.map fun p => g p.path

theorem cell_withPos2 (t : BinTree V) (g : List Nat → W) (pre : List Nat) (anc : List V) (q : List Nat) :
    ((t.withPos pre anc).map fun p => g p.path).cell q = (t.cell q).map fun _ => g (pre ++ q) := by
  induction q generalizing t pre anc with
  | nil => cases t; simp [BinTree.withPos, BinTree.map, BinTree.cell]
  | cons i q ih =>
    rcases t with ⟨a, _ | l, _ | r⟩ <;> rcases i with _ | _ | i <;>
      simp [BinTree.withPos, BinTree.withPosO, BinTree.map, BinTree.mapO, BinTree.cell, ih]

theorem cell_fill2 (t : BinTree V) (g : List Nat → W) (q : List Nat) :
    (t.fill g).cell q = (t.cell q).map fun _ => g q := by
  simpa [BinTree.fill, BinTree.located] using cell_withPos2 t g [] [] q

theorem map_withPos2_congr (t : BinTree V) (g g' : List Nat → W) (pre : List Nat) (anc : List V)
    (h : ∀ p, pre <+: p → g p = g' p) :
    (t.withPos pre anc).map (fun p => g p.path) = (t.withPos pre anc).map fun p => g' p.path := by
  induction t using BinTree.ind generalizing pre anc with
  | h a l r ihl ihr =>
    rw [BinTree.withPos, BinTree.map, BinTree.map]
    congr 1
    · exact h pre (List.prefix_refl pre)
    · cases l with
      | none => rfl
      | some l =>
        simp only [BinTree.withPosO, BinTree.mapO, Option.some.injEq]
        exact ihl l rfl _ _ fun p hp => h p (List.IsPrefix.trans (List.prefix_append ..) hp)
    · cases r with
      | none => rfl
      | some l =>
        simp only [BinTree.withPosO, BinTree.mapO, Option.some.injEq]
        exact ihr l rfl _ _ fun p hp => h p (List.IsPrefix.trans (List.prefix_append ..) hp)

theorem mapO_update_other (o : Option (BinTree V)) (g : List Nat → W) (x : W) (pre : List Nat)
    (anc : List V) (q : List Nat) (h : ¬ pre <+: q) :
    BinTree.mapO (fun p => g p.path) (BinTree.withPosO pre anc o) =
      BinTree.mapO (fun p => Function.update g q x p.path) (BinTree.withPosO pre anc o) := by
  cases o with
  | none => rfl
  | some t =>
    simp only [BinTree.withPosO, BinTree.mapO, Option.some.injEq]
    refine map_withPos2_congr t _ _ _ _ fun p hp => ?_
    rw [Function.update_of_ne]
    rintro rfl
    exact h hp

theorem setCell_withPos2 (t : BinTree V) (g : List Nat → W) (x : W) (pre : List Nat) (anc : List V)
    (q : List Nat) (hq : (t.cell q).isSome) :
    ((t.withPos pre anc).map fun p => g p.path).setCell q x =
      (t.withPos pre anc).map fun p => Function.update g (pre ++ q) x p.path := by
  induction q generalizing t pre anc with
  | nil =>
    rcases t with ⟨a, l, r⟩
    have h1 : ∀ i, ¬ pre ++ [i] <+: pre ++ [] := by
      intro i h
      have := h.length_le
      simp at this
      omega
    rw [BinTree.withPos, BinTree.map, BinTree.map, BinTree.setCell,
      mapO_update_other l g x _ _ _ (h1 0), mapO_update_other r g x _ _ _ (h1 1)]
    simp
  | cons i q ih =>
    have h1 : ∀ j, j ≠ i → ¬ pre ++ [j] <+: pre ++ i :: q := by
      rintro j hj ⟨r, hr⟩
      simp only [List.append_assoc, List.append_cancel_left_eq, List.singleton_append,
        List.cons.injEq] at hr
      exact hj hr.1
    rcases t with ⟨a, l, r⟩
    match i with
    | 0 =>
      cases l with
      | none => simp [BinTree.cell] at hq
      | some l =>
        rw [BinTree.withPos, BinTree.map, BinTree.map]
        simp only [BinTree.withPosO, BinTree.mapO, BinTree.setCell]
        rw [ih l _ _ (by simpa [BinTree.cell] using hq),
          mapO_update_other r g x _ _ _ (h1 1 (by simp))]
        simp
    | 1 =>
      cases r with
      | none => simp [BinTree.cell] at hq
      | some r =>
        rw [BinTree.withPos, BinTree.map, BinTree.map]
        simp only [BinTree.withPosO, BinTree.mapO, BinTree.setCell]
        rw [ih r _ _ (by simpa [BinTree.cell] using hq),
          mapO_update_other l g x _ _ _ (h1 0 (by simp))]
        simp
    | i + 2 => simp [BinTree.cell] at hq

theorem setCell_fill2 (t : BinTree V) (g : List Nat → W) (x : W) (q : List Nat) (hq : (t.cell q).isSome) :
    (t.fill g).setCell q x = t.fill (Function.update g q x) := by
  simpa [BinTree.fill, BinTree.located] using setCell_withPos2 t g x [] [] q hq

theorem cell_of_mem_withPos2 (t : BinTree V) (pre : List Nat) (anc : List V) :
    ∀ p ∈ (t.withPos pre anc).toTree.preorder, ∃ q, p.path = pre ++ q ∧ t.cell q = some p.item := by
  induction t using BinTree.ind generalizing pre anc with
  | h a l r ihl ihr =>
    rw [BinTree.withPos, BinTree.toTree, Tree.preorder_node]
    intro p hp
    rw [List.mem_cons, List.flatMap_append, List.mem_append] at hp
    rcases hp with rfl | hp | hp
    · exact ⟨[], by simp, rfl⟩
    · cases l with
      | none => simp [BinTree.withPosO, BinTree.slotTrees] at hp
      | some l =>
        obtain ⟨q, h1, h2⟩ := ihl l rfl _ _ p (by simpa [BinTree.withPosO, BinTree.slotTrees] using hp)
        exact ⟨0 :: q, by simp [h1], by simp [BinTree.cell, h2]⟩
    · cases r with
      | none => simp [BinTree.withPosO, BinTree.slotTrees] at hp
      | some r =>
        obtain ⟨q, h1, h2⟩ := ihr r rfl _ _ p (by simpa [BinTree.withPosO, BinTree.slotTrees] using hp)
        exact ⟨1 :: q, by simp [h1], by simp [BinTree.cell, h2]⟩

theorem cell_of_mem_located2 (t : BinTree V) (p : Pos V) (hp : p ∈ t.located.toTree.preorder) :
    t.cell p.path = some p.item := by
  obtain ⟨q, h1, h2⟩ := cell_of_mem_withPos2 t [] [] p hp
  simp only [List.nil_append] at h1
  rw [h1, h2]

theorem map_congr_mem2 {α : Type u} {β : Type v} (t : BinTree α) (f g : α → β)
    (h : ∀ a ∈ t.toTree.preorder, f a = g a) : t.map f = t.map g := by
  induction t using BinTree.ind with
  | h a l r ihl ihr =>
    rw [BinTree.toTree, Tree.preorder_node] at h
    rw [BinTree.map, BinTree.map, h a (by simp)]
    congr 1
    · cases l with
      | none => rfl
      | some l =>
        simp only [BinTree.mapO, Option.some.injEq]
        exact ihl l rfl fun b hb => h b (by simp [BinTree.slotTrees, hb])
    · cases r with
      | none => rfl
      | some r =>
        simp only [BinTree.mapO, Option.some.injEq]
        exact ihr r rfl fun b hb => h b (by simp [BinTree.slotTrees, hb])

/-- Every binary tree is filled with its own values. -/
theorem exists_fill2 (t : BinTree V) : ∃ g, t.fill g = t := by
  refine ⟨fun p => (t.cell p).getD t.value, ?_⟩
  rw [BinTree.fill]
  conv => rhs; rw [← map_item_located2 t]
  exact map_congr_mem2 _ _ _ fun p hp => by rw [cell_of_mem_located2 t p hp]; rfl

theorem shape_fill2 (t : BinTree V) (g : List Nat → W) : (t.fill g).shape = t.shape := by
  rw [BinTree.fill, BinTree.shape, BinTree.map_map, BinTree.shape]
  conv => rhs; rw [← map_item_located2 t, BinTree.map_map]
  rfl

/-- The tree of references of a mutably borrowed binary tree. -/
theorem binTreeOf_mutRef_aux (t : BinTree V) (pre : List Nat) (anc : List V) :
    binTreeOf (MutRef2.mk pre t) = (t.withPos pre anc).map Pos.path := by
  induction t using BinTree.ind generalizing pre anc with
  | h a l r ihl ihr =>
    rw [binTreeOf, unfold2_eq, BinTree.map, BinTree.withPos, BinTree.map]
    simp only [split2, BinTree.mapO_eq]
    congr 1
    · cases l with
      | none => rfl
      | some l =>
        simp only [Option.map_some, Option.some.injEq, BinTree.withPosO]
        exact ihl l rfl _ _
    · cases r with
      | none => rfl
      | some r =>
        simp only [Option.map_some, Option.some.injEq, BinTree.withPosO]
        exact ihr r rfl _ _

theorem binTreeOf_mutRef (t : BinTree V) : binTreeOf (MutRef2.mk [] t) = t.located.map Pos.path :=
  binTreeOf_mutRef_aux t [] []

end Cells

end TreeIter
