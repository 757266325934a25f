import Verif.Lemmas.MutPipe

/-! # Lemmas for `map_path_mut` and `prune_path_mut` -/

universe u v w x y z

namespace TreeIter

section Labelled
variable {α : Type u} {β : Type v} {γ : Type w} {σ : Type x}

/-- Mapping with paths is mapping the tree of positions. -/
theorem mapPathS_withPos (f : σ → List Nat → β → σ × γ) (h : Pos α → β) (t : Tree α) :
    ∀ (w : σ) (p : List Nat) (anc : List α),
      ((t.withPos p anc).map h).mapPathS f w p = (t.withPos p anc).mapS (fun w q => f w q.path (h q)) w := by
  induction t using Tree.ind with
  | h a cs ih =>
    have key : ∀ ds : List (Tree α), (∀ c ∈ ds, c ∈ cs) → ∀ (w : σ) (p : List Nat) (anc : List α) (i : Nat),
        Tree.mapPathSL f w p i ((Tree.withPosL p anc i ds).map (Tree.map h)) =
          Tree.mapSL (fun w q => f w q.path (h q)) w (Tree.withPosL p anc i ds) := by
      intro ds
      induction ds with
      | nil => intros; rfl
      | cons c ds ihd =>
        intro hds w p anc i
        rw [Tree.withPosL, List.map_cons, Tree.mapPathSL, Tree.mapSL, ih c (hds c (by simp)),
          ihd fun c hc => hds c (by simp [hc])]
    intro w p anc
    rw [Tree.withPos, Tree.map_node, Tree.mapPathS, Tree.mapS, key cs fun _ h => h]

theorem mapPathS_withPos2 (f : σ → List Nat → β → σ × γ) (h : Pos α → β) (t : BinTree α) :
    ∀ (w : σ) (p : List Nat) (anc : List α),
      ((t.withPos p anc).map h).mapPathS f w p = (t.withPos p anc).mapS (fun w q => f w q.path (h q)) w := by
  induction t using BinTree.ind with
  | h a l r ihl ihr =>
    have slot : ∀ o : Option (BinTree α), (∀ c ∈ o, ∀ (w : σ) (p : List Nat) (anc : List α),
        ((c.withPos p anc).map h).mapPathS f w p = (c.withPos p anc).mapS (fun w q => f w q.path (h q)) w) →
        ∀ (w : σ) (p : List Nat) (anc : List α), BinTree.mapPathSO f w p (BinTree.mapO h (BinTree.withPosO p anc o)) =
          BinTree.mapSO (fun w q => f w q.path (h q)) w (BinTree.withPosO p anc o) := by
      intro o ho w p anc
      cases o with
      | none => rfl
      | some c => simp only [BinTree.withPosO, BinTree.mapO, BinTree.mapPathSO, BinTree.mapSO, ho c rfl]
    intro w p anc
    rw [BinTree.withPos, BinTree.map, BinTree.mapPathS, BinTree.mapS, slot l ihl, slot r ihr]

/-- Pruning with paths is pruning the tree of positions. -/
theorem prunePathS_withPos (f : σ → List Nat → β → σ × Bool) (h : Pos α → β) (t : Tree α) :
    ∀ (w : σ) (p : List Nat) (anc : List α),
      ((t.withPos p anc).map h).prunePathS f w p =
        (((t.withPos p anc).pruneS (fun w q => f w q.path (h q)) w).1,
          ((t.withPos p anc).pruneS (fun w q => f w q.path (h q)) w).2.map (Tree.map h)) := by
  induction t using Tree.ind with
  | h a cs ih =>
    have key : ∀ ds : List (Tree α), (∀ c ∈ ds, c ∈ cs) → ∀ (w : σ) (p : List Nat) (anc : List α) (i : Nat),
        Tree.prunePathSL f w p i ((Tree.withPosL p anc i ds).map (Tree.map h)) =
          ((Tree.pruneSL (fun w q => f w q.path (h q)) w (Tree.withPosL p anc i ds)).1,
            (Tree.pruneSL (fun w q => f w q.path (h q)) w (Tree.withPosL p anc i ds)).2.map (Tree.map h)) := by
      intro ds
      induction ds with
      | nil => intros; rfl
      | cons c ds ihd =>
        intro hds w p anc i
        rw [Tree.withPosL, List.map_cons, Tree.prunePathSL, Tree.pruneSL, ih c (hds c (by simp)),
          ihd fun c hc => hds c (by simp [hc]), List.map_append]
        cases ((c.withPos (p ++ [i]) anc).pruneS (fun w q => f w q.path (h q)) w).2 <;> rfl
    intro w p anc
    rw [Tree.withPos, Tree.map_node, Tree.prunePathS, Tree.pruneS, key cs fun _ h => h]
    split
    · rfl
    · simp [Tree.map_node]

theorem prunePathS_withPos2 (f : σ → List Nat → β → σ × Bool) (h : Pos α → β) (t : BinTree α) :
    ∀ (w : σ) (p : List Nat) (anc : List α),
      ((t.withPos p anc).map h).prunePathS f w p =
        (((t.withPos p anc).pruneS (fun w q => f w q.path (h q)) w).1,
          ((t.withPos p anc).pruneS (fun w q => f w q.path (h q)) w).2.map (BinTree.map h)) := by
  induction t using BinTree.ind with
  | h a l r ihl ihr =>
    have slot : ∀ o : Option (BinTree α), (∀ c ∈ o, ∀ (w : σ) (p : List Nat) (anc : List α),
        ((c.withPos p anc).map h).prunePathS f w p =
          (((c.withPos p anc).pruneS (fun w q => f w q.path (h q)) w).1,
            ((c.withPos p anc).pruneS (fun w q => f w q.path (h q)) w).2.map (BinTree.map h))) →
        ∀ (w : σ) (p : List Nat) (anc : List α), BinTree.prunePathSO f w p (BinTree.mapO h (BinTree.withPosO p anc o)) =
          ((BinTree.pruneSO (fun w q => f w q.path (h q)) w (BinTree.withPosO p anc o)).1,
            (BinTree.pruneSO (fun w q => f w q.path (h q)) w (BinTree.withPosO p anc o)).2.map (BinTree.map h)) := by
      intro o ho w p anc
      cases o with
      | none => rfl
      | some c => simp only [BinTree.withPosO, BinTree.mapO, BinTree.prunePathSO, BinTree.pruneSO, ho c rfl]
    intro w p anc
    rw [BinTree.withPos, BinTree.map, BinTree.prunePathS, BinTree.pruneS, slot l ihl, slot r ihr]
    split
    · rfl
    · simp [BinTree.map, BinTree.mapO_eq]

theorem BinTree.map_id (t : BinTree α) : t.map id = t := by
  induction t using BinTree.ind with
  | h a l r ihl ihr =>
    have slot : ∀ o : Option (BinTree α), (∀ c ∈ o, c.map id = c) → BinTree.mapO id o = o := by
      intro o ho
      cases o with
      | none => rfl
      | some c => rw [BinTree.mapO, ho c rfl]
    rw [BinTree.map, slot l ihl, slot r ihr]
    rfl

end Labelled

section Enc
variable {A : Type u} {V : Type v} {σ : Type w} {W : Type x} {S : Type y} [DecidableEq A]

/-- Mapping over distinct addresses, with a state that consists of a memory and of something else. -/
theorem mapEnc_tree (F : S → A → S × W) (enc : (A → V) → σ → S) (body : σ → A × V → σ × V × W) (ok : A → Prop)
    (hF : ∀ g w a, ok a → F (enc g w) a =
      (enc (Function.update g a (body w (a, g a)).2.1) (body w (a, g a)).1, (body w (a, g a)).2.2)) (L : Tree A) :
    ∀ (g : A → V) (w : σ), L.preorder.Nodup → (∀ a ∈ L.preorder, ok a) →
      ∃ g', L.mapS F (enc g w) = (enc g' ((L.map fun a => (a, g a)).mapS body w).1,
          ((L.map fun a => (a, g a)).mapS body w).2.map Prod.snd) ∧
        L.map g' = ((L.map fun a => (a, g a)).mapS body w).2.map Prod.fst ∧ ∀ a, a ∉ L.preorder → g' a = g a := by
  induction L using Tree.ind with
  | h a cs ih =>
    have key : ∀ ds : List (Tree A), (∀ c ∈ ds, c ∈ cs) → ∀ (g : A → V) (w : σ), (ds.flatMap Tree.preorder).Nodup →
        (∀ a ∈ ds.flatMap Tree.preorder, ok a) →
        ∃ g', Tree.mapSL F (enc g w) ds =
            (enc g' (Tree.mapSL body w (ds.map (Tree.map fun a => (a, g a)))).1,
              (Tree.mapSL body w (ds.map (Tree.map fun a => (a, g a)))).2.map (Tree.map Prod.snd)) ∧
          ds.map (Tree.map g') = (Tree.mapSL body w (ds.map (Tree.map fun a => (a, g a)))).2.map (Tree.map Prod.fst) ∧
          ∀ a, a ∉ ds.flatMap Tree.preorder → g' a = g a := by
      intro ds
      induction ds with
      | nil => intro _ g w _ _; exact ⟨g, by simp [Tree.mapSL], by simp [Tree.mapSL], fun _ _ => rfl⟩
      | cons c ds ihd =>
        intro hds g w hnd hok
        rw [List.flatMap_cons, List.nodup_append'] at hnd
        simp only [List.flatMap_cons, List.mem_append] at hok
        obtain ⟨g1, h1, h2, h3⟩ := ih c (hds c (by simp)) g w hnd.1 fun a ha => hok a (.inl ha)
        obtain ⟨g2, h4, h5, h6⟩ := ihd (fun c hc => hds c (by simp [hc])) g1 ((c.map fun a => (a, g a)).mapS body w).1
          hnd.2.1 fun a ha => hok a (.inr ha)
        have e1 : ds.map (Tree.map fun a => (a, g1 a)) = ds.map (Tree.map fun a => (a, g a)) :=
          List.map_congr_left fun b hb => tree_map_off b _ _ _ (fun a ha => by rw [h3 a ha])
            (fun _ h h' => hnd.2.2 h (List.mem_flatMap.2 ⟨b, hb, h'⟩))
        have e2 : c.map g2 = c.map g1 := tree_map_off c _ _ _ h6 (fun _ h h' => hnd.2.2 h' h)
        rw [e1] at h4 h5
        refine ⟨g2, ?_, ?_, ?_⟩
        · simp only [Tree.mapSL, List.map_cons, h1, h4]
        · simp only [Tree.mapSL, List.map_cons, e2, h2, h5]
        · intro b hb
          simp only [List.flatMap_cons, List.mem_append, not_or] at hb
          rw [h6 b hb.2, h3 b hb.1]
    intro g w hnd hok
    rw [Tree.preorder_node, List.nodup_cons] at hnd
    simp only [Tree.preorder_node, List.mem_cons] at hok
    obtain ⟨g', h1, h2, h3⟩ := key cs (fun _ h => h) (Function.update g a (body w (a, g a)).2.1) (body w (a, g a)).1 hnd.2
      fun b hb => hok b (.inr hb)
    have e : cs.map (Tree.map fun b => (b, Function.update g a (body w (a, g a)).2.1 b)) = cs.map (Tree.map fun a => (a, g a)) :=
      List.map_congr_left fun b hb => map_congr_mem b _ _ fun c hc => by
        rw [Function.update_of_ne (fun he : c = a => hnd.1 (he ▸ List.mem_flatMap.2 ⟨b, hb, hc⟩))]
    rw [e] at h1 h2
    refine ⟨g', ?_, ?_, ?_⟩
    · simp only [Tree.mapS, Tree.map_node, hF g w a (hok a (.inl rfl)), h1]
    · simp only [Tree.mapS, Tree.map_node, h2, h3 a hnd.1, Function.update_self]
    · intro b hb
      rw [Tree.preorder_node, List.mem_cons, not_or] at hb
      rw [h3 b hb.2, Function.update_of_ne hb.1]

theorem mapEnc_bin (F : S → A → S × W) (enc : (A → V) → σ → S) (body : σ → A × V → σ × V × W) (ok : A → Prop)
    (hF : ∀ g w a, ok a → F (enc g w) a =
      (enc (Function.update g a (body w (a, g a)).2.1) (body w (a, g a)).1, (body w (a, g a)).2.2)) (L : BinTree A) :
    ∀ (g : A → V) (w : σ), L.toTree.preorder.Nodup → (∀ a ∈ L.toTree.preorder, ok a) →
      ∃ g', L.mapS F (enc g w) = (enc g' ((L.map fun a => (a, g a)).mapS body w).1,
          ((L.map fun a => (a, g a)).mapS body w).2.map Prod.snd) ∧
        L.map g' = ((L.map fun a => (a, g a)).mapS body w).2.map Prod.fst ∧ ∀ a, a ∉ L.toTree.preorder → g' a = g a := by
  induction L using BinTree.ind with
  | h a l r ihl ihr =>
    have slot : ∀ (o : Option (BinTree A)), (∀ c ∈ o, ∀ (g : A → V) (w : σ), c.toTree.preorder.Nodup →
        (∀ a ∈ c.toTree.preorder, ok a) →
        ∃ g', c.mapS F (enc g w) = (enc g' ((c.map fun a => (a, g a)).mapS body w).1,
            ((c.map fun a => (a, g a)).mapS body w).2.map Prod.snd) ∧
          c.map g' = ((c.map fun a => (a, g a)).mapS body w).2.map Prod.fst ∧ ∀ a, a ∉ c.toTree.preorder → g' a = g a) →
        ∀ (g : A → V) (w : σ), (preO o).Nodup → (∀ a ∈ preO o, ok a) →
        ∃ g', BinTree.mapSO F (enc g w) o = (enc g' (BinTree.mapSO body w (BinTree.mapO (fun a => (a, g a)) o)).1,
              BinTree.mapO Prod.snd (BinTree.mapSO body w (BinTree.mapO (fun a => (a, g a)) o)).2) ∧
          BinTree.mapO g' o = BinTree.mapO Prod.fst (BinTree.mapSO body w (BinTree.mapO (fun a => (a, g a)) o)).2 ∧
          ∀ a, a ∉ preO o → g' a = g a := by
      intro o ho g w hnd hok
      cases o with
      | none => exact ⟨g, rfl, rfl, fun _ _ => rfl⟩
      | some c =>
        rw [preO_some] at hnd hok
        obtain ⟨g', h1, h2, h3⟩ := ho c rfl g w hnd hok
        exact ⟨g', by simp only [BinTree.mapSO, BinTree.mapO, h1], by simp only [BinTree.mapSO, BinTree.mapO, h2],
          by rwa [preO_some]⟩
    intro g w hnd hok
    obtain ⟨n1, n2, n3, n4, n5⟩ := nodup_bin hnd
    simp only [preorder_bin, List.mem_cons, List.mem_append] at hok
    obtain ⟨g1, h1, h2, h3⟩ := slot l ihl (Function.update g a (body w (a, g a)).2.1) (body w (a, g a)).1 n3
      fun b hb => hok b (.inr (.inl hb))
    have e1 : BinTree.mapO (fun b => (b, Function.update g a (body w (a, g a)).2.1 b)) l = BinTree.mapO (fun a => (a, g a)) l :=
      mapO_off l _ _ fun c hc => by rw [Function.update_of_ne (fun he : c = a => n1 (he ▸ hc))]
    rw [e1] at h1 h2
    obtain ⟨g2, h4, h5, h6⟩ := slot r ihr g1 (BinTree.mapSO body (body w (a, g a)).1 (BinTree.mapO (fun a => (a, g a)) l)).1 n4
      fun b hb => hok b (.inr (.inr hb))
    have e2 : BinTree.mapO (fun b => (b, g1 b)) r = BinTree.mapO (fun a => (a, g a)) r := mapO_off r _ _ fun c hc => by
      rw [h3 c fun h => n5 c h hc, Function.update_of_ne fun he : c = a => n2 (he ▸ hc)]
    have e3 : BinTree.mapO g2 l = BinTree.mapO g1 l := mapO_off l _ _ fun c hc => h6 c (n5 c hc)
    rw [e2] at h4 h5
    refine ⟨g2, ?_, ?_, ?_⟩
    · simp only [BinTree.mapS, BinTree.map, hF g w a (hok a (.inl rfl)), h1, h4]
    · simp only [BinTree.mapS, BinTree.map, h5, e3, h2, h6 a n2, h3 a n1, Function.update_self]
    · intro b hb
      simp only [preorder_bin, List.mem_cons, List.mem_append, not_or] at hb
      rw [h6 b hb.2.2, h3 b hb.2.1, Function.update_of_ne hb.1]

end Enc

end TreeIter
