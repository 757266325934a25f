import Verif.Model.MutPipe
import Verif.Lemmas.MutRef
import Verif.Spec.MutPipe

/-! # Lemmas for the `…_mut` whole-tree operations -/

universe u v w x y z

namespace TreeIter

section
variable {A : Type u} {M : Type v} {V : Type w} {σ : Type x} {W : Type y}

theorem tree_map_off {α : Type u} {β : Type v} (t : Tree α) (f g : α → β) (S : List α) (h : ∀ a, a ∉ S → f a = g a)
    (hd : List.Disjoint S t.preorder) : t.map f = t.map g :=
  map_congr_mem t f g fun a ha => h a fun hs => hd hs ha

theorem mapRef_tree [DecidableEq A] (read : M → A → Option V) (write : M → A → V → M) (d : W)
    (body : σ → V → σ × V × W) (fill : (A → V) → M) (ok : A → Prop)
    (hread : ∀ g a, ok a → read (fill g) a = some (g a))
    (hwrite : ∀ g x a, ok a → write (fill g) a x = fill (Function.update g a x)) (L : Tree A) :
    ∀ (g : A → V) (w : σ), L.preorder.Nodup → (∀ a ∈ L.preorder, ok a) →
      ∃ g', L.mapS (mapRef read write d body) (fill g, w) =
          ((fill g', ((L.map g).mapS body w).1), ((L.map g).mapS body w).2.map Prod.snd) ∧
        L.map g' = ((L.map g).mapS body w).2.map Prod.fst ∧ ∀ a, a ∉ L.preorder → g' a = g a := by
  induction L using Tree.ind with
  | h a cs ih =>
    have key : ∀ ds : List (Tree A), (∀ c ∈ ds, c ∈ cs) → ∀ (g : A → V) (w : σ), (ds.flatMap Tree.preorder).Nodup →
        (∀ a ∈ ds.flatMap Tree.preorder, ok a) →
        ∃ g', Tree.mapSL (mapRef read write d body) (fill g, w) ds =
            ((fill g', (Tree.mapSL body w (ds.map (Tree.map g))).1),
              (Tree.mapSL body w (ds.map (Tree.map g))).2.map (Tree.map Prod.snd)) ∧
          ds.map (Tree.map g') = (Tree.mapSL body w (ds.map (Tree.map g))).2.map (Tree.map Prod.fst) ∧
          ∀ a, a ∉ ds.flatMap Tree.preorder → g' a = g a := by
      intro ds
      induction ds with
      | nil => intro _ g w _ _; exact ⟨g, by simp [Tree.mapSL], by simp [Tree.mapSL], fun _ _ => rfl⟩
      | cons c ds ihd =>
        intro hds g w hnd hok
        rw [List.flatMap_cons, List.nodup_append'] at hnd
        simp only [List.flatMap_cons, List.mem_append] at hok
        obtain ⟨g1, h1, h2, h3⟩ := ih c (hds c (by simp)) g w hnd.1 fun a ha => hok a (.inl ha)
        obtain ⟨g2, h4, h5, h6⟩ := ihd (fun c hc => hds c (by simp [hc])) g1 ((c.map g).mapS body w).1 hnd.2.1
          fun a ha => hok a (.inr ha)
        have e1 : ds.map (Tree.map g1) = ds.map (Tree.map g) := List.map_congr_left fun b hb =>
          tree_map_off b _ _ _ h3 (fun _ h h' => hnd.2.2 h (List.mem_flatMap.2 ⟨b, hb, h'⟩))
        have e2 : c.map g2 = c.map g1 := tree_map_off c _ _ _ h6 (fun _ h h' => hnd.2.2 h' h)
        rw [e1] at h4 h5
        refine ⟨g2, ?_, ?_, ?_⟩
        · simp only [Tree.mapSL, List.map_cons, h1, h4]
        · simp only [Tree.mapSL, List.map_cons, e2, h2, h5]
        · intro b hb
          simp only [List.flatMap_cons, List.mem_append, not_or] at hb
          rw [h6 b hb.2, h3 b hb.1]
    intro g w hnd hok
    rw [Tree.preorder_node, List.nodup_cons] at hnd
    simp only [Tree.preorder_node, List.mem_cons] at hok
    have ha := hok a (.inl rfl)
    obtain ⟨g', h1, h2, h3⟩ := key cs (fun _ h => h) (Function.update g a (body w (g a)).2.1) (body w (g a)).1 hnd.2
      fun b hb => hok b (.inr hb)
    have e : cs.map (Tree.map (Function.update g a (body w (g a)).2.1)) = cs.map (Tree.map g) :=
      List.map_congr_left fun b hb => map_congr_mem b _ _ fun c hc => Function.update_of_ne
        (fun he : c = a => hnd.1 (he ▸ List.mem_flatMap.2 ⟨b, hb, hc⟩)) _ _
    rw [e] at h1 h2
    have hm : mapRef read write d body (fill g, w) a =
        ((fill (Function.update g a (body w (g a)).2.1), (body w (g a)).1), (body w (g a)).2.2) := by
      simp only [mapRef, hread g a ha, hwrite g _ a ha]
    refine ⟨g', ?_, ?_, ?_⟩
    · simp only [Tree.mapS, Tree.map_node, hm, h1]
    · simp only [Tree.mapS, Tree.map_node, h2, h3 a hnd.1, Function.update_self]
    · intro b hb
      rw [Tree.preorder_node, List.mem_cons, not_or] at hb
      rw [h3 b hb.2, Function.update_of_ne hb.1]

theorem foldRefPath_tree [DecidableEq A] (read : M → A → Option V) (write : M → A → V → M) (d : W)
    (body : σ → List W → List Nat → V → σ × V × W) (fill : (A → V) → M) (ok : A → Prop)
    (hread : ∀ g a, ok a → read (fill g) a = some (g a))
    (hwrite : ∀ g x a, ok a → write (fill g) a x = fill (Function.update g a x)) (L : Tree A) :
    ∀ (g : A → V) (w : σ) (p : List Nat), L.preorder.Nodup → (∀ a ∈ L.preorder, ok a) →
      ∃ g', L.foldPathS (foldRefPath read write d body) (fill g, w) p =
          ((fill g', ((L.map g).foldPathS (Tree.rebuildPath body) w p).1), ((L.map g).foldPathS (Tree.rebuildPath body) w p).2.2) ∧
        L.map g' = ((L.map g).foldPathS (Tree.rebuildPath body) w p).2.1 ∧ ∀ a, a ∉ L.preorder → g' a = g a := by
  induction L using Tree.ind with
  | h a cs ih =>
    have key : ∀ ds : List (Tree A), (∀ c ∈ ds, c ∈ cs) → ∀ (g : A → V) (w : σ) (p : List Nat) (i : Nat), (ds.flatMap Tree.preorder).Nodup →
        (∀ a ∈ ds.flatMap Tree.preorder, ok a) →
        ∃ g', Tree.foldPathSL (foldRefPath read write d body) (fill g, w) p i ds =
            ((fill g', (Tree.foldPathSL (Tree.rebuildPath body) w p i (ds.map (Tree.map g))).1),
              (Tree.foldPathSL (Tree.rebuildPath body) w p i (ds.map (Tree.map g))).2.map Prod.snd) ∧
          ds.map (Tree.map g') = (Tree.foldPathSL (Tree.rebuildPath body) w p i (ds.map (Tree.map g))).2.map Prod.fst ∧
          ∀ a, a ∉ ds.flatMap Tree.preorder → g' a = g a := by
      intro ds
      induction ds with
      | nil => intro _ g w p i _ _; exact ⟨g, by simp [Tree.foldPathSL], by simp [Tree.foldPathSL], fun _ _ => rfl⟩
      | cons c ds ihd =>
        intro hds g w p i hnd hok
        rw [List.flatMap_cons, List.nodup_append'] at hnd
        simp only [List.flatMap_cons, List.mem_append] at hok
        obtain ⟨g1, h1, h2, h3⟩ := ih c (hds c (by simp)) g w (p ++ [i]) hnd.1 fun a ha => hok a (.inl ha)
        obtain ⟨g2, h4, h5, h6⟩ := ihd (fun c hc => hds c (by simp [hc])) g1
          ((c.map g).foldPathS (Tree.rebuildPath body) w (p ++ [i])).1 p (i + 1) hnd.2.1 fun a ha => hok a (.inr ha)
        have e1 : ds.map (Tree.map g1) = ds.map (Tree.map g) := List.map_congr_left fun b hb =>
          tree_map_off b _ _ _ h3 (fun _ h h' => hnd.2.2 h (List.mem_flatMap.2 ⟨b, hb, h'⟩))
        have e2 : c.map g2 = c.map g1 := tree_map_off c _ _ _ h6 (fun _ h h' => hnd.2.2 h' h)
        rw [e1] at h4 h5
        refine ⟨g2, ?_, ?_, ?_⟩
        · simp only [Tree.foldPathSL, List.map_cons, h1, h4]
        · simp only [Tree.foldPathSL, List.map_cons, e2, h2, h5]
        · intro b hb
          simp only [List.flatMap_cons, List.mem_append, not_or] at hb
          rw [h6 b hb.2, h3 b hb.1]
    intro g w p hnd hok
    rw [Tree.preorder_node, List.nodup_cons] at hnd
    simp only [Tree.preorder_node, List.mem_cons] at hok
    have ha := hok a (.inl rfl)
    obtain ⟨g1, h1, h2, h3⟩ := key cs (fun _ h => h) g w p 0 hnd.2 fun b hb => hok b (.inr hb)
    have hga := h3 a hnd.1
    refine ⟨Function.update g1 a
      (body (Tree.foldPathSL (Tree.rebuildPath body) w p 0 (cs.map (Tree.map g))).1
        ((Tree.foldPathSL (Tree.rebuildPath body) w p 0 (cs.map (Tree.map g))).2.map Prod.snd) p (g a)).2.1, ?_, ?_, ?_⟩
    · simp only [Tree.foldPathS, Tree.map_node, h1, foldRefPath, foldRef, hread g1 a ha, hwrite g1 _ a ha, hga, Tree.rebuildPath, Tree.rebuild]
    · have e : ∀ x, cs.map (Tree.map (Function.update g1 a x)) = cs.map (Tree.map g1) := fun x =>
        List.map_congr_left fun b hb => map_congr_mem b _ _ fun c hc => Function.update_of_ne
          (fun he : c = a => hnd.1 (he ▸ List.mem_flatMap.2 ⟨b, hb, hc⟩)) _ _
      simp only [Tree.foldPathS, Tree.map_node, e, h2, Function.update_self, Tree.rebuildPath, Tree.rebuild]
    · intro b hb
      rw [Tree.preorder_node, List.mem_cons, not_or] at hb
      rw [Function.update_of_ne hb.1, h3 b hb.2]

theorem foldPathS_noPath {α : Type u} {β : Type v} {τ : Type w} (f : τ → List β → α → τ × β) (t : Tree α) :
    ∀ (r : τ) (p : List Nat), t.foldPathS (fun r cs _ x => f r cs x) r p = t.foldS f r := by
  induction t using Tree.ind with
  | h a cs ih =>
    have key : ∀ ds : List (Tree α), (∀ c ∈ ds, c ∈ cs) → ∀ (r : τ) (p : List Nat) (i : Nat),
        Tree.foldPathSL (fun r cs _ x => f r cs x) r p i ds = Tree.foldSL f r ds := by
      intro ds
      induction ds with
      | nil => intros; rfl
      | cons c ds ihd =>
        intro hds r p i
        simp only [Tree.foldPathSL, Tree.foldSL, ih c (hds c (by simp)), ihd fun c hc => hds c (by simp [hc])]
    intro r p
    rw [Tree.foldPathS, Tree.foldS, key cs fun _ h => h]

/-! ## Binary trees -/

/-- The nodes in a slot. -/
def preO {α : Type u} (o : Option (BinTree α)) : List α := (BinTree.slotTrees o).flatMap Tree.preorder

theorem preorder_bin {α : Type u} (a : α) (l r : Option (BinTree α)) :
    (BinTree.node a l r).toTree.preorder = a :: (preO l ++ preO r) := by
  rw [BinTree.toTree, Tree.preorder_node, List.flatMap_append]
  rfl

theorem preO_some {α : Type u} (t : BinTree α) : preO (some t) = t.toTree.preorder := by
  simp [preO, BinTree.slotTrees]

theorem mapO_off {α : Type u} {β : Type v} (o : Option (BinTree α)) (f g : α → β) (h : ∀ a ∈ preO o, f a = g a) :
    BinTree.mapO f o = BinTree.mapO g o := by
  cases o with
  | none => rfl
  | some t =>
    rw [preO_some] at h
    simp only [BinTree.mapO, Option.some.injEq]
    exact map_congr_mem2 t f g h

/-- Nodes of a binary tree: distinct, and apart from one another. -/
theorem nodup_bin {α : Type u} {a : α} {l r : Option (BinTree α)} (h : (BinTree.node a l r).toTree.preorder.Nodup) :
    a ∉ preO l ∧ a ∉ preO r ∧ (preO l).Nodup ∧ (preO r).Nodup ∧ ∀ b, b ∈ preO l → b ∉ preO r := by
  rw [preorder_bin, List.nodup_cons, List.nodup_append', List.mem_append, not_or] at h
  exact ⟨h.1.1, h.1.2, h.2.1, h.2.2.1, fun b h1 h2 => h.2.2.2 h1 h2⟩

theorem mapRef_bin [DecidableEq A] (read : M → A → Option V) (write : M → A → V → M) (d : W)
    (body : σ → V → σ × V × W) (fill : (A → V) → M) (ok : A → Prop)
    (hread : ∀ g a, ok a → read (fill g) a = some (g a))
    (hwrite : ∀ g x a, ok a → write (fill g) a x = fill (Function.update g a x)) (L : BinTree A) :
    ∀ (g : A → V) (w : σ), L.toTree.preorder.Nodup → (∀ a ∈ L.toTree.preorder, ok a) →
      ∃ g', L.mapS (mapRef read write d body) (fill g, w) =
          ((fill g', ((L.map g).mapS body w).1), ((L.map g).mapS body w).2.map Prod.snd) ∧
        L.map g' = ((L.map g).mapS body w).2.map Prod.fst ∧ ∀ a, a ∉ L.toTree.preorder → g' a = g a := by
  induction L using BinTree.ind with
  | h a l r ihl ihr =>
    have slot : ∀ (o : Option (BinTree A)), (∀ c ∈ o, ∀ (g : A → V) (w : σ), c.toTree.preorder.Nodup →
        (∀ a ∈ c.toTree.preorder, ok a) →
        ∃ g', c.mapS (mapRef read write d body) (fill g, w) =
            ((fill g', ((c.map g).mapS body w).1), ((c.map g).mapS body w).2.map Prod.snd) ∧
          c.map g' = ((c.map g).mapS body w).2.map Prod.fst ∧ ∀ a, a ∉ c.toTree.preorder → g' a = g a) →
        ∀ (g : A → V) (w : σ), (preO o).Nodup → (∀ a ∈ preO o, ok a) →
        ∃ g', BinTree.mapSO (mapRef read write d body) (fill g, w) o =
            ((fill g', (BinTree.mapSO body w (BinTree.mapO g o)).1),
              BinTree.mapO Prod.snd (BinTree.mapSO body w (BinTree.mapO g o)).2) ∧
          BinTree.mapO g' o = BinTree.mapO Prod.fst (BinTree.mapSO body w (BinTree.mapO g o)).2 ∧
          ∀ a, a ∉ preO o → g' a = g a := by
      intro o ho g w hnd hok
      cases o with
      | none => exact ⟨g, rfl, rfl, fun _ _ => rfl⟩
      | some c =>
        rw [preO_some] at hnd hok
        obtain ⟨g', h1, h2, h3⟩ := ho c rfl g w hnd hok
        exact ⟨g', by simp only [BinTree.mapSO, BinTree.mapO, h1], by simp only [BinTree.mapSO, BinTree.mapO, h2],
          by rwa [preO_some]⟩
    intro g w hnd hok
    obtain ⟨n1, n2, n3, n4, n5⟩ := nodup_bin hnd
    simp only [preorder_bin, List.mem_cons, List.mem_append] at hok
    have ha := hok a (.inl rfl)
    obtain ⟨g1, h1, h2, h3⟩ := slot l ihl (Function.update g a (body w (g a)).2.1) (body w (g a)).1 n3
      fun b hb => hok b (.inr (.inl hb))
    have e1 : BinTree.mapO (Function.update g a (body w (g a)).2.1) l = BinTree.mapO g l :=
      mapO_off l _ _ fun c hc => Function.update_of_ne (fun he : c = a => n1 (he ▸ hc)) _ _
    rw [e1] at h1 h2
    obtain ⟨g2, h4, h5, h6⟩ := slot r ihr g1 (BinTree.mapSO body (body w (g a)).1 (BinTree.mapO g l)).1 n4
      fun b hb => hok b (.inr (.inr hb))
    have e2 : BinTree.mapO g1 r = BinTree.mapO g r := mapO_off r _ _ fun c hc => by
      rw [h3 c fun h => n5 c h hc, Function.update_of_ne fun he : c = a => n2 (he ▸ hc)]
    have e3 : BinTree.mapO g2 l = BinTree.mapO g1 l := mapO_off l _ _ fun c hc => h6 c (n5 c hc)
    rw [e2] at h4 h5
    have hm : mapRef read write d body (fill g, w) a =
        ((fill (Function.update g a (body w (g a)).2.1), (body w (g a)).1), (body w (g a)).2.2) := by
      simp only [mapRef, hread g a ha, hwrite g _ a ha]
    refine ⟨g2, ?_, ?_, ?_⟩
    · simp only [BinTree.mapS, BinTree.map, hm, h1, h4]
    · simp only [BinTree.mapS, BinTree.map, h5, e3, h2, h6 a n2, h3 a n1, Function.update_self]
    · intro b hb
      simp only [preorder_bin, List.mem_cons, List.mem_append, not_or] at hb
      rw [h6 b hb.2.2, h3 b hb.2.1, Function.update_of_ne hb.1]

theorem foldRefPath_bin [DecidableEq A] (read : M → A → Option V) (write : M → A → V → M) (d : W)
    (body : σ → Option W × Option W → List Nat → V → σ × V × W) (fill : (A → V) → M) (ok : A → Prop)
    (hread : ∀ g a, ok a → read (fill g) a = some (g a))
    (hwrite : ∀ g x a, ok a → write (fill g) a x = fill (Function.update g a x)) (L : BinTree A) :
    ∀ (g : A → V) (w : σ) (p : List Nat), L.toTree.preorder.Nodup → (∀ a ∈ L.toTree.preorder, ok a) →
      ∃ g', L.foldPathS (foldRefPath read write d body) (fill g, w) p =
          ((fill g', ((L.map g).foldPathS (BinTree.rebuildPath body) w p).1),
            ((L.map g).foldPathS (BinTree.rebuildPath body) w p).2.2) ∧
        L.map g' = ((L.map g).foldPathS (BinTree.rebuildPath body) w p).2.1 ∧
        ∀ a, a ∉ L.toTree.preorder → g' a = g a := by
  induction L using BinTree.ind with
  | h a l r ihl ihr =>
    have slot : ∀ (o : Option (BinTree A)), (∀ c ∈ o, ∀ (g : A → V) (w : σ) (p : List Nat),
        c.toTree.preorder.Nodup → (∀ a ∈ c.toTree.preorder, ok a) →
        ∃ g', c.foldPathS (foldRefPath read write d body) (fill g, w) p =
            ((fill g', ((c.map g).foldPathS (BinTree.rebuildPath body) w p).1),
              ((c.map g).foldPathS (BinTree.rebuildPath body) w p).2.2) ∧
          c.map g' = ((c.map g).foldPathS (BinTree.rebuildPath body) w p).2.1 ∧
          ∀ a, a ∉ c.toTree.preorder → g' a = g a) →
        ∀ (g : A → V) (w : σ) (p : List Nat), (preO o).Nodup → (∀ a ∈ preO o, ok a) →
        ∃ g', BinTree.foldPathSO (foldRefPath read write d body) (fill g, w) p o =
            ((fill g', (BinTree.foldPathSO (BinTree.rebuildPath body) w p (BinTree.mapO g o)).1),
              (BinTree.foldPathSO (BinTree.rebuildPath body) w p (BinTree.mapO g o)).2.map Prod.snd) ∧
          BinTree.mapO g' o = (BinTree.foldPathSO (BinTree.rebuildPath body) w p (BinTree.mapO g o)).2.map Prod.fst ∧
          ∀ a, a ∉ preO o → g' a = g a := by
      intro o ho g w p hnd hok
      cases o with
      | none => exact ⟨g, rfl, rfl, fun _ _ => rfl⟩
      | some c =>
        rw [preO_some] at hnd hok
        obtain ⟨g', h1, h2, h3⟩ := ho c rfl g w p hnd hok
        exact ⟨g', by simp only [BinTree.foldPathSO, BinTree.mapO, h1, Option.map_some],
          by simp only [BinTree.foldPathSO, BinTree.mapO, h2, Option.map_some], by rwa [preO_some]⟩
    intro g w p hnd hok
    obtain ⟨n1, n2, n3, n4, n5⟩ := nodup_bin hnd
    simp only [preorder_bin, List.mem_cons, List.mem_append] at hok
    have ha := hok a (.inl rfl)
    obtain ⟨g1, h1, h2, h3⟩ := slot l ihl g w (p ++ [0]) n3 fun b hb => hok b (.inr (.inl hb))
    obtain ⟨g2, h4, h5, h6⟩ := slot r ihr g1
      (BinTree.foldPathSO (BinTree.rebuildPath body) w (p ++ [0]) (BinTree.mapO g l)).1 (p ++ [1]) n4
      fun b hb => hok b (.inr (.inr hb))
    have e2 : BinTree.mapO g1 r = BinTree.mapO g r := mapO_off r _ _ fun c hc => h3 c fun h => n5 c h hc
    have e3 : BinTree.mapO g2 l = BinTree.mapO g1 l := mapO_off l _ _ fun c hc => h6 c (n5 c hc)
    rw [e2] at h4 h5
    have hga : g2 a = g a := by rw [h6 a n2, h3 a n1]
    have e4 : ∀ x, BinTree.mapO (Function.update g2 a x) l = BinTree.mapO g2 l := fun x =>
      mapO_off l _ _ fun c hc => Function.update_of_ne (fun he : c = a => n1 (he ▸ hc)) _ _
    have e5 : ∀ x, BinTree.mapO (Function.update g2 a x) r = BinTree.mapO g2 r := fun x =>
      mapO_off r _ _ fun c hc => Function.update_of_ne (fun he : c = a => n2 (he ▸ hc)) _ _
    refine ⟨Function.update g2 a (((BinTree.node a l r).map g).foldPathS (BinTree.rebuildPath body) w p).2.1.value,
      ?_, ?_, ?_⟩
    · simp only [BinTree.foldPathS, BinTree.map, h1, h4, foldRefPath, foldRef, hread g2 a ha, hwrite g2 _ a ha, hga,
        BinTree.rebuildPath, BinTree.rebuild, BinTree.value]
    · simp only [BinTree.foldPathS, BinTree.map, e4, e5, e3, h2, h5, Function.update_self, BinTree.rebuildPath,
        BinTree.rebuild, BinTree.value]
    · intro b hb
      simp only [preorder_bin, List.mem_cons, List.mem_append, not_or] at hb
      rw [Function.update_of_ne hb.1, h6 b hb.2.2, h3 b hb.2.1]

end

/-! ## Pruning -/

section Prune
variable {α : Type u} {β : Type v} {σ : Type w}

theorem pruneS_map (f : σ → β → σ × Bool) (g : σ → α → σ × Bool) (h : α → β) (t : Tree α) :
    ∀ w : σ, (∀ a ∈ t.preorder, ∀ w, f w (h a) = g w a) →
      (t.map h).pruneS f w = ((t.pruneS g w).1, (t.pruneS g w).2.map (Tree.map h)) := by
  induction t using Tree.ind with
  | h a cs ih =>
    have key : ∀ ds : List (Tree α), (∀ c ∈ ds, c ∈ cs) → ∀ w : σ,
        (∀ a ∈ ds.flatMap Tree.preorder, ∀ w, f w (h a) = g w a) →
        Tree.pruneSL f w (ds.map (Tree.map h)) =
          ((Tree.pruneSL g w ds).1, (Tree.pruneSL g w ds).2.map (Tree.map h)) := by
      intro ds
      induction ds with
      | nil => intros; rfl
      | cons c ds ihd =>
        intro hds w hw
        simp only [List.flatMap_cons, List.mem_append] at hw
        rw [List.map_cons, Tree.pruneSL, Tree.pruneSL, ih c (hds c (by simp)) w fun a ha => hw a (.inl ha),
          ihd (fun c hc => hds c (by simp [hc])) _ fun a ha => hw a (.inr ha), List.map_append]
        cases (c.pruneS g w).2 <;> rfl
    intro w hw
    simp only [Tree.preorder_node, List.mem_cons] at hw
    rw [Tree.map_node, Tree.pruneS, Tree.pruneS, hw a (.inl rfl), key cs (fun _ h => h) _ fun a ha => hw a (.inr ha)]
    split
    · rfl
    · simp [Tree.map_node]

theorem pruneS_sublist (f : σ → α → σ × Bool) (t : Tree α) :
    ∀ w : σ, ∀ r ∈ (t.pruneS f w).2, r.preorder.Sublist t.preorder := by
  induction t using Tree.ind with
  | h a cs ih =>
    have key : ∀ ds : List (Tree α), (∀ c ∈ ds, c ∈ cs) → ∀ w : σ,
        ((Tree.pruneSL f w ds).2.flatMap Tree.preorder).Sublist (ds.flatMap Tree.preorder) := by
      intro ds
      induction ds with
      | nil => intro _ w; exact List.Sublist.refl _
      | cons c ds ihd =>
        intro hds w
        rw [Tree.pruneSL, List.flatMap_append, List.flatMap_cons]
        refine List.Sublist.append ?_ (ihd (fun c hc => hds c (by simp [hc])) _)
        have hc := ih c (hds c (by simp)) w
        cases hr : (c.pruneS f w).2 with
        | none => simp
        | some r => simpa using hc r (by simp [hr])
    intro w r hr
    rw [Tree.pruneS] at hr
    split at hr
    · simp at hr
    · obtain rfl : _ = r := by simpa using hr
      rw [Tree.preorder_node, Tree.preorder_node]
      exact (key cs (fun _ h => h) _).cons_cons a

theorem pruneS_map2 (f : σ → β → σ × Bool) (g : σ → α → σ × Bool) (h : α → β) (t : BinTree α) :
    ∀ w : σ, (∀ a ∈ t.toTree.preorder, ∀ w, f w (h a) = g w a) →
      (t.map h).pruneS f w = ((t.pruneS g w).1, (t.pruneS g w).2.map (BinTree.map h)) := by
  induction t using BinTree.ind with
  | h a l r ihl ihr =>
    have slot : ∀ (o : Option (BinTree α)), (∀ c ∈ o, ∀ w : σ, (∀ a ∈ c.toTree.preorder, ∀ w, f w (h a) = g w a) →
        (c.map h).pruneS f w = ((c.pruneS g w).1, (c.pruneS g w).2.map (BinTree.map h))) → ∀ w : σ,
        (∀ a ∈ preO o, ∀ w, f w (h a) = g w a) →
        BinTree.pruneSO f w (BinTree.mapO h o) =
          ((BinTree.pruneSO g w o).1, (BinTree.pruneSO g w o).2.map (BinTree.map h)) := by
      intro o ho w hw
      cases o with
      | none => rfl
      | some c =>
        rw [preO_some] at hw
        exact ho c rfl w hw
    intro w hw
    simp only [preorder_bin, List.mem_cons, List.mem_append] at hw
    rw [BinTree.map, BinTree.pruneS, BinTree.pruneS, hw a (.inl rfl), slot l ihl _ fun a ha => hw a (.inr (.inl ha)),
      slot r ihr _ fun a ha => hw a (.inr (.inr ha))]
    split
    · rfl
    · simp [BinTree.map, BinTree.mapO_eq]

theorem pruneS_sublist2 (f : σ → α → σ × Bool) (t : BinTree α) :
    ∀ w : σ, ∀ r ∈ (t.pruneS f w).2, r.toTree.preorder.Sublist t.toTree.preorder := by
  induction t using BinTree.ind with
  | h a l r ihl ihr =>
    have slot : ∀ (o : Option (BinTree α)), (∀ c ∈ o, ∀ w : σ, ∀ r ∈ (c.pruneS f w).2,
        r.toTree.preorder.Sublist c.toTree.preorder) → ∀ w : σ, (preO (BinTree.pruneSO f w o).2).Sublist (preO o) := by
      intro o ho w
      cases o with
      | none => exact List.Sublist.refl _
      | some c =>
        rw [BinTree.pruneSO, preO_some]
        cases hr : (c.pruneS f w).2 with
        | none => exact List.nil_sublist _
        | some r =>
          rw [preO_some]
          exact ho c rfl w r (by simp [hr])
    intro w r' hr
    rw [BinTree.pruneS] at hr
    split at hr
    · simp at hr
    · obtain rfl : _ = r' := by simpa using hr
      rw [preorder_bin, preorder_bin]
      exact ((slot l ihl _).append (slot r ihr _)).cons_cons a

end Prune

/-! ## Cloning -/

section Clone
variable {α : Type u} {β : Type v} {γ : Type x} {σ : Type w}

theorem mapS_map (f : σ → β → σ × γ) (h : α → β) (t : Tree α) :
    ∀ w : σ, (t.map h).mapS f w = t.mapS (fun w a => f w (h a)) w := by
  induction t using Tree.ind with
  | h a cs ih =>
    have key : ∀ ds : List (Tree α), (∀ c ∈ ds, c ∈ cs) → ∀ w : σ,
        Tree.mapSL f w (ds.map (Tree.map h)) = Tree.mapSL (fun w a => f w (h a)) w ds := by
      intro ds
      induction ds with
      | nil => intros; rfl
      | cons c ds ihd =>
        intro hds w
        simp only [List.map_cons, Tree.mapSL, ih c (hds c (by simp)), ihd fun c hc => hds c (by simp [hc])]
    intro w
    simp only [Tree.map_node, Tree.mapS, key cs fun _ h => h]

theorem mapS_map2 (f : σ → β → σ × γ) (h : α → β) (t : BinTree α) :
    ∀ w : σ, (t.map h).mapS f w = t.mapS (fun w a => f w (h a)) w := by
  induction t using BinTree.ind with
  | h a l r ihl ihr =>
    have slot : ∀ (o : Option (BinTree α)), (∀ c ∈ o, ∀ w : σ, (c.map h).mapS f w = c.mapS (fun w a => f w (h a)) w) →
        ∀ w : σ, BinTree.mapSO f w (BinTree.mapO h o) = BinTree.mapSO (fun w a => f w (h a)) w o := by
      intro o ho w
      cases o with
      | none => rfl
      | some c => simp only [BinTree.mapO, BinTree.mapSO, ho c rfl]
    intro w
    simp only [BinTree.map, BinTree.mapS, slot l ihl, slot r ihr]

end Clone

end TreeIter
