import Verif.Lemmas.CollRun
import Verif.Model.CollectionApi

/-! # Collection pipelines and the specification -/

universe u v w x y z

namespace TreeIter

/-! ## Trees one after another -/

section
variable {N : Type u} {σ : Type w} {U : Type v} {W : Type x} {O : Type y}

theorem eachS_congr {A : Type u} {B : Type v} {g g' : σ → Nat → A → σ × Option B} (h : ∀ w i a, g w i a = g' w i a) (w : σ)
    (i : Nat) (l : List A) : eachS g w i l = eachS g' w i l := by
  have : g = g' := by
    funext w i a
    exact h w i a
  rw [this]

theorem Dec.forest_labs {dec : Dec σ U W} {lab : N → List Nat → Lab U} {tree : N → Tree U}
    {g : σ → Nat → Tree U → σ × Option (Tree W)} (ns : List N) (hg : ∀ n ∈ ns, ∀ w i, (dec.tree w (lab n [i])).1 = (g w i (tree n)).1 ∧
      (dec.tree w (lab n [i])).2.map (Tree.map Prod.fst) = (g w i (tree n)).2) : ∀ (w : σ) (i : Nat),
    (dec.forest w (CollPipe.labs lab i ns)).1 = (eachS g w i (ns.map tree)).1 ∧
      (dec.forest w (CollPipe.labs lab i ns)).2.map (Tree.map Prod.fst) = (eachS g w i (ns.map tree)).2 := by
  induction ns with
  | nil => intro w i; simp [CollPipe.labs, Dec.forest, eachS]
  | cons n ns ih =>
    intro w i
    obtain ⟨h1, h2⟩ := hg n (by simp) w i
    obtain ⟨h3, h4⟩ := ih (fun n hn => hg n (by simp [hn])) (g w i (tree n)).1 (i + 1)
    simp only [CollPipe.labs, Dec.forest, List.map_cons, eachS, List.map_append, h1, h3, h4, ← h2]
    refine ⟨trivial, ?_⟩
    cases (dec.tree w (lab n [i])).2 <;> rfl

theorem mem_labs {lab : N → List Nat → Lab U} {P : Lab U → Prop} (h : ∀ n i, P (lab n [i])) (ns : List N) :
    ∀ i, ∀ t ∈ CollPipe.labs lab i ns, P t := by
  induction ns with
  | nil => intro i t ht; simp [CollPipe.labs] at ht
  | cons n ns ih =>
    intro i t ht
    rw [CollPipe.labs] at ht
    rcases List.mem_cons.1 ht with rfl | ht
    · exact h n i
    · exact ih (i + 1) t ht

theorem foldSL_each (f : σ → List O → U → σ × O) (l : List (Tree U)) : ∀ (t : σ) (i : Nat),
    Tree.foldSL f t l = eachS (fun t _ c => kept (Tree.foldS f t c)) t i l := by
  induction l with
  | nil => intro t i; simp [Tree.foldSL, eachS]
  | cons c l ih => intro t i; simp [Tree.foldSL, eachS, kept, ih _ (i + 1)]

theorem foldPathL_each (f : σ → List O → List Nat → U → σ × O) (tree : N → Tree U) (ns : List N) : ∀ (t : σ) (i : Nat),
    Tree.foldSL (Pipe.onPaths f) t ((CollPipe.labs (fun n p => (tree n).paths p) i ns).map (Tree.map Prod.swap)) =
      eachS (fun t i c => kept (Tree.foldPathS f t [i] c)) t i (ns.map tree) := by
  induction ns with
  | nil => intro t i; simp [CollPipe.labs, Tree.foldSL, eachS]
  | cons n ns ih => intro t i; simp [CollPipe.labs, Tree.foldSL, eachS, kept, foldPath_paths, ih]

theorem id_forest (ts : List (Lab U)) (w : σ) : Dec.forest decId w ts = (w, ts.map (Tree.map Prod.swap)) := by
  induction ts with
  | nil => simp [Dec.forest]
  | cons t ts ih => simp [Dec.forest, id_tree, ih]

theorem labs_congr {lab lab' : N → List Nat → Lab U} (ns : List N) (h : ∀ n ∈ ns, ∀ i, lab n [i] = lab' n [i]) :
    ∀ i, CollPipe.labs lab i ns = CollPipe.labs lab' i ns := by
  induction ns with
  | nil => intro i; rfl
  | cons n ns ih => intro i; simp [CollPipe.labs, h n (by simp), ih fun n hn => h n (by simp [hn])]

/-- The depth of a node in a collection. -/
theorem depth_coll (d : Nat) (t : Lab U) {k : Nat} (hk : LabDepth (k + 1) t) (w : σ) :
    Dec.tree (depthStep (W := U) (fun p => p.length - 1) d) w t = Dec.tree (depthStep List.length (d + 1)) w t := by
  induction t using Tree.ind generalizing w k with
  | h b cs ih =>
    obtain ⟨p, x⟩ := b
    simp only [LabDepth] at hk
    have key : ∀ ds : List (Lab U), (∀ c ∈ ds, c ∈ cs) → ∀ w : σ,
        Dec.forest (depthStep (W := U) (fun p => p.length - 1) d) w ds = Dec.forest (depthStep List.length (d + 1)) w ds := by
      intro ds
      induction ds with
      | nil => intro _ w; simp [Dec.forest]
      | cons c ds ihd =>
        intro hds w
        simp only [Dec.forest, ih c (hds c (by simp)) (hk.2 c (hds c (by simp))), ihd fun c hc => hds c (by simp [hc])]
    have hb : (p.length - 1 != d) = (p.length != d + 1) := by
      rw [Bool.eq_iff_iff]
      simp only [bne_iff_ne, ne_eq]
      omega
    rw [Dec.tree, Dec.tree]
    simp only [depthStep, hb]
    cases (p.length != d + 1)
    · rfl
    · have h := key cs (fun _ h => h) w
      dsimp only
      rw [h]

theorem depth_coll_bin (d : Nat) (t : BinTree U) : ∀ (w : σ) (p : List Nat), p ≠ [] →
    Dec.bin (depthStep (W := U) (fun p => p.length - 1) d) w p t = Dec.bin (depthStep List.length (d + 1)) w p t := by
  induction t using BinTree.ind with
  | h x l r ihl ihr =>
    intro w p hp
    have hb : (p.length - 1 != d) = (p.length != d + 1) := by
      have := List.length_pos_iff.2 hp
      rw [Bool.eq_iff_iff]
      simp only [bne_iff_ne, ne_eq]
      omega
    have slot : ∀ (o : Option (BinTree U)), (∀ c ∈ o, ∀ (w : σ) (p : List Nat), p ≠ [] →
        Dec.bin (depthStep (W := U) (fun p => p.length - 1) d) w p c = Dec.bin (depthStep List.length (d + 1)) w p c) →
        ∀ (w : σ) (p : List Nat), p ≠ [] →
        Dec.binO (depthStep (W := U) (fun p => p.length - 1) d) w p o = Dec.binO (depthStep List.length (d + 1)) w p o := by
      intro o ho w p hp
      cases o with
      | none => simp [Dec.binO]
      | some c => simp only [Dec.binO, ho c rfl w p hp]
    rw [Dec.bin, Dec.bin]
    have hl := slot l ihl
    have hr := slot r ihr
    simp only [depthStep] at hl hr ⊢
    rw [hb]
    cases (p.length != d + 1)
    · rfl
    · simp only
      rw [hl _ _ (by simp), hr _ _ (by simp)]

/-! ## Binary trees one after another -/

theorem Dec.bins_each {dec : Dec σ U W} {g : σ → Nat → BinTree U → σ × Option (BinTree W)}
    (hg : ∀ w i t, dec.bin w [i] t = g w i t) (ts : List (BinTree U)) : ∀ (w : σ) (i : Nat),
    (dec.bins w i ts).1 = (eachS g w i ts).1 ∧ (dec.bins w i ts).2.map Prod.snd = (eachS g w i ts).2 := by
  induction ts with
  | nil => intro w i; simp [Dec.bins, eachS]
  | cons t ts ih =>
    intro w i
    obtain ⟨h3, h4⟩ := ih (g w i t).1 (i + 1)
    simp only [Dec.bins, hg] at h3 h4
    simp only [Dec.bins, eachS, hg, h3, List.map_append, h4]
    refine ⟨trivial, ?_⟩
    cases (g w i t).2 <;> rfl

theorem id_bins (ts : List (BinTree U)) : ∀ (w : σ) (i : Nat),
    Dec.bins decId w i ts = eachS (fun w i t => (w, some (i, t))) w i ts := by
  induction ts with
  | nil => intro w i; simp [Dec.bins, eachS]
  | cons t ts ih =>
    intro w i
    simp only [Dec.bins, eachS, id_bin, Option.map_some]

theorem eachS_numbers {τ : Type z} (f : τ → Option O × Option O → List Nat → U → τ × O) (ts : List (BinTree U)) :
    ∀ (w : σ) (t : τ) (i : Nat), (eachS (fun w i t => (w, some (i, t))) w i ts).1 = w ∧
      foldNumbered f t (eachS (fun (w : σ) i t => (w, some (i, t))) w i ts).2 =
        eachS (fun t i c => kept (BinTree.foldPathS f t [i] c)) t i ts := by
  induction ts with
  | nil => intro w t i; simp [eachS, foldNumbered]
  | cons c ts ih =>
    intro w t i
    obtain ⟨h1, h2⟩ := ih w (BinTree.foldPathS f t [i] c).1 (i + 1)
    refine ⟨?_, ?_⟩
    · simp only [eachS]
      exact h1
    · simp only [eachS, Option.toList_some, List.cons_append, List.nil_append, foldNumbered, h2, kept]

end

/-! ## `map_path` on collections -/

section
variable {N : Type u} {σ : Type w} {V : Type v} {W : Type x} (stale : σ → List Nat → List Nat → List Nat)
  (f : σ → List Nat → V → σ × W)

theorem mapPath_visitL (tree : N → Tree V) (ns : List N) : ∀ (a b : List Nat) (w : σ) (i : Nat),
    ∃ ts', (visitL ((mapPathStage stale f).visitor (idVisitor σ V)) (a, b) w (CollPipe.labs (fun n p => (tree n).paths p) i ns)).1 =
        ts' ∧
      (visitL ((mapPathStage stale f).visitor (idVisitor σ V)) (a, b) w (CollPipe.labs (fun n p => (tree n).paths p) i ns)).2.2 =
        (eachS (fun wb i t => kept (Tree.mapPathS (staleArg stale f) wb [i] t)) (w, b) i (ns.map tree)).1.1 ∧
      ts'.map (Tree.map Prod.fst) =
        (eachS (fun wb i t => kept (Tree.mapPathS (staleArg stale f) wb [i] t)) (w, b) i (ns.map tree)).2 ∧
      ∀ t ∈ ts', ∃ i, PathOk [i] t := by
  induction ns with
  | nil => intro a b w i; exact ⟨[], by simp [CollPipe.labs, visitL, eachS]⟩
  | cons n ns ih =>
    intro a b w i
    obtain ⟨t', h1, h2, h3⟩ := mapPath_visit stale f (tree n) a b w [i]
    obtain ⟨ts', i1, i2, i3, i4⟩ := ih ((tree n).mapPathS (staleArg stale f) (w, b) [i]).1.2
      ((tree n).mapPathS (staleArg stale f) (w, b) [i]).1.2 ((tree n).mapPathS (staleArg stale f) (w, b) [i]).1.1 (i + 1)
    refine ⟨t' :: ts', ?_, ?_, ?_, ?_⟩
    · simp only [CollPipe.labs, visitL, h1, i1, List.cons_append, List.nil_append]
    · simp only [CollPipe.labs, visitL, h1, i2, List.map_cons, eachS, kept]
    · simp only [List.map_cons, h2, i3, eachS, kept, Option.toList_some, List.cons_append, List.nil_append]
    · intro t ht
      rcases List.mem_cons.1 ht with rfl | ht
      · exact ⟨i, h3⟩
      · exact i4 t ht

theorem mapPath_visitL_bin (tree : N → BinTree V) (ns : List N) : ∀ (a b : List Nat) (w : σ) (i : Nat),
    ∃ ics : List (Nat × BinTree W),
      (visitL ((mapPathStage stale f).visitor (idVisitor σ V)) (a, b) w (CollPipe.labs (fun n p => (tree n).paths p) i ns)).1 =
        ics.map (fun ic => ic.2.emitted [ic.1]) ∧
      (visitL ((mapPathStage stale f).visitor (idVisitor σ V)) (a, b) w (CollPipe.labs (fun n p => (tree n).paths p) i ns)).2.2 =
        (eachS (fun wb i t => kept (BinTree.mapPathS (staleArg stale f) wb [i] t)) (w, b) i (ns.map tree)).1.1 ∧
      ics.map Prod.snd =
        (eachS (fun wb i t => kept (BinTree.mapPathS (staleArg stale f) wb [i] t)) (w, b) i (ns.map tree)).2 := by
  induction ns with
  | nil => intro a b w i; exact ⟨[], by simp [CollPipe.labs, visitL, eachS]⟩
  | cons n ns ih =>
    intro a b w i
    have h1 := mapPath_visit_bin stale f (tree n) a b w [i]
    obtain ⟨ts', i1, i2, i3⟩ := ih ((tree n).mapPathS (staleArg stale f) (w, b) [i]).1.2
      ((tree n).mapPathS (staleArg stale f) (w, b) [i]).1.2 ((tree n).mapPathS (staleArg stale f) (w, b) [i]).1.1 (i + 1)
    refine ⟨(i, ((tree n).mapPathS (staleArg stale f) (w, b) [i]).2) :: ts', ?_, ?_, ?_⟩
    · simp only [CollPipe.labs, visitL, h1, i1, List.cons_append, List.nil_append, List.map_cons]
    · simp only [CollPipe.labs, visitL, h1, i2, List.map_cons, eachS, kept]
    · simp only [List.map_cons, i3, eachS, kept, Option.toList_some, List.cons_append, List.nil_append]

end

/-! ## The sources at their start -/

theorem labDepth_ne {U : Type v} {t : Lab U} : ∀ {d : Nat}, LabDepth (d + 1) t → ∀ q ∈ t.preorder, q.1 ≠ [] := by
  induction t using Tree.ind with
  | h a cs ih =>
    obtain ⟨p, x⟩ := a
    intro d h
    simp only [LabDepth] at h
    intro i hi
    rw [Tree.preorder_node] at hi
    rcases List.mem_cons.1 hi with rfl | hi
    · intro he
      simp only at he
      rw [he] at h
      simp at h
    · obtain ⟨c, hc, hi⟩ := List.mem_flatMap.1 hi
      exact ih c hc (h.2 c hc) i hi

theorem labDepth_neL {U : Type v} {ts : List (Lab U)} (h : ∀ t ∈ ts, LabDepth 1 t) : ∀ q ∈ Tree.preorderL ts, q.1 ≠ [] := by
  intro i hi
  rw [Tree.preorderL_eq] at hi
  obtain ⟨c, hc, hi⟩ := List.mem_flatMap.1 hi
  exact labDepth_ne (h c hc) i hi

theorem paths_labDepth {U : Type v} (t : BinTree U) : ∀ p : List Nat, LabDepth p.length (t.paths p) := by
  induction t using BinTree.ind with
  | h x l r ihl ihr =>
    intro p
    rw [BinTree.paths, LabDepth]
    refine ⟨rfl, fun c hc => ?_⟩
    rcases List.mem_append.1 hc with hc | hc
    · cases l with
      | none => simp [BinTree.pathsO] at hc
      | some l =>
        simp only [BinTree.pathsO, List.mem_singleton] at hc
        subst hc
        have := ihl l rfl (p ++ [0])
        rwa [List.length_append] at this
    · cases r with
      | none => simp [BinTree.pathsO] at hc
      | some r =>
        simp only [BinTree.pathsO, List.mem_singleton] at hc
        subst hc
        have := ihr r rfl (p ++ [1])
        rwa [List.length_append] at this

theorem collDepth_visit {σ : Type w} {V : Type v} {a : List Nat} {w : σ} {p : List Nat} {x : V} {a' : List Nat} {w' : σ} {y : V}
    {k : Bool} (hp : p ≠ []) (h : (idVisitor σ V).visit a w p x = (a', w', .emit y k)) :
    Pipe.collDepth ((idVisitor σ V).path a') = .ok (((idVisitor σ V).path a').length - 1) := by
  simp only [idVisitor, Prod.mk.injEq] at h
  exact collDepth_ok (by rw [← h.1]; exact hp)

section General
variable {N : Type u} {V : Type v} [TreeNode N V]

theorem collEnum (σ : Type w) : Enum (Api.collPipe N (V := V) σ) (idVisitor σ V)
    (CollPipe.Rel Track.Rel fun (n : N) p => (treeOf n).wpaths p) :=
  CollPipe.enum (Track.enum (N := N) σ) fun (n : N) p => Track.rel_new n p

theorem collRel (ns : List N) : CollPipe.Rel (Track.Rel (N := N)) (fun (n : N) p => (treeOf n).wpaths p) (CollPipe.State.new ns) []
    (CollPipe.labs (fun n p => (treeOf n).wpaths p) 0 ns) := CollPipe.rel_new ns

theorem collDepths (ns : List N) : ∀ t ∈ CollPipe.labs (fun n p => (treeOf n : Tree V).wpaths p) 0 ns, LabDepth 1 t :=
  mem_labs (fun n i => (wpaths_labPath (treeOf n) [i]).labDepth) ns 0

theorem collPaths (ns : List N) : ∀ t ∈ CollPipe.labs (fun n p => (treeOf n : Tree V).wpaths p) 0 ns, ∃ i, LabPath [i] t :=
  mem_labs (fun n i => ⟨i, wpaths_labPath (treeOf n) [i]⟩) ns 0

theorem collLabs {ns : List N} (h : ∀ n ∈ ns, ArityOk n) (i : Nat) :
    CollPipe.labs (fun n p => (treeOf n : Tree V).wpaths p) i ns = CollPipe.labs (fun n p => (treeOf n).paths p) i ns :=
  labs_congr ns (fun n hn i => wpaths_treeOf (h n hn) [i]) i

end General

section Binary
variable {N : Type u} {V : Type v} [BinNode N V]

theorem binCollEnum (σ : Type w) : Enum (Api.binCollPipe N (V := V) σ) (idVisitor σ V)
    (CollPipe.Rel Track.BinRel fun (n : N) p => (binTreeOf n).paths p) :=
  CollPipe.enum (Track.binEnum (N := N) σ) fun (n : N) p => Track.binRel_new n p

theorem binCollRel (ns : List N) : CollPipe.Rel (Track.BinRel (N := N)) (fun (n : N) p => (binTreeOf n).paths p) (CollPipe.State.new ns) []
    (CollPipe.labs (fun n p => (binTreeOf n).paths p) 0 ns) := CollPipe.rel_new ns

theorem binCollDepths (ns : List N) : ∀ t ∈ CollPipe.labs (fun n p => (binTreeOf n : BinTree V).paths p) 0 ns, LabDepth 1 t :=
  mem_labs (fun n i => paths_labDepth (binTreeOf n) [i]) ns 0

end Binary

end TreeIter
