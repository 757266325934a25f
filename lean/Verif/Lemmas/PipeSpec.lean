import Verif.Lemmas.PipeRun

/-! # The stages compute what the specification says -/

universe u v w x y z

namespace TreeIter

section
variable {σ : Type w} {U : Type v} {W : Type x} {τ : Type y} {O : Type z}

theorem decStep_id (step : σ → List Nat → U → σ × Outcome W) : decStep step decId = step := by
  funext w p x
  simp only [decStep, decId]
  rcases step w p x with ⟨w', o⟩
  cases o <;> simp

/-! ## General trees -/

theorem map_tree (f : σ → U → σ × W) (t : Lab U) (w : σ) :
    (Dec.tree (mapStep f) w t).1 = ((t.map Prod.snd).mapS f w).1 ∧
      (Dec.tree (mapStep f) w t).2.map (Tree.map Prod.fst) = some ((t.map Prod.snd).mapS f w).2 := by
  induction t using Tree.ind generalizing w with
  | h b cs ih =>
    obtain ⟨p, x⟩ := b
    have key : ∀ ds : List (Lab U), (∀ c ∈ ds, c ∈ cs) → ∀ w : σ,
        (Dec.forest (mapStep f) w ds).1 = (Tree.mapSL f w (ds.map (Tree.map Prod.snd))).1 ∧
        (Dec.forest (mapStep f) w ds).2.map (Tree.map Prod.fst) = (Tree.mapSL f w (ds.map (Tree.map Prod.snd))).2 := by
      intro ds
      induction ds with
      | nil => intro _ w; simp [Dec.forest, Tree.mapSL]
      | cons c ds ihd =>
        intro hds w
        obtain ⟨h1, h2⟩ := ih c (hds c (by simp)) w
        obtain ⟨i1, i2⟩ := ihd (fun c hc => hds c (by simp [hc])) (Dec.tree (mapStep f) w c).1
        simp only [Dec.forest, List.map_cons, Tree.mapSL]
        refine ⟨by rw [i1, h1], ?_⟩
        rw [List.map_append, i2, ← Option.toList_map, h2, h1]
        rfl
    obtain ⟨k1, k2⟩ := key cs (fun _ h => h) (f w x).1
    simp [Dec.tree, mapStep, Tree.map_node, Tree.mapS] at k1 k2 ⊢
    exact ⟨k1, k2⟩

theorem prune_tree (f : σ → U → σ × Bool) (t : Lab U) (w : σ) :
    (Dec.tree (pruneStep fun w _ y => f w y) w t).1 = ((t.map Prod.snd).pruneS f w).1 ∧
      (Dec.tree (pruneStep fun w _ y => f w y) w t).2.map (Tree.map Prod.fst) = ((t.map Prod.snd).pruneS f w).2 := by
  induction t using Tree.ind generalizing w with
  | h b cs ih =>
    obtain ⟨p, x⟩ := b
    have key : ∀ ds : List (Lab U), (∀ c ∈ ds, c ∈ cs) → ∀ w : σ,
        (Dec.forest (pruneStep fun w _ y => f w y) w ds).1 = (Tree.pruneSL f w (ds.map (Tree.map Prod.snd))).1 ∧
        (Dec.forest (pruneStep fun w _ y => f w y) w ds).2.map (Tree.map Prod.fst) =
          (Tree.pruneSL f w (ds.map (Tree.map Prod.snd))).2 := by
      intro ds
      induction ds with
      | nil => intro _ w; simp [Dec.forest, Tree.pruneSL]
      | cons c ds ihd =>
        intro hds w
        obtain ⟨h1, h2⟩ := ih c (hds c (by simp)) w
        obtain ⟨i1, i2⟩ := ihd (fun c hc => hds c (by simp [hc])) (Dec.tree (pruneStep fun w _ y => f w y) w c).1
        simp only [Dec.forest, List.map_cons, Tree.pruneSL]
        refine ⟨by rw [i1, h1], ?_⟩
        rw [List.map_append, i2, ← Option.toList_map, h2, h1]
    obtain ⟨k1, k2⟩ := key cs (fun _ h => h) (f w x).1
    rw [Tree.map_node, Tree.pruneS, Dec.tree, pruneStep]
    cases hf : (f w x).2 with
    | true => simp
    | false => simp [Tree.map_node, k1, k2]

theorem depth_tree (d : Nat) (t : Lab U) {k : Nat} (hk : LabDepth k t) (hd : k ≤ d) (w : σ) :
    (Dec.tree (depthStep List.length d) w t).1 = w ∧
      (Dec.tree (depthStep List.length d) w t).2.map (Tree.map Prod.fst) = some ((t.map Prod.snd).truncate (d - k)) := by
  induction t using Tree.ind generalizing w k with
  | h b cs ih =>
    obtain ⟨p, x⟩ := b
    simp only [LabDepth] at hk
    obtain ⟨rfl, hk⟩ := hk
    rw [Tree.map_node, Dec.tree, depthStep]
    by_cases hpd : p.length = d
    · subst hpd
      rw [Nat.sub_self, Tree.truncate]
      simp [Tree.map_node]
    · obtain ⟨e, he⟩ : ∃ e, d - p.length = e + 1 := ⟨d - p.length - 1, by omega⟩
      have key : ∀ ds : List (Lab U), (∀ c ∈ ds, c ∈ cs) → ∀ w : σ,
          (Dec.forest (depthStep List.length d) w ds).1 = w ∧
          (Dec.forest (depthStep List.length d) w ds).2.map (Tree.map Prod.fst) =
            Tree.truncateL e (ds.map (Tree.map Prod.snd)) := by
        intro ds
        induction ds with
        | nil => intro _ w; simp [Dec.forest, Tree.truncateL]
        | cons c ds ihd =>
          intro hds w
          obtain ⟨h1, h2⟩ := ih c (hds c (by simp)) (hk c (hds c (by simp))) (by omega) w
          obtain ⟨i1, i2⟩ := ihd (fun c hc => hds c (by simp [hc])) (Dec.tree (depthStep List.length d) w c).1
          simp only [Dec.forest, List.map_cons, Tree.truncateL]
          refine ⟨by rw [i1, h1], ?_⟩
          rw [List.map_append, i2, ← Option.toList_map, h2, show d - (p.length + 1) = e by omega]
          rfl
      obtain ⟨k1, k2⟩ := key cs (fun _ h => h) w
      have hb : (p.length != d) = true := by simpa using hpd
      rw [he, Tree.truncate]
      simp [hb, Tree.map_node, k1, k2]

theorem prunePath_tree (f : σ → List Nat → U → σ × Bool) (t : Tree U) (w : σ) (p : List Nat) :
    (Dec.tree (pruneStep f) w (t.paths p)).1 = (t.prunePathS f w p).1 ∧
      (Dec.tree (pruneStep f) w (t.paths p)).2.map (Tree.map Prod.fst) = (t.prunePathS f w p).2 := by
  induction t using Tree.ind generalizing w p with
  | h x cs ih =>
    have key : ∀ ds : List (Tree U), (∀ c ∈ ds, c ∈ cs) → ∀ (w : σ) (i : Nat),
        (Dec.forest (pruneStep f) w (Tree.pathsL p i ds)).1 = (Tree.prunePathSL f w p i ds).1 ∧
        (Dec.forest (pruneStep f) w (Tree.pathsL p i ds)).2.map (Tree.map Prod.fst) = (Tree.prunePathSL f w p i ds).2 := by
      intro ds
      induction ds with
      | nil => intro _ w i; simp [Tree.pathsL, Dec.forest, Tree.prunePathSL]
      | cons c ds ihd =>
        intro hds w i
        obtain ⟨h1, h2⟩ := ih c (hds c (by simp)) w (p ++ [i])
        obtain ⟨i1, i2⟩ := ihd (fun c hc => hds c (by simp [hc])) (Dec.tree (pruneStep f) w (c.paths (p ++ [i]))).1 (i + 1)
        simp only [Tree.pathsL, Dec.forest, Tree.prunePathSL]
        refine ⟨by rw [i1, h1], ?_⟩
        rw [List.map_append, i2, ← Option.toList_map, h2, h1]
    obtain ⟨k1, k2⟩ := key cs (fun _ h => h) (f w p x).1 0
    rw [Tree.paths, Tree.prunePathS, Dec.tree, pruneStep]
    cases hf : (f w p x).2 with
    | true => simp
    | false => simp [Tree.map_node, k1, k2]

theorem id_tree (t : Lab U) (w : σ) :
    Dec.tree decId w t = (w, some (t.map Prod.swap)) := by
  induction t using Tree.ind generalizing w with
  | h b cs ih =>
    obtain ⟨p, x⟩ := b
    have key : ∀ ds : List (Lab U), (∀ c ∈ ds, c ∈ cs) → ∀ w : σ,
        Dec.forest decId w ds = (w, ds.map (Tree.map Prod.swap)) := by
      intro ds
      induction ds with
      | nil => intro _ w; simp [Dec.forest]
      | cons c ds ihd =>
        intro hds w
        simp [Dec.forest, ih c (hds c (by simp)), ihd (fun c hc => hds c (by simp [hc]))]
    simp [Dec.tree, decId, Tree.map_node, key cs (fun _ h => h)]

theorem foldPath_paths (f : τ → List O → List Nat → U → τ × O) (t : Tree U) (r : τ) (p : List Nat) :
    ((t.paths p).map Prod.swap).foldS (Pipe.onPaths f) r = t.foldPathS f r p := by
  induction t using Tree.ind generalizing r p with
  | h x cs ih =>
    have key : ∀ ds : List (Tree U), (∀ c ∈ ds, c ∈ cs) → ∀ (r : τ) (i : Nat),
        Tree.foldSL (Pipe.onPaths f) r ((Tree.pathsL p i ds).map (Tree.map Prod.swap)) = Tree.foldPathSL f r p i ds := by
      intro ds
      induction ds with
      | nil => intro _ r i; simp [Tree.pathsL, Tree.foldSL, Tree.foldPathSL]
      | cons c ds ihd =>
        intro hds r i
        simp [Tree.pathsL, Tree.foldSL, Tree.foldPathSL, ih c (hds c (by simp)), ihd (fun c hc => hds c (by simp [hc]))]
    rw [Tree.paths, Tree.map_node, Tree.foldS, Tree.foldPathS, key cs (fun _ h => h)]
    rfl

/-! ## Labels -/

theorem paths_labPath (t : Tree U) (p : List Nat) : LabPath p (t.paths p) := by
  induction t using Tree.ind generalizing p with
  | h x cs ih =>
    rw [Tree.paths, LabPath]
    refine ⟨rfl, ?_⟩
    have key : ∀ ds : List (Tree U), (∀ c ∈ ds, c ∈ cs) → ∀ i, ∀ c ∈ Tree.pathsL p i ds, ∃ j, LabPath (p ++ [j]) c := by
      intro ds
      induction ds with
      | nil => intro _ i c hc; simp [Tree.pathsL] at hc
      | cons d ds ihd =>
        intro hds i c hc
        rw [Tree.pathsL] at hc
        rcases List.mem_cons.1 hc with rfl | hc
        · exact ⟨i, ih d (hds d (by simp)) _⟩
        · exact ihd (fun c hc => hds c (by simp [hc])) (i + 1) c hc
    exact key cs (fun _ h => h) 0

theorem wpaths_labPath (t : Tree U) (p : List Nat) : LabPath p (t.wpaths p) := by
  induction t using Tree.ind generalizing p with
  | h x cs ih =>
    rw [Tree.wpaths, LabPath]
    refine ⟨rfl, ?_⟩
    have key : ∀ ds : List (Tree U), (∀ c ∈ ds, c ∈ cs) → ∀ i, ∀ c ∈ Tree.wpathsL p i ds, ∃ j, LabPath (p ++ [j]) c := by
      intro ds
      induction ds with
      | nil => intro _ i c hc; simp [Tree.wpathsL] at hc
      | cons d ds ihd =>
        intro hds i c hc
        rw [Tree.wpathsL] at hc
        rcases List.mem_cons.1 hc with rfl | hc
        · exact ⟨_, ih d (hds d (by simp)) _⟩
        · exact ihd (fun c hc => hds c (by simp [hc])) _ c hc
    exact key cs (fun _ h => h) usizeMax

theorem wpaths_snd (t : Tree U) (p : List Nat) : (t.wpaths p).map Prod.snd = t := by
  induction t using Tree.ind generalizing p with
  | h x cs ih =>
    rw [Tree.wpaths, Tree.map_node]
    congr 1
    have key : ∀ ds : List (Tree U), (∀ c ∈ ds, c ∈ cs) → ∀ i, (Tree.wpathsL p i ds).map (Tree.map Prod.snd) = ds := by
      intro ds
      induction ds with
      | nil => intro _ i; rfl
      | cons d ds ihd =>
        intro hds i
        rw [Tree.wpathsL, List.map_cons, ih d (hds d (by simp)), ihd fun c hc => hds c (by simp [hc])]
    exact key cs (fun _ h => h) usizeMax

/-! ## Binary trees -/

theorem map_bin (f : σ → U → σ × W) (t : BinTree U) (w : σ) (p : List Nat) :
    Dec.bin (mapStep f) w p t = ((t.mapS f w).1, some (t.mapS f w).2) := by
  induction t using BinTree.ind generalizing w p with
  | h x l r ihl ihr =>
    have slot : ∀ (o : Option (BinTree U)), (∀ c ∈ o, ∀ (w : σ) (p : List Nat),
        Dec.bin (mapStep f) w p c = ((c.mapS f w).1, some (c.mapS f w).2)) → ∀ (w : σ) (p : List Nat),
        Dec.binO (mapStep f) w p o = BinTree.mapSO f w o := by
      intro o ho w p
      cases o with
      | none => simp [Dec.binO, BinTree.mapSO]
      | some c => simp [Dec.binO, BinTree.mapSO, ho c rfl]
    rw [Dec.bin, BinTree.mapS, mapStep]
    simp only
    rw [slot l ihl, slot r ihr]

theorem prunePath_bin (f : σ → List Nat → U → σ × Bool) (t : BinTree U) (w : σ) (p : List Nat) :
    Dec.bin (pruneStep f) w p t = t.prunePathS f w p := by
  induction t using BinTree.ind generalizing w p with
  | h x l r ihl ihr =>
    have slot : ∀ (o : Option (BinTree U)), (∀ c ∈ o, ∀ (w : σ) (p : List Nat),
        Dec.bin (pruneStep f) w p c = c.prunePathS f w p) → ∀ (w : σ) (p : List Nat),
        Dec.binO (pruneStep f) w p o = BinTree.prunePathSO f w p o := by
      intro o ho w p
      cases o with
      | none => simp [Dec.binO, BinTree.prunePathSO]
      | some c => simp [Dec.binO, BinTree.prunePathSO, ho c rfl]
    rw [Dec.bin, BinTree.prunePathS, pruneStep]
    cases hf : (f w p x).2 with
    | true => simp
    | false => simp [slot l ihl, slot r ihr]

theorem prune_bin (f : σ → U → σ × Bool) (t : BinTree U) (w : σ) (p : List Nat) :
    Dec.bin (pruneStep fun w _ y => f w y) w p t = t.pruneS f w := by
  induction t using BinTree.ind generalizing w p with
  | h x l r ihl ihr =>
    have slot : ∀ (o : Option (BinTree U)), (∀ c ∈ o, ∀ (w : σ) (p : List Nat),
        Dec.bin (pruneStep fun w _ y => f w y) w p c = c.pruneS f w) → ∀ (w : σ) (p : List Nat),
        Dec.binO (pruneStep fun w _ y => f w y) w p o = BinTree.pruneSO f w o := by
      intro o ho w p
      cases o with
      | none => simp [Dec.binO, BinTree.pruneSO]
      | some c => simp [Dec.binO, BinTree.pruneSO, ho c rfl]
    rw [Dec.bin, BinTree.pruneS, pruneStep]
    cases hf : (f w x).2 with
    | true => simp
    | false => simp [slot l ihl, slot r ihr]

theorem depth_bin (d : Nat) (t : BinTree U) (w : σ) (p : List Nat) (hd : p.length ≤ d) :
    Dec.bin (depthStep List.length d) w p t = (w, some (t.truncate (d - p.length))) := by
  induction t using BinTree.ind generalizing w p with
  | h x l r ihl ihr =>
    rw [Dec.bin, depthStep]
    by_cases hpd : p.length = d
    · subst hpd
      rw [Nat.sub_self, BinTree.truncate]
      simp
    · obtain ⟨e, he⟩ : ∃ e, d - p.length = e + 1 := ⟨d - p.length - 1, by omega⟩
      have slot : ∀ (o : Option (BinTree U)), (∀ c ∈ o, ∀ (w : σ) (p : List Nat), p.length ≤ d →
          Dec.bin (depthStep List.length d) w p c = (w, some (c.truncate (d - p.length)))) → ∀ (w : σ) (i : Nat),
          Dec.binO (depthStep List.length d) w (p ++ [i]) o = (w, BinTree.truncateO e o) := by
        intro o ho w i
        cases o with
        | none => simp [Dec.binO, BinTree.truncateO]
        | some c =>
          have := ho c rfl w (p ++ [i]) (by simp; omega)
          rw [show d - (p ++ [i]).length = e by simp; omega] at this
          simp [Dec.binO, BinTree.truncateO, this]
      have hb : (p.length != d) = true := by simpa using hpd
      rw [he, BinTree.truncate]
      simp [hb, slot l ihl, slot r ihr]

theorem id_bin (t : BinTree U) (w : σ) (p : List Nat) : Dec.bin decId w p t = (w, some t) := by
  induction t using BinTree.ind generalizing w p with
  | h x l r ihl ihr =>
    have slot : ∀ (o : Option (BinTree U)), (∀ c ∈ o, ∀ (w : σ) (p : List Nat),
        Dec.bin decId w p c = (w, some c)) → ∀ (w : σ) (p : List Nat),
        Dec.binO decId w p o = (w, o) := by
      intro o ho w p
      cases o with
      | none => simp [Dec.binO]
      | some c => simp [Dec.binO, ho c rfl]
    rw [Dec.bin, decId]
    simp only
    rw [slot l ihl, slot r ihr]

theorem fold_noPath (f : τ → Option O × Option O → U → τ × O) (t : BinTree U) (r : τ) (p : List Nat) :
    t.foldPathS (fun t acc _ v => f t acc v) r p = t.foldS f r := by
  induction t using BinTree.ind generalizing r p with
  | h x lo ro ihl ihr =>
    have slot : ∀ (o : Option (BinTree U)), (∀ c ∈ o, ∀ (r : τ) (p : List Nat),
        c.foldPathS (fun t acc _ v => f t acc v) r p = c.foldS f r) → ∀ (r : τ) (p : List Nat),
        BinTree.foldPathSO (fun t acc _ v => f t acc v) r p o = BinTree.foldSO f r o := by
      intro o ho r p
      cases o with
      | none => simp [BinTree.foldPathSO, BinTree.foldSO]
      | some c => simp [BinTree.foldPathSO, BinTree.foldSO, ho c rfl]
    rw [BinTree.foldPathS, BinTree.foldS, slot lo ihl, slot ro ihr]

end

end TreeIter
