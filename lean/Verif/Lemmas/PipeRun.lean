import Verif.Lemmas.PipeSources
import Verif.Lemmas.PipeBinEnds

/-! # Pipelines whose stages decide node by node -/

universe u v w x y z z'

namespace TreeIter

/-- What a chain of stages does with a node, given the node's path in the source: a visitor without state. -/
abbrev Dec (σ : Type w) (U : Type v) (W : Type x) := σ → List Nat → U → σ × Outcome W

section
variable {A : Type u} {σ : Type w} {U : Type v} {W : Type x} {Z : Type y}

mutual
/-- The tree emitted from a labelled tree, with the labels. -/
def Dec.tree (dec : Dec σ U W) (w : σ) : Lab U → σ × Option (Tree (W × List Nat))
  | .node (p, x) cs =>
    match dec w p x with
    | (w', .skip) => (w', none)
    | (w', .emit y false) => (w', some (.node (y, p) []))
    | (w', .emit y true) => ((Dec.forest dec w' cs).1, some (.node (y, p) (Dec.forest dec w' cs).2))
/-- The forest emitted from a labelled forest. -/
def Dec.forest (dec : Dec σ U W) (w : σ) : List (Lab U) → σ × List (Tree (W × List Nat))
  | [] => (w, [])
  | t :: ts =>
    ((Dec.forest dec (Dec.tree dec w t).1 ts).1,
      (Dec.tree dec w t).2.toList ++ (Dec.forest dec (Dec.tree dec w t).1 ts).2)
end

/-- The paths of a labelled tree are as long as the nodes are deep, the root being at depth `d`. -/
def LabDepth : Nat → Lab U → Prop
  | d, .node (p, _) cs => p.length = d ∧ ∀ c ∈ cs, LabDepth (d + 1) c

/-- Every node of a labelled tree carries its parent's path and one more segment; the root is at `q`. -/
def LabPath : List Nat → Lab U → Prop
  | q, .node (p, _) cs => p = q ∧ ∀ c ∈ cs, ∃ i, LabPath (q ++ [i]) c

theorem LabPath.labDepth {q : List Nat} {t : Lab U} (h : LabPath q t) : LabDepth q.length t := by
  induction t using Tree.ind generalizing q with
  | h a cs ih =>
    obtain ⟨p, y⟩ := a
    simp only [LabPath] at h
    simp only [LabDepth]
    refine ⟨by rw [h.1], fun c hc => ?_⟩
    obtain ⟨i, hi⟩ := h.2 c hc
    simpa using ih c hc hi

/-- What the visitor does with a node does not depend on its state. -/
def Indep (v : Visitor A σ U W) (dec : Dec σ U W) : Prop :=
  ∀ a w p x, ∃ a', v.visit a w p x = (a', dec w p x)

/-- The path reported for an emitted node is as long as the path in the source. -/
def LenOk (v : Visitor A σ U W) : Prop :=
  ∀ {a w p x a' w' y k}, v.visit a w p x = (a', w', .emit y k) → (v.path a').length = p.length

/-- The path reported for an emitted node is its path in the source. -/
def Through (v : Visitor A σ U W) : Prop :=
  ∀ {a w p x a' w' y k}, v.visit a w p x = (a', w', .emit y k) → v.path a' = p

theorem Through.lenOk {v : Visitor A σ U W} (h : Through v) : LenOk v := fun hv => by rw [h hv]

/-- What is emitted from a tree, up to the reported paths. -/
theorem visitT_indep {v : Visitor A σ U W} {dec : Dec σ U W} (hl : LenOk v) (hi : Indep v dec) (t : Lab U) :
    ∀ (a : A) (w : σ) {d : Nat}, LabDepth d t →
    ∃ o, (visitT v a w t).1 = Option.toList o ∧ (visitT v a w t).2.2 = (dec.tree w t).1 ∧
      o.map (Tree.map Prod.fst) = (dec.tree w t).2.map (Tree.map Prod.fst) ∧ ∀ t' ∈ o, DepthOk d t' := by
  induction t using Tree.ind with
  | h b cs ih =>
    obtain ⟨p, x⟩ := b
    intro a w d hd
    simp only [LabDepth] at hd
    have key : ∀ ds : List (Lab U), (∀ c ∈ ds, c ∈ cs) → ∀ (a : A) (w : σ),
        (visitL v a w ds).2.2 = (dec.forest w ds).1 ∧
        (visitL v a w ds).1.map (Tree.map Prod.fst) = (dec.forest w ds).2.map (Tree.map Prod.fst) ∧
        ∀ t' ∈ (visitL v a w ds).1, DepthOk (d + 1) t' := by
      intro ds
      induction ds with
      | nil => intro _ a w; simp [visitL, Dec.forest]
      | cons c ds ihd =>
        intro hds a w
        obtain ⟨o, h1, h2, h3, h4⟩ := ih c (hds c (by simp)) a w (hd.2 c (hds c (by simp)))
        obtain ⟨i1, i2, i3⟩ := ihd (fun c hc => hds c (by simp [hc])) (visitT v a w c).2.1 (visitT v a w c).2.2
        simp only [visitL, Dec.forest, h1]
        refine ⟨by rw [i1, h2], ?_, ?_⟩
        · rw [List.map_append, List.map_append, i2, h2]
          congr 1
          rw [← Option.toList_map, ← Option.toList_map, h3]
        · intro t' ht'
          rcases List.mem_append.1 ht' with ht' | ht'
          · exact h4 t' (by simpa using ht')
          · exact i3 t' ht'
    obtain ⟨a', hv⟩ := hi a w p x
    rcases hdec : dec w p x with ⟨w', o⟩
    rw [hdec] at hv
    cases o with
    | skip => exact ⟨none, by simp [visitT, hv], by simp [visitT, Dec.tree, hv, hdec],
        by simp [Dec.tree, hdec], by simp⟩
    | emit y k =>
      have hlen := hl hv
      cases k with
      | false =>
        refine ⟨some (.node (y, v.path a') []), by simp [visitT, hv], by simp [visitT, Dec.tree, hv, hdec],
          by simp [Dec.tree, hdec, Tree.map_node], ?_⟩
        intro t' ht'
        simp only [Option.mem_def, Option.some.injEq] at ht'
        subst ht'
        simp only [DepthOk]
        exact ⟨by rw [hlen, hd.1], by simp⟩
      | true =>
        obtain ⟨k1, k2, k3⟩ := key cs (fun _ h => h) a' w'
        refine ⟨some (.node (y, v.path a') (visitL v a' w' cs).1), by simp [visitT, hv],
          by simp [visitT, Dec.tree, hv, hdec, k1], by simp [Dec.tree, hdec, Tree.map_node, k2], ?_⟩
        intro t' ht'
        simp only [Option.mem_def, Option.some.injEq] at ht'
        subst ht'
        simp only [DepthOk]
        exact ⟨by rw [hlen, hd.1], k3⟩

/-- What is emitted from a tree when paths are those of the source. -/
theorem visitT_through {v : Visitor A σ U W} {dec : Dec σ U W} (hl : Through v) (hi : Indep v dec) (t : Lab U) :
    ∀ (a : A) (w : σ), (visitT v a w t).1 = (dec.tree w t).2.toList ∧ (visitT v a w t).2.2 = (dec.tree w t).1 := by
  induction t using Tree.ind with
  | h b cs ih =>
    obtain ⟨p, x⟩ := b
    intro a w
    have key : ∀ ds : List (Lab U), (∀ c ∈ ds, c ∈ cs) → ∀ (a : A) (w : σ),
        (visitL v a w ds).2.2 = (dec.forest w ds).1 ∧ (visitL v a w ds).1 = (dec.forest w ds).2 := by
      intro ds
      induction ds with
      | nil => intro _ a w; simp [visitL, Dec.forest]
      | cons c ds ihd =>
        intro hds a w
        obtain ⟨h1, h2⟩ := ih c (hds c (by simp)) a w
        obtain ⟨i1, i2⟩ := ihd (fun c hc => hds c (by simp [hc])) (visitT v a w c).2.1 (visitT v a w c).2.2
        simp only [visitL, Dec.forest]
        exact ⟨by rw [i1, h2], by rw [h1, i2, h2]⟩
    obtain ⟨a', hv⟩ := hi a w p x
    rcases hdec : dec w p x with ⟨w', o⟩
    rw [hdec] at hv
    cases o with
    | skip => simp [visitT, Dec.tree, hv, hdec]
    | emit y k =>
      have hlen := hl hv
      cases k with
      | false => simp [visitT, Dec.tree, hv, hdec, hlen]
      | true =>
        obtain ⟨k1, k2⟩ := key cs (fun _ h => h) a' w'
        simp [visitT, Dec.tree, hv, hdec, hlen, k1, k2]

theorem Dec.tree_pathOk {dec : Dec σ U W} {w : σ} {t : Lab U} {q : List Nat} (h : LabPath q t) :
    ∀ t' ∈ (dec.tree w t).2, PathOk q t' := by
  induction t using Tree.ind generalizing w q with
  | h b cs ih =>
    obtain ⟨p, x⟩ := b
    simp only [LabPath] at h
    obtain ⟨rfl, h⟩ := h
    have key : ∀ ds : List (Lab U), (∀ c ∈ ds, c ∈ cs) → ∀ (w : σ), ∀ t' ∈ (dec.forest w ds).2, ∃ i, PathOk (p ++ [i]) t' := by
      intro ds
      induction ds with
      | nil => intro _ w; simp [Dec.forest]
      | cons c ds ihd =>
        intro hds w t' ht'
        rw [Dec.forest] at ht'
        rcases List.mem_append.1 ht' with ht' | ht'
        · obtain ⟨i, hi⟩ := h c (hds c (by simp))
          exact ⟨i, ih c (hds c (by simp)) hi t' (by simpa using ht')⟩
        · exact ihd (fun c hc => hds c (by simp [hc])) _ t' ht'
    intro t' ht'
    rw [Dec.tree] at ht'
    rcases hdec : dec w p x with ⟨w', o⟩
    rw [hdec] at ht'
    cases o with
    | skip => simp at ht'
    | emit y k =>
      cases k with
      | false =>
        simp only [Option.mem_def, Option.some.injEq] at ht'
        subst ht'
        simp [PathOk]
      | true =>
        simp only [Option.mem_def, Option.some.injEq] at ht'
        subst ht'
        simp only [PathOk, true_and]
        exact key cs (fun _ h => h) w'

end

/-! ## The ends -/

section
variable {S : Type u} {A : Type v} {σ : Type w} {U : Type x} {W : Type y} {τ : Type z} {O : Type z'}
variable {M : Pipe S W σ} {v : Visitor A σ U W} {R : S → A → List (Lab U) → Prop} {dec : Dec σ U W} {s : S} {a : A}
  {t : Lab U}

theorem Enum.collectTree (hM : Enum M v R) (hl : LenOk v) (hi : Indep v dec) (hR : R s a [t]) (ht : LabDepth 0 t)
    (w : σ) : M.collectTree s w = .ok ((dec.tree w t).2.map (Tree.map Prod.fst), (dec.tree w t).1) := by
  obtain ⟨o, h1, h2, h3, h4⟩ := visitT_indep hl hi t a w ht
  have h := hM.emits w hR
  simp only [visitL, h1, List.append_nil, h2] at h
  rw [Pipe.collectTree_of_emits h h4, h3]

theorem Enum.foldTree (hM : Enum M v R) (hl : LenOk v) (hi : Indep v dec) (hR : R s a [t]) (ht : LabDepth 0 t)
    (f : τ → List O → W → τ × O) (w : σ) (r : τ) :
    M.foldTree f s w r = .ok ((foldO (Tree.foldS f) r ((dec.tree w t).2.map (Tree.map Prod.fst))).2,
      (foldO (Tree.foldS f) r ((dec.tree w t).2.map (Tree.map Prod.fst))).1, (dec.tree w t).1) := by
  obtain ⟨o, h1, h2, h3, h4⟩ := visitT_indep hl hi t a w ht
  have h := hM.emits w hR
  simp only [visitL, h1, List.append_nil, h2] at h
  rw [Pipe.foldTree_of_emits h h4, h3]

theorem Enum.foldPath (hM : Enum M v R) (hl : Through v) (hi : Indep v dec) (hR : R s a [t]) (ht : LabPath [] t)
    (f : τ → List O → List Nat → W → τ × O) (w : σ) (r : τ) :
    M.foldPath f s w r = .ok ((foldO (Tree.foldS (Pipe.onPaths f)) r (dec.tree w t).2).2,
      (foldO (Tree.foldS (Pipe.onPaths f)) r (dec.tree w t).2).1, (dec.tree w t).1) := by
  obtain ⟨h1, h2⟩ := visitT_through hl hi t a w
  have h := hM.emits w hR
  simp only [visitL, h1, List.append_nil, h2] at h
  rw [Pipe.foldPath_of_emits h (Dec.tree_pathOk ht)]

end

/-! ## Binary trees -/

section
variable {A : Type u} {σ : Type w} {U : Type v} {W : Type x}

mutual
/-- What is emitted from a binary tree whose root is at `p`. -/
def Dec.bin (dec : Dec σ U W) (w : σ) (p : List Nat) : BinTree U → σ × Option (BinTree W)
  | .node x l r =>
    match dec w p x with
    | (w', .skip) => (w', none)
    | (w', .emit y false) => (w', some (.node y none none))
    | (w', .emit y true) =>
      ((Dec.binO dec (Dec.binO dec w' (p ++ [0]) l).1 (p ++ [1]) r).1,
        some (.node y (Dec.binO dec w' (p ++ [0]) l).2 (Dec.binO dec (Dec.binO dec w' (p ++ [0]) l).1 (p ++ [1]) r).2))
/-- The same for a slot. -/
def Dec.binO (dec : Dec σ U W) (w : σ) (p : List Nat) : Option (BinTree U) → σ × Option (BinTree W)
  | none => (w, none)
  | some t => Dec.bin dec w p t
end

theorem Dec.forest_append (dec : Dec σ U W) (w : σ) (l l' : List (Lab U)) :
    dec.forest w (l ++ l') =
      ((dec.forest (dec.forest w l).1 l').1, (dec.forest w l).2 ++ (dec.forest (dec.forest w l).1 l').2) := by
  induction l generalizing w with
  | nil => simp [Dec.forest]
  | cons t ts ih => simp [Dec.forest, ih]

theorem Dec.tree_paths (dec : Dec σ U W) (t : BinTree U) (w : σ) (p : List Nat) :
    dec.tree w (t.paths p) = ((dec.bin w p t).1, (dec.bin w p t).2.map (BinTree.emitted p)) := by
  induction t using BinTree.ind generalizing w p with
  | h x l r ihl ihr =>
    have slot : ∀ (o : Option (BinTree U)), (∀ c ∈ o, ∀ (w : σ) (p : List Nat),
        dec.tree w (c.paths p) = ((dec.bin w p c).1, (dec.bin w p c).2.map (BinTree.emitted p))) → ∀ (w : σ) (p : List Nat),
        dec.forest w (BinTree.pathsO p o) = ((dec.binO w p o).1, BinTree.emittedO p (dec.binO w p o).2) := by
      intro o ho w p
      cases o with
      | none => simp [BinTree.pathsO, Dec.forest, Dec.binO, BinTree.emittedO]
      | some c =>
        simp only [BinTree.pathsO, Dec.forest, Dec.binO, ho c rfl, List.append_nil]
        cases (dec.bin w p c).2 <;> simp [BinTree.emittedO]
    rw [BinTree.paths, Dec.tree, Dec.bin]
    rcases hdec : dec w p x with ⟨w', o⟩
    cases o with
    | skip => simp
    | emit y k =>
      cases k with
      | false => simp [BinTree.emitted, BinTree.emittedO]
      | true => simp [Dec.forest_append, slot l ihl, slot r ihr, BinTree.emitted]

end

section
variable {S : Type u} {A : Type v} {σ : Type w} {U : Type x} {W : Type y} {τ : Type z} {O : Type z'}
variable {M : Pipe S W σ} {v : Visitor A σ U W} {R : S → A → List (Lab U) → Prop} {dec : Dec σ U W} {s : S} {a : A}
  {t : BinTree U}

theorem Enum.emits_bin (hM : Enum M v R) (hl : Through v) (hi : Indep v dec) (hR : R s a [t.paths []]) (w : σ) :
    M.emits s w = .ok (Tree.preorderL (BinTree.emittedO [] (dec.bin w [] t).2), (dec.bin w [] t).1) := by
  obtain ⟨h1, h2⟩ := visitT_through hl hi (t.paths []) a w
  have h := hM.emits w hR
  simp only [visitL, h1, List.append_nil, h2, Dec.tree_paths] at h
  rw [h]
  cases (dec.bin w [] t).2 <;> rfl

theorem Enum.binCollectTree (hM : Enum M v R) (hl : Through v) (hi : Indep v dec) (hR : R s a [t.paths []]) (w : σ) :
    M.binCollectTree s w = .ok ((dec.bin w [] t).2, (dec.bin w [] t).1) :=
  Pipe.binCollectTree_of_emits (hM.emits_bin hl hi hR w)

theorem Enum.binFoldPath (hM : Enum M v R) (hl : Through v) (hi : Indep v dec) (hR : R s a [t.paths []])
    (f : τ → Option O × Option O → List Nat → W → τ × O) (w : σ) (r : τ) :
    M.binFoldPath f s w r = .ok ((foldO (fun r c => BinTree.foldPathS f r [] c) r (dec.bin w [] t).2).2,
      (foldO (fun r c => BinTree.foldPathS f r [] c) r (dec.bin w [] t).2).1, (dec.bin w [] t).1) :=
  Pipe.binFoldPath_of_emits (hM.emits_bin hl hi hR w) r

end

/-! ## Decisions of the stages -/

section
variable {A : Type u} {σ : Type w} {U : Type v} {W : Type x} {Z : Type y}

/-- The source emits every node. -/
def decId : Dec σ U U := fun w _ x => (w, .emit x true)

/-- The decisions of a pipeline followed by a stage that decides by `step`. -/
def decStep (step : σ → List Nat → W → σ × Outcome Z) (dec : Dec σ U W) : Dec σ U Z := fun w p x =>
  match dec w p x with
  | (w', .skip) => (w', .skip)
  | (w', .emit y k) =>
    match step w' p y with
    | (w'', .skip) => (w'', .skip)
    | (w'', .emit z k') => (w'', .emit z (k && k'))

/-- The decisions of `map_tree`. -/
def mapStep (f : σ → W → σ × Z) : σ → List Nat → W → σ × Outcome Z := fun w _ y => ((f w y).1, .emit (f w y).2 true)

/-- The decisions of `prune_path`. -/
def pruneStep (f : σ → List Nat → W → σ × Bool) : σ → List Nat → W → σ × Outcome W := fun w p y =>
  ((f w p y).1, if (f w p y).2 then .skip else .emit y true)

/-- The decisions of `prune_depth`. -/
def depthStep (depthT : List Nat → Nat) (d : Nat) : σ → List Nat → W → σ × Outcome W := fun w p y =>
  (w, .emit y (depthT p != d))

theorem indep_id : Indep (idVisitor σ U) decId := fun _ _ p _ => ⟨p, rfl⟩

theorem through_id : Through (idVisitor σ U) := by
  intro a w p x a' w' y k h
  simp only [idVisitor, Prod.mk.injEq] at h
  exact h.1.symm

theorem Indep.stage {B : Type z} {v : Visitor A σ U W} {dec : Dec σ U W} (hi : Indep v dec) (g : Stage B σ W Z)
    (step : σ → List Nat → W → σ × Outcome Z)
    (hg : ∀ b w y {a p a' w0 x k}, v.visit a w0 p x = (a', w, .emit y k) → ∃ b', g.step b w (v.path a') y = (b', step w p y)) :
    Indep (g.visitor v) (decStep step dec) := by
  rintro ⟨a, b⟩ w p x
  obtain ⟨a', hv⟩ := hi a w p x
  rcases hdec : dec w p x with ⟨w', o⟩
  rw [hdec] at hv
  cases o with
  | skip => exact ⟨(a', b), by simp [Stage.visitor, decStep, hv, hdec]⟩
  | emit y k =>
    obtain ⟨b', hb⟩ := hg b w' y hv
    refine ⟨(a', b'), ?_⟩
    rcases hs : step w' p y with ⟨w'', o⟩
    rw [hs] at hb
    cases o <;> simp [Stage.visitor, decStep, hv, hdec, hb, hs]

theorem Through.stage {B : Type z} {v : Visitor A σ U W} (h : Through v) (g : Stage B σ W Z)
    (hg : ∀ b p, g.path b p = p) : Through (g.visitor v) := by
  rintro ⟨a, b⟩ w p x ⟨a', b'⟩ w' z k hv
  simp only [Stage.visitor] at hv
  rcases h1 : v.visit a w p x with ⟨a1, w1, o⟩
  rw [h1] at hv
  cases o with
  | skip => simp at hv
  | emit y k =>
    simp only at hv
    rcases h2 : g.step b w1 (v.path a1) y with ⟨b1, w2, o⟩
    rw [h2] at hv
    cases o with
    | skip => simp at hv
    | emit y k =>
      simp only [Prod.mk.injEq] at hv
      obtain ⟨⟨rfl, rfl⟩, -, -⟩ := hv
      simp only [Stage.visitor, hg]
      exact h h1

theorem LenOk.stage {B : Type z} {v : Visitor A σ U W} (h : LenOk v) (g : Stage B σ W Z)
    (hg : ∀ {b w p y b' w' z k}, g.step b w p y = (b', w', .emit z k) → (g.path b' p).length = p.length) :
    LenOk (g.visitor v) := by
  rintro ⟨a, b⟩ w p x ⟨a', b'⟩ w' z k hv
  simp only [Stage.visitor] at hv
  rcases h1 : v.visit a w p x with ⟨a1, w1, o⟩
  rw [h1] at hv
  cases o with
  | skip => simp at hv
  | emit y k =>
    simp only at hv
    rcases h2 : g.step b w1 (v.path a1) y with ⟨b1, w2, o⟩
    rw [h2] at hv
    cases o with
    | skip => simp at hv
    | emit y k =>
      simp only [Prod.mk.injEq] at hv
      obtain ⟨⟨rfl, rfl⟩, -, -⟩ := hv
      simp only [Stage.visitor, hg h2]
      exact h h1

variable {v : Visitor A σ U W} {dec : Dec σ U W}

theorem Indep.map (hi : Indep v dec) (f : σ → W → σ × Z) : Indep ((mapStage f).visitor v) (decStep (mapStep f) dec) :=
  hi.stage _ _ fun _ _ _ _ _ _ _ _ _ _ => ⟨(), rfl⟩

theorem Indep.prune (hi : Indep v dec) (f : σ → W → σ × Bool) :
    Indep ((pruneStage fun w _ y => f w y).visitor v) (decStep (pruneStep fun w _ y => f w y) dec) :=
  hi.stage _ _ fun _ _ _ _ _ _ _ _ _ _ => ⟨_, rfl⟩

theorem Indep.prunePath (hi : Indep v dec) (ht : Through v) (f : σ → List Nat → W → σ × Bool) :
    Indep ((pruneStage f).visitor v) (decStep (pruneStep f) dec) :=
  hi.stage _ _ fun b w y _ _ _ _ _ _ hv => by rw [ht hv]; exact ⟨_, rfl⟩

theorem Indep.binPrunePath (hi : Indep v dec) (ht : Through v) (f : σ → List Nat → W → σ × Bool) :
    Indep ((binPruneStage f).visitor v) (decStep (pruneStep f) dec) :=
  hi.stage _ _ fun b w y _ _ _ _ _ _ hv => by rw [ht hv]; exact ⟨(), rfl⟩

theorem Indep.pruneDepth (hi : Indep v dec) (hl : LenOk v) (depthT : List Nat → Nat)
    (hd : ∀ p q : List Nat, p.length = q.length → depthT p = depthT q) (d : Nat) :
    Indep ((pruneDepthStage depthT d).visitor v) (decStep (depthStep depthT d) dec) :=
  hi.stage _ _ fun b w y _ _ _ _ _ _ hv => by
    simp only [pruneDepthStage, depthStep, hd _ _ (hl hv)]
    exact ⟨(), trivial⟩

theorem Through.map (h : Through v) (f : σ → W → σ × Z) : Through ((mapStage f).visitor v) := h.stage _ fun _ _ => rfl

theorem Through.mapPath (h : Through v) (stale : σ → List Nat → List Nat → List Nat) (f : σ → List Nat → W → σ × Z) :
    Through ((mapPathStage stale f).visitor v) := h.stage _ fun _ _ => rfl

theorem Through.binPrunePath (h : Through v) (f : σ → List Nat → W → σ × Bool) : Through ((binPruneStage f).visitor v) :=
  h.stage _ fun _ _ => rfl

theorem Through.pruneDepth (h : Through v) (depthT : List Nat → Nat) (d : Nat) :
    Through ((pruneDepthStage depthT d).visitor v) := h.stage _ fun _ _ => rfl

theorem LenOk.map (h : LenOk v) (f : σ → W → σ × Z) : LenOk ((mapStage f).visitor v) := h.stage _ fun _ => rfl

theorem LenOk.mapPath (h : LenOk v) (stale : σ → List Nat → List Nat → List Nat) (f : σ → List Nat → W → σ × Z) :
    LenOk ((mapPathStage stale f).visitor v) := h.stage _ fun _ => rfl

theorem LenOk.pruneDepth (h : LenOk v) (depthT : List Nat → Nat) (d : Nat) :
    LenOk ((pruneDepthStage depthT d).visitor v) := h.stage _ fun _ => rfl

theorem LenOk.prunePath (h : LenOk v) (f : σ → List Nat → W → σ × Bool) : LenOk ((pruneStage f).visitor v) :=
  h.stage _ fun {b w p y b' w' z k} hg => by
    simp only [pruneStage, Prod.mk.injEq] at hg
    rw [← hg.1]
    exact adj_length _ _

end

end TreeIter
