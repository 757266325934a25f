import Verif.Model.Chain
import Verif.Lemmas.PipePruned

/-! # Chains of stages -/

universe u v w x y z

namespace TreeIter

section
variable {σ : Type w} {U : Type v} {W : Type x}

/-- The decisions described by a step function. -/
def decOf (step : σ → List Nat → U → σ × Option (W × Bool)) : Dec σ U W := fun w p x =>
  match step w p x with
  | (w', none) => (w', .skip)
  | (w', some (y, k)) => (w', .emit y k)

theorem decOf_tree (step : σ → List Nat → U → σ × Option (W × Bool)) (t : Tree U) (w : σ) (p : List Nat) :
    ((decOf step).tree w (t.paths p)).1 = (t.runS step w p).1 ∧
      ((decOf step).tree w (t.paths p)).2.map (Tree.map Prod.fst) = (t.runS step w p).2 := by
  induction t using Tree.ind generalizing w p with
  | h x cs ih =>
    have key : ∀ ds : List (Tree U), (∀ c ∈ ds, c ∈ cs) → ∀ (w : σ) (i : Nat),
        ((decOf step).forest w (Tree.pathsL p i ds)).1 = (Tree.runSL step w p i ds).1 ∧
        ((decOf step).forest w (Tree.pathsL p i ds)).2.map (Tree.map Prod.fst) = (Tree.runSL step w p i ds).2 := by
      intro ds
      induction ds with
      | nil => intro _ w i; simp [Tree.pathsL, Dec.forest, Tree.runSL]
      | cons c ds ihd =>
        intro hds w i
        obtain ⟨h1, h2⟩ := ih c (hds c (by simp)) w (p ++ [i])
        obtain ⟨i1, i2⟩ := ihd (fun c hc => hds c (by simp [hc])) ((decOf step).tree w (c.paths (p ++ [i]))).1 (i + 1)
        simp only [Tree.pathsL, Dec.forest, Tree.runSL]
        refine ⟨by rw [i1, h1], ?_⟩
        rw [List.map_append, i2, ← Option.toList_map, h2, h1]
    rw [Tree.paths, Tree.runS, Dec.tree, decOf]
    rcases hs : step w p x with ⟨w', _ | ⟨y, _ | _⟩⟩
    · simp
    · simp [Tree.map_node]
    · obtain ⟨k1, k2⟩ := key cs (fun _ h => h) w' 0
      simp [Tree.map_node, k1, k2]

/-- A step function that looks only at the length of the path. -/
def ByDepth (step : σ → List Nat → U → σ × Option (W × Bool)) : Prop :=
  ∀ w p q x, p.length = q.length → step w p x = step w q x

theorem decOf_wtree {step : σ → List Nat → U → σ × Option (W × Bool)} (hs : ByDepth step) (t : Tree U) (w : σ)
    (p q : List Nat) (hpq : p.length = q.length) :
    ((decOf step).tree w (t.wpaths q)).1 = (t.runS step w p).1 ∧
      ((decOf step).tree w (t.wpaths q)).2.map (Tree.map Prod.fst) = (t.runS step w p).2 := by
  induction t using Tree.ind generalizing w p q with
  | h x cs ih =>
    have key : ∀ ds : List (Tree U), (∀ c ∈ ds, c ∈ cs) → ∀ (w : σ) (i j : Nat),
        ((decOf step).forest w (Tree.wpathsL q j ds)).1 = (Tree.runSL step w p i ds).1 ∧
        ((decOf step).forest w (Tree.wpathsL q j ds)).2.map (Tree.map Prod.fst) = (Tree.runSL step w p i ds).2 := by
      intro ds
      induction ds with
      | nil => intro _ w i j; simp [Tree.wpathsL, Dec.forest, Tree.runSL]
      | cons c ds ihd =>
        intro hds w i j
        obtain ⟨h1, h2⟩ := ih c (hds c (by simp)) w (p ++ [i]) (q ++ [wrapSucc j]) (by simp [hpq])
        obtain ⟨i1, i2⟩ := ihd (fun c hc => hds c (by simp [hc]))
          ((decOf step).tree w (c.wpaths (q ++ [wrapSucc j]))).1 (i + 1) (wrapSucc j)
        simp only [Tree.wpathsL, Dec.forest, Tree.runSL]
        refine ⟨by rw [i1, h1], ?_⟩
        rw [List.map_append, i2, ← Option.toList_map, h2, h1]
    rw [Tree.wpaths, Tree.runS, Dec.tree, decOf, hs w p q x hpq]
    rcases hs' : step w q x with ⟨w', _ | ⟨y, _ | _⟩⟩
    · simp
    · simp [Tree.map_node]
    · obtain ⟨k1, k2⟩ := key cs (fun _ h => h) w' 0 usizeMax
      simp [Tree.map_node, k1, k2]

theorem decOf_bin (step : σ → List Nat → U → σ × Option (W × Bool)) (t : BinTree U) (w : σ) (p : List Nat) :
    (decOf step).bin w p t = t.runS step w p := by
  induction t using BinTree.ind generalizing w p with
  | h x l r ihl ihr =>
    have slot : ∀ (o : Option (BinTree U)), (∀ c ∈ o, ∀ (w : σ) (p : List Nat),
        (decOf step).bin w p c = c.runS step w p) → ∀ (w : σ) (p : List Nat),
        (decOf step).binO w p o = BinTree.runSO step w p o := by
      intro o ho w p
      cases o with
      | none => simp [Dec.binO, BinTree.runSO]
      | some c => simp [Dec.binO, BinTree.runSO, ho c rfl]
    rw [Dec.bin, BinTree.runS, decOf]
    rcases hs : step w p x with ⟨w', _ | ⟨y, _ | _⟩⟩
    · rfl
    · rfl
    · simp [slot l ihl, slot r ihr]

end

namespace Chain
variable {σ : Type w} {V W Z : Type v} {S : Type u}

theorem decOf_source : decOf (source : Chain σ V V).step = decId := rfl

theorem decOf_map (c : Chain σ V W) (f : σ → W → σ × Z) :
    decOf (c.map f).step = decStep (mapStep f) (decOf c.step) := by
  funext w p x
  simp only [decOf, step, decStep, mapStep]
  rcases c.step w p x with ⟨w', _ | ⟨y, k⟩⟩ <;> simp

theorem decOf_prunePath (c : Chain σ V W) (f : σ → List Nat → W → σ × Bool) :
    decOf (c.prunePath f).step = decStep (pruneStep f) (decOf c.step) := by
  funext w p x
  simp only [decOf, step, decStep, pruneStep]
  rcases c.step w p x with ⟨w', _ | ⟨y, k⟩⟩
  · simp
  · cases h : (f w' p y).2 <;> simp [h]

theorem decOf_prune (c : Chain σ V W) (f : σ → W → σ × Bool) :
    decOf (c.prune f).step = decStep (pruneStep fun w _ y => f w y) (decOf c.step) := by
  funext w p x
  simp only [decOf, step, decStep, pruneStep]
  rcases c.step w p x with ⟨w', _ | ⟨y, k⟩⟩
  · simp
  · cases h : (f w' y).2 <;> simp [h]

theorem decOf_pruneDepth (c : Chain σ V W) (d : Nat) :
    decOf (c.pruneDepth d).step = decStep (depthStep List.length d) (decOf c.step) := by
  funext w p x
  simp only [decOf, step, decStep, depthStep]
  rcases c.step w p x with ⟨w', _ | ⟨y, k⟩⟩ <;> simp

theorem byDepth (c : Chain σ V W) (hc : c.noPaths = true) : ByDepth c.step := by
  intro w p q x hpq
  induction c with
  | source => rfl
  | map c f ih => simp only [step, ih hc]
  | prune c f ih => simp only [step, ih hc]
  | prunePath c f ih => simp [noPaths] at hc
  | pruneDepth c d ih => simp only [step, ih hc, hpq]

theorem noPaths_pathsFirst (c : Chain σ V W) (hc : c.noPaths = true) : c.pathsFirst = true := by
  induction c with
  | source => rfl
  | map c f ih => exact ih hc
  | prune c f ih => exact ih hc
  | prunePath c f ih => simp [noPaths] at hc
  | pruneDepth c d ih => exact ih hc

/-- A chain keeping every node has its `prune_path` stages first. -/
theorem keepsAll_pathsFirst (c : Chain σ V W) (hc : c.keepsAll = true) : c.pathsFirst = true := by
  induction c with
  | source => rfl
  | map c f ih => exact ih hc
  | prune c f ih => simp [keepsAll] at hc
  | prunePath c f ih => simp [keepsAll] at hc
  | pruneDepth c d ih => exact ih hc

theorem enum {M : Pipe S V σ} {R : S → List Nat → List (Lab V) → Prop} (hM : Enum M (idVisitor σ V) R)
    (c : Chain σ V W) (hc : c.pathsFirst = true) :
    ∃ (A : Type) (v : Visitor A σ V W) (R' : c.St S → A → List (Lab V) → Prop),
      Enum (c.pipe M) v R' ∧ Indep v (decOf c.step) ∧ LenOk v ∧ (c.keepsAll = true → Through v) ∧
      ∀ s a l, R s a l → ∃ a', R' (c.init s) a' l := by
  induction c with
  | source => exact ⟨_, _, _, hM, indep_id, Through.lenOk through_id, fun _ => through_id, fun s a l h => ⟨a, h⟩⟩
  | map c f ih =>
    obtain ⟨A, v, R', h1, h2, h3, h4, h5⟩ := ih hc
    refine ⟨_, _, _, h1.map f, ?_, LenOk.map h3 f, fun h => Through.map (h4 h) f, fun s a l h => ?_⟩
    · rw [decOf_map]; exact h2.map f
    · obtain ⟨a', h⟩ := h5 s a l h
      exact ⟨(a', ()), h⟩
  | prune c f ih =>
    obtain ⟨A, v, R', h1, h2, h3, h4, h5⟩ := ih hc
    refine ⟨_, _, _, h1.prunePath fun w _ y => f w y, ?_, LenOk.prunePath h3 _, by simp [keepsAll], fun s a l h => ?_⟩
    · rw [decOf_prune]; exact h2.prune f
    · obtain ⟨a', h⟩ := h5 s a l h
      exact ⟨(a', []), ⟨rfl, rfl⟩, h⟩
  | prunePath c f ih =>
    obtain ⟨A, v, R', h1, h2, h3, h4, h5⟩ := ih (c.keepsAll_pathsFirst hc)
    refine ⟨_, _, _, h1.prunePath f, ?_, LenOk.prunePath h3 _, by simp [keepsAll], fun s a l h => ?_⟩
    · rw [decOf_prunePath]; exact h2.prunePath (h4 hc) f
    · obtain ⟨a', h⟩ := h5 s a l h
      exact ⟨(a', []), ⟨rfl, rfl⟩, h⟩
  | pruneDepth c d ih =>
    obtain ⟨A, v, R', h1, h2, h3, h4, h5⟩ := ih hc
    refine ⟨_, _, _, h1.pruneDepth Pipe.treeDepth List.length d (fun _ => True) fun _ _ => rfl, ?_,
      LenOk.pruneDepth h3 _ _, fun h => Through.pruneDepth (h4 h) _ _, fun s a l h => ?_⟩
    · rw [decOf_pruneDepth]; exact h2.pruneDepth h3 List.length (fun _ _ h => h) d
    · obtain ⟨a', h⟩ := h5 s a l h
      exact ⟨(a', ()), h, fun _ _ => trivial⟩

theorem binEnum {M : Pipe S V σ} {R : S → List Nat → List (Lab V) → Prop} (hM : Enum M (idVisitor σ V) R)
    (c : Chain σ V W) :
    ∃ (A : Type) (v : Visitor A σ V W) (R' : S → A → List (Lab V) → Prop),
      Enum (c.binPipe M) v R' ∧ Indep v (decOf c.step) ∧ Through v ∧ ∀ s a l, R s a l → ∃ a', R' s a' l := by
  induction c with
  | source => exact ⟨_, _, _, hM, indep_id, through_id, fun s a l h => ⟨a, h⟩⟩
  | map c f ih =>
    obtain ⟨A, v, R', h1, h2, h4, h5⟩ := ih
    refine ⟨_, _, _, h1.map f, ?_, Through.map h4 f, fun s a l h => ?_⟩
    · rw [decOf_map]; exact h2.map f
    · obtain ⟨a', h⟩ := h5 s a l h
      exact ⟨(a', ()), h⟩
  | prune c f ih =>
    obtain ⟨A, v, R', h1, h2, h4, h5⟩ := ih
    refine ⟨_, _, _, h1.binPrune f, ?_, Through.binPrunePath h4 _, fun s a l h => ?_⟩
    · rw [decOf_prune]; exact h2.binPrunePath h4 fun w _ y => f w y
    · obtain ⟨a', h⟩ := h5 s a l h
      exact ⟨(a', ()), h⟩
  | prunePath c f ih =>
    obtain ⟨A, v, R', h1, h2, h4, h5⟩ := ih
    refine ⟨_, _, _, h1.binPrunePath f, ?_, Through.binPrunePath h4 _, fun s a l h => ?_⟩
    · rw [decOf_prunePath]; exact h2.binPrunePath h4 f
    · obtain ⟨a', h⟩ := h5 s a l h
      exact ⟨(a', ()), h⟩
  | pruneDepth c d ih =>
    obtain ⟨A, v, R', h1, h2, h4, h5⟩ := ih
    refine ⟨_, _, _, h1.pruneDepth Pipe.treeDepth List.length d (fun _ => True) fun _ _ => rfl, ?_,
      Through.pruneDepth h4 _ _, fun s a l h => ?_⟩
    · rw [decOf_pruneDepth]; exact h2.pruneDepth (Through.lenOk h4) List.length (fun _ _ h => h) d
    · obtain ⟨a', h⟩ := h5 s a l h
      exact ⟨(a', ()), h, fun _ _ => trivial⟩

end Chain

/-! ## The ends of a chain -/

section
variable {N : Type u} {V W : Type v} [TreeNode N V] {σ : Type w} {τ : Type x} {O : Type y}

theorem Chain.decOf_start (c : Chain σ V W) (n : N) (hn : c.noPaths = true ∨ ArityOk n) (w : σ) :
    ((decOf c.step).tree w ((treeOf n).wpaths [])).1 = ((treeOf n).runS c.step w []).1 ∧
      ((decOf c.step).tree w ((treeOf n).wpaths [])).2.map (Tree.map Prod.fst) = ((treeOf n).runS c.step w []).2 := by
  rcases hn with hn | hn
  · exact decOf_wtree (c.byDepth hn) _ w [] [] rfl
  · rw [wpaths_treeOf hn]; exact decOf_tree _ _ _ _

theorem Chain.collectTree (c : Chain σ V W) (hc : c.pathsFirst = true) (n : N) (hn : c.noPaths = true ∨ ArityOk n)
    (w : σ) : (c.pipe (Track.pipe σ)).collectTree (c.init (Api.start n)) w =
      .ok (((treeOf n).runS c.step w []).2, ((treeOf n).runS c.step w []).1) := by
  obtain ⟨A, v, R', h1, h2, h3, -, h5⟩ := Chain.enum (Track.enum (N := N) σ) c hc
  obtain ⟨a', h⟩ := h5 _ _ _ (rel_start n)
  rw [h1.collectTree h3 h2 h (labDepth_start n)]
  obtain ⟨k1, k2⟩ := c.decOf_start n hn w
  rw [k1, k2]

theorem Chain.foldTree (c : Chain σ V W) (hc : c.pathsFirst = true) (n : N) (hn : c.noPaths = true ∨ ArityOk n)
    (g : τ → List O → W → τ × O) (w : σ) (r : τ) : (c.pipe (Track.pipe σ)).foldTree g (c.init (Api.start n)) w r =
      .ok ((foldO (Tree.foldS g) r ((treeOf n).runS c.step w []).2).2,
        (foldO (Tree.foldS g) r ((treeOf n).runS c.step w []).2).1, ((treeOf n).runS c.step w []).1) := by
  obtain ⟨A, v, R', h1, h2, h3, -, h5⟩ := Chain.enum (Track.enum (N := N) σ) c hc
  obtain ⟨a', h⟩ := h5 _ _ _ (rel_start n)
  rw [h1.foldTree h3 h2 h (labDepth_start n)]
  obtain ⟨k1, k2⟩ := c.decOf_start n hn w
  rw [k1, k2]

end

/-! ## Chains that keep every node report the paths of the result -/

section
variable {σ : Type w} {U : Type v} {W : Type x}

/-- A step function that drops no node. -/
def KeepsAll (step : σ → List Nat → U → σ × Option (W × Bool)) : Prop := ∀ w p x, (step w p x).2.isSome = true

theorem decOf_keepsAll {step : σ → List Nat → U → σ × Option (W × Bool)} (hs : KeepsAll step) (t : Tree U) (w : σ)
    (p : List Nat) :
    ((decOf step).tree w (t.paths p)).2 = (t.runS step w p).2.map (Tree.atPaths p) ∧ (t.runS step w p).2.isSome = true := by
  induction t using Tree.ind generalizing w p with
  | h x cs ih =>
    have key : ∀ ds : List (Tree U), (∀ c ∈ ds, c ∈ cs) → ∀ (w : σ) (i : Nat),
        ((decOf step).forest w (Tree.pathsL p i ds)).2 = Tree.atPathsL p i (Tree.runSL step w p i ds).2 := by
      intro ds
      induction ds with
      | nil => intro _ w i; simp [Tree.pathsL, Dec.forest, Tree.runSL, Tree.atPathsL]
      | cons c ds ihd =>
        intro hds w i
        obtain ⟨h1, h2⟩ := ih c (hds c (by simp)) w (p ++ [i])
        obtain ⟨t', ht'⟩ := Option.isSome_iff_exists.1 h2
        have h3 := (decOf_tree step c w (p ++ [i])).1
        simp only [Tree.pathsL, Dec.forest, Tree.runSL]
        rw [h1, ht', ihd (fun c hc => hds c (by simp [hc])), h3]
        simp [Tree.atPathsL]
    rw [Tree.paths, Tree.runS, Dec.tree, decOf]
    have h := hs w p x
    rcases hst : step w p x with ⟨w', _ | ⟨y, _ | _⟩⟩
    · simp [hst] at h
    · simp [Tree.atPaths, Tree.atPathsL]
    · simp [Tree.atPaths, key cs (fun _ h => h)]

theorem Chain.keepsAll_step {V Z : Type v} (c : Chain σ V Z) (hc : c.keepsAll = true) : KeepsAll c.step := by
  intro w p x
  induction c with
  | source => rfl
  | map c f ih =>
    have := ih hc
    rcases h : c.step w p x with ⟨w', _ | ⟨y, k⟩⟩
    · simp [h] at this
    · simp [step, h]
  | prune c f ih => simp [keepsAll] at hc
  | prunePath c f ih => simp [keepsAll] at hc
  | pruneDepth c d ih =>
    have := ih hc
    rcases h : c.step w p x with ⟨w', _ | ⟨y, k⟩⟩
    · simp [h] at this
    · simp [step, h]

theorem foldS_atPaths {τ : Type y} {O : Type z} (f : τ → List O → List Nat → U → τ × O) (t : Tree U) (r : τ)
    (p : List Nat) : (t.atPaths p).foldS (Pipe.onPaths f) r = t.foldPathS f r p := by
  induction t using Tree.ind generalizing r p with
  | h x cs ih =>
    have key : ∀ ds : List (Tree U), (∀ c ∈ ds, c ∈ cs) → ∀ (r : τ) (i : Nat),
        Tree.foldSL (Pipe.onPaths f) r (Tree.atPathsL p i ds) = Tree.foldPathSL f r p i ds := by
      intro ds
      induction ds with
      | nil => intro _ r i; simp [Tree.atPathsL, Tree.foldSL, Tree.foldPathSL]
      | cons c ds ihd =>
        intro hds r i
        simp [Tree.atPathsL, Tree.foldSL, Tree.foldPathSL, ih c (hds c (by simp)), ihd (fun c hc => hds c (by simp [hc]))]
    rw [Tree.atPaths, Tree.foldS, Tree.foldPathS, key cs (fun _ h => h)]
    rfl

end

section
variable {N : Type u} {V W : Type v} [TreeNode N V] {σ : Type w} {τ : Type x} {O : Type y}

theorem Chain.emits_keepsAll (c : Chain σ V W) (hc : c.keepsAll = true) (n : N) (hn : ArityOk n) (w : σ) :
    (c.pipe (Track.pipe σ)).emits (c.init (Api.start n)) w =
      .ok (Tree.preorderL (((treeOf n).runS c.step w []).2.map (Tree.atPaths [])).toList,
        ((treeOf n).runS c.step w []).1) := by
  obtain ⟨A, v, R', h1, h2, h3, h4, h5⟩ := Chain.enum (Track.enum (N := N) σ) c (c.keepsAll_pathsFirst hc)
  obtain ⟨a', h⟩ := h5 _ _ _ (rel_start n)
  obtain ⟨k1, k2⟩ := visitT_through (h4 hc) h2 ((treeOf n).wpaths []) a' w
  have he := h1.emits w h
  simp only [visitL, k1, List.append_nil, k2] at he
  rw [wpaths_treeOf hn] at he
  rw [he, (decOf_keepsAll (c.keepsAll_step hc) (treeOf n) w []).1, (decOf_tree c.step (treeOf n) w []).1]

theorem Chain.foldPath_keepsAll (c : Chain σ V W) (hc : c.keepsAll = true) (n : N) (hn : ArityOk n)
    (g : τ → List O → List Nat → W → τ × O) (w : σ) (r : τ) :
    (c.pipe (Track.pipe σ)).foldPath g (c.init (Api.start n)) w r =
      .ok ((foldO (fun r t => Tree.foldPathS g r [] t) r ((treeOf n).runS c.step w []).2).2,
        (foldO (fun r t => Tree.foldPathS g r [] t) r ((treeOf n).runS c.step w []).2).1,
        ((treeOf n).runS c.step w []).1) := by
  obtain ⟨A, v, R', h1, h2, h3, h4, h5⟩ := Chain.enum (Track.enum (N := N) σ) c (c.keepsAll_pathsFirst hc)
  obtain ⟨a', h⟩ := h5 _ _ _ (rel_start n)
  rw [h1.foldPath (h4 hc) h2 h (wpaths_labPath _ _), wpaths_treeOf hn,
    (decOf_keepsAll (c.keepsAll_step hc) (treeOf n) w []).1, (decOf_tree c.step (treeOf n) w []).1]
  obtain ⟨t', ht'⟩ := Option.isSome_iff_exists.1 (decOf_keepsAll (c.keepsAll_step hc) (treeOf n) w []).2
  simp only [ht', Option.map_some, foldO, foldS_atPaths]

end

/-! ## Stages after a stateless chain -/

section
variable {σ : Type w} {U : Type v} {W : Type x} {Z : Type y}

/-- A stateless step function followed by another one. -/
def compStep (s1 : List Nat → U → Option (W × Bool)) (g : σ → List Nat → W → σ × Option (Z × Bool)) :
    σ → List Nat → U → σ × Option (Z × Bool) := fun w p x =>
  match s1 p x with
  | none => (w, none)
  | some (y, k) => ((g w p y).1, (g w p y).2.map fun z => (z.1, k && z.2))

/-- A stateless step function. -/
def pureStep (s1 : List Nat → U → Option (W × Bool)) : σ → List Nat → U → σ × Option (W × Bool) := fun w p x => (w, s1 p x)

theorem runS_pure_state (s1 : List Nat → U → Option (W × Bool)) (t : Tree U) (w w' : σ) (p : List Nat) :
    t.runS (pureStep s1) w p = (w, (t.runS (pureStep s1) w' p).2) := by
  induction t using Tree.ind generalizing w w' p with
  | h x cs ih =>
    have key : ∀ ds : List (Tree U), (∀ c ∈ ds, c ∈ cs) → ∀ (w w' : σ) (i : Nat),
        Tree.runSL (pureStep s1) w p i ds = (w, (Tree.runSL (pureStep s1) w' p i ds).2) := by
      intro ds
      induction ds with
      | nil => intro _ w w' i; simp [Tree.runSL]
      | cons c ds ihd =>
        intro hds w w' i
        rw [Tree.runSL, Tree.runSL, ih c (hds c (by simp)) w w' (p ++ [i]),
          ihd (fun c hc => hds c (by simp [hc])) w (c.runS (pureStep s1) w' (p ++ [i])).1]
    rw [Tree.runS, Tree.runS]
    simp only [pureStep]
    rcases s1 p x with _ | ⟨y, _ | _⟩
    · rfl
    · rfl
    · simp only
      rw [key cs (fun _ h => h) w w' 0]

theorem runS_comp (s1 : List Nat → U → Option (W × Bool)) {g : σ → List Nat → W → σ × Option (Z × Bool)}
    (hg : ByDepth g) (t : Tree U) (w w0 : σ) (p q : List Nat) (hpq : p.length = q.length) :
    t.runS (compStep s1 g) w p =
      match (t.runS (pureStep s1) w0 p).2 with
      | none => (w, none)
      | some t' => t'.runS g w q := by
  induction t using Tree.ind generalizing w w0 p q with
  | h x cs ih =>
    have key : ∀ ds : List (Tree U), (∀ c ∈ ds, c ∈ cs) → ∀ (w w0 : σ) (i j : Nat),
        Tree.runSL (compStep s1 g) w p i ds = Tree.runSL g w q j (Tree.runSL (pureStep s1) w0 p i ds).2 := by
      intro ds
      induction ds with
      | nil => intro _ w w0 i j; simp [Tree.runSL]
      | cons c ds ihd =>
        intro hds w w0 i j
        have h := ih c (hds c (by simp)) w w0 (p ++ [i]) (q ++ [j]) (by simp [hpq])
        rw [Tree.runSL, h]
        simp only [Tree.runSL]
        rcases hc : (c.runS (pureStep s1) w0 (p ++ [i])).2 with _ | t'
        · simp only [Option.toList_none, List.nil_append]
          exact ihd (fun c hc => hds c (by simp [hc])) _ _ _ _
        · simp only [Option.toList_some, List.singleton_append, Tree.runSL]
          rw [ihd (fun c hc => hds c (by simp [hc])) _ (c.runS (pureStep s1) w0 (p ++ [i])).1 (i + 1) (j + 1)]
    have hk := key cs (fun _ h => h)
    rw [Tree.runS, Tree.runS]
    simp only [compStep, pureStep] at hk ⊢
    rcases s1 p x with _ | ⟨y, _ | _⟩
    · rfl
    · simp only [Bool.false_and]
      rw [Tree.runS, hg w q p y hpq.symm]
      rcases g w p y with ⟨w', _ | ⟨z, _ | _⟩⟩ <;> simp [Tree.runSL]
    · simp only [Bool.true_and]
      rw [Tree.runS, hg w q p y hpq.symm]
      rcases g w p y with ⟨w', _ | ⟨z, _ | _⟩⟩
      · rfl
      · rfl
      · simp [hk w' w0 0 0]

theorem paths_snd (t : Tree U) (p : List Nat) : (t.paths p).map Prod.snd = t := by
  induction t using Tree.ind generalizing p with
  | h x cs ih =>
    rw [Tree.paths, Tree.map_node]
    congr 1
    have key : ∀ ds : List (Tree U), (∀ c ∈ ds, c ∈ cs) → ∀ i, (Tree.pathsL p i ds).map (Tree.map Prod.snd) = ds := by
      intro ds
      induction ds with
      | nil => intro _ i; rfl
      | cons d ds ihd =>
        intro hds i
        rw [Tree.pathsL, List.map_cons, ih d (hds d (by simp)), ihd fun c hc => hds c (by simp [hc])]
    exact key cs (fun _ h => h) 0

theorem runS_map (f : σ → W → σ × Z) (t : Tree W) (w : σ) (p : List Nat) :
    t.runS (fun w _ y => ((f w y).1, some ((f w y).2, true))) w p = ((t.mapS f w).1, some (t.mapS f w).2) := by
  obtain ⟨h1, h2⟩ := decOf_tree (fun w _ y => ((f w y).1, some ((f w y).2, true))) t w p
  obtain ⟨k1, k2⟩ := map_tree f (t.paths p) w
  rw [paths_snd] at k1 k2
  exact Prod.ext (h1.symm.trans k1) (h2.symm.trans k2)

theorem runS_prune (f : σ → W → σ × Bool) (t : Tree W) (w : σ) (p : List Nat) :
    t.runS (fun w _ y => ((f w y).1, if (f w y).2 then none else some (y, true))) w p = t.pruneS f w := by
  obtain ⟨h1, h2⟩ := decOf_tree (fun w _ y => ((f w y).1, if (f w y).2 then none else some (y, true))) t w p
  obtain ⟨k1, k2⟩ := prune_tree f (t.paths p) w
  rw [paths_snd] at k1 k2
  have h : decOf (fun w (_ : List Nat) y => ((f w y).1, if (f w y).2 then none else some (y, true))) =
      pruneStep fun w _ y => f w y := by
    funext w p x
    simp only [decOf, pruneStep]
    cases (f w x).2 <;> rfl
  rw [h] at h1 h2
  exact Prod.ext (h1.symm.trans k1) (h2.symm.trans k2)

theorem runS_depth (d : Nat) (t : Tree W) (w : σ) :
    t.runS (fun w p y => (w, some (y, p.length != d))) w [] = (w, some (t.truncate d)) := by
  obtain ⟨h1, h2⟩ := decOf_tree (fun w p y => (w, some (y, p.length != d))) t w []
  obtain ⟨k1, k2⟩ := depth_tree d (t.paths []) (k := 0) (paths_labPath t []).labDepth (Nat.zero_le d) w
  rw [paths_snd] at k2
  exact Prod.ext (h1.symm.trans k1) (h2.symm.trans k2)

theorem Chain.stateless_step {V Z : Type v} (c : Chain σ V Z) (hc : c.Stateless) :
    ∃ s1, c.step = pureStep s1 := by
  suffices h : ∀ w w' p x, c.step w p x = (w, (c.step w' p x).2) by
    by_cases hσ : Nonempty σ
    · obtain ⟨w0⟩ := hσ
      exact ⟨fun p x => (c.step w0 p x).2, by funext w p x; exact h w w0 p x⟩
    · exact ⟨fun _ _ => none, by funext w; exact absurd ⟨w⟩ hσ⟩
  intro w w' p x
  induction c with
  | source => rfl
  | map c f ih =>
    simp only [step]
    rw [ih hc.1]
    rcases h : c.step w' p x with ⟨w1, _ | ⟨y, k⟩⟩
    · rfl
    · simp only
      rw [hc.2 w y w1]
  | prune c f ih =>
    simp only [step]
    rw [ih hc.1]
    rcases h : c.step w' p x with ⟨w1, _ | ⟨y, k⟩⟩
    · rfl
    · simp only
      rw [hc.2 w y w1]
  | prunePath c f ih =>
    simp only [step]
    rw [ih hc.1]
    rcases h : c.step w' p x with ⟨w1, _ | ⟨y, k⟩⟩
    · rfl
    · simp only
      rw [hc.2 w p y w1]
  | pruneDepth c d ih =>
    simp only [step]
    rw [ih hc]
    rcases h : c.step w' p x with ⟨w1, _ | ⟨y, k⟩⟩ <;> rfl

theorem Chain.step_map_comp {V Z : Type v} {Y : Type v} (c : Chain σ V Z) (f : σ → Z → σ × Y) {s1}
    (h : c.step = pureStep s1) :
    (c.map f).step = compStep s1 fun w _ y => ((f w y).1, some ((f w y).2, true)) := by
  funext w p x
  simp only [step, h, pureStep, compStep]
  rcases s1 p x with _ | ⟨y, k⟩ <;> simp

theorem Chain.step_prune_comp {V Z : Type v} (c : Chain σ V Z) (f : σ → Z → σ × Bool) {s1}
    (h : c.step = pureStep s1) :
    (c.prune f).step = compStep s1 fun w _ y => ((f w y).1, if (f w y).2 then none else some (y, true)) := by
  funext w p x
  simp only [step, h, pureStep, compStep]
  rcases s1 p x with _ | ⟨y, k⟩
  · rfl
  · simp only
    cases (f w y).2 <;> simp

theorem Chain.step_pruneDepth_comp {V Z : Type v} (c : Chain σ V Z) (d : Nat) {s1}
    (h : c.step = pureStep s1) :
    (c.pruneDepth d).step = compStep s1 fun w p y => (w, some (y, p.length != d)) := by
  funext w p x
  simp only [step, h, pureStep, compStep]
  rcases s1 p x with _ | ⟨y, k⟩ <;> simp

theorem Chain.step_prunePath_comp {V Z : Type v} (c : Chain σ V Z) (f : σ → List Nat → Z → σ × Bool) {s1}
    (h : c.step = pureStep s1) :
    (c.prunePath f).step = compStep s1 fun w p y => ((f w p y).1, if (f w p y).2 then none else some (y, true)) := by
  funext w p x
  simp only [step, h, pureStep, compStep]
  rcases s1 p x with _ | ⟨y, k⟩
  · rfl
  · simp only
    cases (f w p y).2 <;> simp

/-! ## The same for binary trees -/

theorem runS_bin_pure_state (s1 : List Nat → U → Option (W × Bool)) (t : BinTree U) (w w' : σ) (p : List Nat) :
    t.runS (pureStep s1) w p = (w, (t.runS (pureStep s1) w' p).2) := by
  induction t using BinTree.ind generalizing w w' p with
  | h x l r ihl ihr =>
    have slot : ∀ (o : Option (BinTree U)), (∀ c ∈ o, ∀ (w w' : σ) (p : List Nat),
        c.runS (pureStep s1) w p = (w, (c.runS (pureStep s1) w' p).2)) → ∀ (w w' : σ) (p : List Nat),
        BinTree.runSO (pureStep s1) w p o = (w, (BinTree.runSO (pureStep s1) w' p o).2) := by
      intro o ho w w' p
      cases o with
      | none => simp [BinTree.runSO]
      | some c => rw [BinTree.runSO, BinTree.runSO]; exact ho c rfl w w' p
    rw [BinTree.runS, BinTree.runS]
    simp only [pureStep]
    rcases s1 p x with _ | ⟨y, _ | _⟩
    · rfl
    · rfl
    · simp only
      rw [slot l ihl w w' (p ++ [0]), slot r ihr w (BinTree.runSO (pureStep s1) w' (p ++ [0]) l).1 (p ++ [1])]

theorem runS_bin_comp (s1 : List Nat → U → Option (W × Bool)) (g : σ → List Nat → W → σ × Option (Z × Bool))
    (t : BinTree U) (w w0 : σ) (p : List Nat) :
    t.runS (compStep s1 g) w p = BinTree.runSO g w p (t.runS (pureStep s1) w0 p).2 := by
  induction t using BinTree.ind generalizing w w0 p with
  | h x l r ihl ihr =>
    have slot : ∀ (o : Option (BinTree U)), (∀ c ∈ o, ∀ (w w0 : σ) (p : List Nat),
        c.runS (compStep s1 g) w p = BinTree.runSO g w p (c.runS (pureStep s1) w0 p).2) → ∀ (w w0 : σ) (p : List Nat),
        BinTree.runSO (compStep s1 g) w p o = BinTree.runSO g w p (BinTree.runSO (pureStep s1) w0 p o).2 := by
      intro o ho w w0 p
      cases o with
      | none => simp [BinTree.runSO]
      | some c => rw [BinTree.runSO, BinTree.runSO]; exact ho c rfl w w0 p
    have hl := slot l ihl
    have hr := slot r ihr
    rw [BinTree.runS, BinTree.runS]
    simp only [compStep, pureStep] at hl hr ⊢
    rcases s1 p x with _ | ⟨y, _ | _⟩
    · rfl
    · simp only [Bool.false_and, BinTree.runSO]
      rw [BinTree.runS]
      rcases g w p y with ⟨w', _ | ⟨z, _ | _⟩⟩ <;> simp [BinTree.runSO]
    · simp only [Bool.true_and, BinTree.runSO]
      rw [BinTree.runS]
      rcases g w p y with ⟨w', _ | ⟨z, _ | _⟩⟩
      · rfl
      · rfl
      · simp only [Option.map_some]
        rw [hl w' w0, hr _ (BinTree.runSO (fun w p x => (w, s1 p x)) w0 (p ++ [0]) l).1]
        rfl

theorem runS_bin_map (f : σ → W → σ × Z) (t : BinTree W) (w : σ) (p : List Nat) :
    t.runS (fun w _ y => ((f w y).1, some ((f w y).2, true))) w p = ((t.mapS f w).1, some (t.mapS f w).2) := by
  rw [← map_bin f t w p, ← decOf_bin]
  rfl

theorem runS_bin_prunePath (f : σ → List Nat → W → σ × Bool) (t : BinTree W) (w : σ) (p : List Nat) :
    t.runS (fun w p y => ((f w p y).1, if (f w p y).2 then none else some (y, true))) w p = t.prunePathS f w p := by
  rw [← prunePath_bin f t w p, ← decOf_bin]
  congr 1
  funext w p x
  simp only [decOf, pruneStep]
  cases (f w p x).2 <;> rfl

theorem runS_bin_prune (f : σ → W → σ × Bool) (t : BinTree W) (w : σ) (p : List Nat) :
    t.runS (fun w _ y => ((f w y).1, if (f w y).2 then none else some (y, true))) w p = t.pruneS f w := by
  rw [← prune_bin f t w p, ← decOf_bin]
  congr 1
  funext w p x
  simp only [decOf, pruneStep]
  cases (f w x).2 <;> rfl

theorem runS_bin_depth (d : Nat) (t : BinTree W) (w : σ) :
    t.runS (fun w p y => (w, some (y, p.length != d))) w [] = (w, some (t.truncate d)) := by
  have h := depth_bin d t w [] (Nat.zero_le d)
  rw [← decOf_bin]
  exact h

end

end TreeIter
