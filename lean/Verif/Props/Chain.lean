import Verif.Lemmas.Chain
import Verif.Props.Pipeline

/-! # Chained stages (C36) and the paths they report (C42) -/

universe u v w x y

namespace TreeIter

/-- A chain without state for the concrete cases: add ten, drop what is then eleven. -/
def pureChain : Chain Nat Nat Nat := .prune (.map .source fun w v => (w, v + 10)) fun w v => (w, v == 11)

theorem pureChain_stateless : pureChain.Stateless := ⟨⟨trivial, fun _ _ _ => rfl⟩, fun _ _ _ => rfl⟩

/-- The same without the second stage. -/
def addTen : Chain Unit Nat Nat := .map .source fun w v => (w, v + 10)

theorem addTen_stateless : addTen.Stateless := ⟨trivial, fun _ _ _ => rfl⟩

section General
variable {N : Type u} {V W Z : Type v} [TreeNode N V] {σ : Type w} {τ : Type x} {O : Type y}

/-- C36: `collect_tree` after a chain of stages rebuilds the tree from what the stages, one after another, do with every
node in preorder.  A `prune_path` must not come after a `prune` or `prune_path` (see C32), and needs the number of children
of every node to be representable. -/
theorem C36_collect (c : Chain σ V W) (hc : c.pathsFirst = true) (n : N) (hn : c.noPaths = true ∨ ArityOk n) (w : σ) :
    (c.pipe (Track.pipe σ)).collectTree (c.init (Api.start n)) w =
      .ok (((treeOf n).runS c.step w []).2, ((treeOf n).runS c.step w []).1) :=
  c.collectTree hc n hn w

/-- C36 for `fold_tree`. -/
theorem C36_fold (c : Chain σ V W) (hc : c.pathsFirst = true) (n : N) (hn : c.noPaths = true ∨ ArityOk n)
    (g : τ → List O → W → τ × O) (w : σ) (r : τ) :
    (c.pipe (Track.pipe σ)).foldTree g (c.init (Api.start n)) w r =
      .ok ((foldO (Tree.foldS g) r ((treeOf n).runS c.step w []).2).2,
        (foldO (Tree.foldS g) r ((treeOf n).runS c.step w []).2).1, ((treeOf n).runS c.step w []).1) :=
  c.foldTree hc n hn g w r

/-- What is made of the result of a pipeline by a further operation on the tree, if there is one. -/
def andThen {A B : Type u} {τ : Type w} (r : Except Panic (Option A × τ)) (f : A → τ → Except Panic (Option B × τ)) :
    Except Panic (Option B × τ) :=
  match r with
  | .error e => .error e
  | .ok (none, w) => .ok (none, w)
  | .ok (some t, w) => f t w

/-- A result that is always there. -/
def always {A : Type u} {τ : Type w} : Except Panic (A × τ) → Except Panic (Option A × τ)
  | .error e => .error e
  | .ok (t, w) => .ok (some t, w)

/-- C36: `map_tree` after stages whose closures have no state is `map` on the collected tree. -/
theorem C36_then_map (c : Chain σ V W) (hs : c.Stateless) (hc : c.pathsFirst = true) (f : σ → W → σ × Z) (n : N)
    (hn : c.noPaths = true ∨ ArityOk n) (w : σ) :
    ((c.map f).pipe (Track.pipe σ)).collectTree ((c.map f).init (Api.start n)) w =
      andThen ((c.pipe (Track.pipe σ)).collectTree (c.init (Api.start n)) w) fun t w => always (Api.map f t w) := by
  obtain ⟨s1, h1⟩ := c.stateless_step hs
  rw [(c.map f).collectTree hc n hn, c.collectTree hc n hn, c.step_map_comp f h1,
    runS_comp s1 (fun _ _ _ _ _ => rfl) (treeOf n) w w [] [] rfl, h1, runS_pure_state s1 (treeOf n) w w []]
  rcases ((treeOf n).runS (pureStep s1) w []).2 with _ | t
  · rfl
  · simp only [andThen, runS_map, C28_general, treeOf_tree, always]

example := C36_then_map pureChain pureChain_stateless rfl (fun w v => (w + v, 2 * v)) sampleTree (.inl rfl) 0

/-- C36: `prune` after stages whose closures have no state is `prune` on the collected tree. -/
theorem C36_then_prune (c : Chain σ V W) (hs : c.Stateless) (hc : c.pathsFirst = true) (f : σ → W → σ × Bool) (n : N)
    (hn : c.noPaths = true ∨ ArityOk n) (w : σ) :
    ((c.prune f).pipe (Track.pipe σ)).collectTree ((c.prune f).init (Api.start n)) w =
      andThen ((c.pipe (Track.pipe σ)).collectTree (c.init (Api.start n)) w) fun t w => Api.prune f t w := by
  obtain ⟨s1, h1⟩ := c.stateless_step hs
  rw [(c.prune f).collectTree hc n hn, c.collectTree hc n hn, c.step_prune_comp f h1,
    runS_comp s1 (fun _ _ _ _ _ => rfl) (treeOf n) w w [] [] rfl, h1, runS_pure_state s1 (treeOf n) w w []]
  rcases ((treeOf n).runS (pureStep s1) w []).2 with _ | t
  · rfl
  · simp only [andThen, runS_prune, C30_general, treeOf_tree]

example := C36_then_prune pureChain pureChain_stateless rfl (fun w v => (w + v, v == 12)) sampleTree (.inl rfl) 0

/-- C36: `prune_depth` after stages whose closures have no state is `prune_depth` on the collected tree. -/
theorem C36_then_pruneDepth (c : Chain Unit V W) (hs : c.Stateless) (hc : c.pathsFirst = true) (d : Nat) (n : N)
    (hn : c.noPaths = true ∨ ArityOk n) :
    ((c.pruneDepth d).pipe (Track.pipe Unit)).collectTree ((c.pruneDepth d).init (Api.start n)) () =
      andThen ((c.pipe (Track.pipe Unit)).collectTree (c.init (Api.start n)) ()) fun t _ => always (Api.pruneDepth d t) := by
  obtain ⟨s1, h1⟩ := c.stateless_step hs
  rw [(c.pruneDepth d).collectTree hc n hn, c.collectTree hc n hn, c.step_pruneDepth_comp d h1,
    runS_comp s1 (fun _ _ _ _ h => by rw [h]) (treeOf n) () () [] [] rfl, h1, runS_pure_state s1 (treeOf n) () () []]
  rcases ((treeOf n).runS (pureStep s1) () []).2 with _ | t
  · rfl
  · simp only [andThen, runS_depth, C33_general, treeOf_tree, always]

example := C36_then_pruneDepth addTen addTen_stateless rfl 1 sampleTree (.inl rfl)

/-- A chain for the concrete cases: write down the value, cut below depth 1, drop what is `1` after the map. -/
def sampleChain : Chain (List Nat) Nat Nat :=
  ((Chain.source.map fun log v => (log ++ [v], v + 1)).pruneDepth 1).prune fun log v => (log ++ [100 + v], v == 3)

example := C36_collect sampleChain rfl sampleTree (.inr sampleTree_arity) []

example := C36_fold sampleChain rfl sampleTree (.inr sampleTree_arity) (fun r os v => (r + 1, os.sum + v)) [] 0

example : ((sampleChain.pipe (Track.pipe _)).collectTree (sampleChain.init (Api.start sampleTree)) []).toOption =
    some (some (.node 1 [.node 2 []]), [0, 101, 1, 102, 2, 103]) := by decide +kernel

example : ((sampleChain.pipe (Track.pipe _)).collectTree (sampleChain.init (Api.start sampleTree)) []) =
    .ok ((sampleTree.runS sampleChain.step [] []).2, (sampleTree.runS sampleChain.step [] []).1) := by
  rw [C36_collect sampleChain rfl sampleTree (.inl rfl), treeOf_tree]

/-- The closures share their state, and an inner closure is not called below a node an outer one drops: with state the
stages are not the same as the whole-tree operations one after another. -/
theorem C36_stateful_differs :
    let c : Chain Nat Nat Nat := .map .source fun k v => (k + 1, v + 10 * k)
    let f : Nat → Nat → Nat × Bool := fun k v => (k, v == 11)
    (((c.prune f).pipe (Track.pipe _)).collectTree ((c.prune f).init (Api.start sampleTree)) 0).toOption ≠
      (andThen ((c.pipe (Track.pipe _)).collectTree (c.init (Api.start sampleTree)) 0) fun t w => Api.prune f t w).toOption := by
  decide +kernel

/-- C42: a chain that drops no node by a closure reports, at every node it emits, the node's path in the collected tree. -/
theorem C42_emits (c : Chain σ V W) (hc : c.keepsAll = true) (n : N) (hn : ArityOk n) (w : σ) :
    (c.pipe (Track.pipe σ)).emits (c.init (Api.start n)) w =
      .ok (Tree.preorderL (((treeOf n).runS c.step w []).2.map (Tree.atPaths [])).toList,
        ((treeOf n).runS c.step w []).1) :=
  c.emits_keepsAll hc n hn w

example := C42_emits (.map .source fun w v => (w + 1, v + w)) rfl sampleTree sampleTree_arity 0

/-- C42: and a `fold_path` at its end is given these paths. -/
theorem C42_foldPath (c : Chain σ V W) (hc : c.keepsAll = true) (n : N) (hn : ArityOk n)
    (g : τ → List O → List Nat → W → τ × O) (w : σ) (r : τ) :
    (c.pipe (Track.pipe σ)).foldPath g (c.init (Api.start n)) w r =
      .ok ((foldO (fun r t => Tree.foldPathS g r [] t) r ((treeOf n).runS c.step w []).2).2,
        (foldO (fun r t => Tree.foldPathS g r [] t) r ((treeOf n).runS c.step w []).2).1,
        ((treeOf n).runS c.step w []).1) :=
  c.foldPath_keepsAll hc n hn g w r

example : let c : Chain Unit Nat Nat := (Chain.source.map fun _ v => ((), v + 10)).pruneDepth 1
    ((c.pipe (Track.pipe _)).emits (c.init (Api.start sampleTree)) ()).toOption =
      some ([(10, []), (11, [0]), (12, [1])], ()) := by decide +kernel

end General

section Binary
variable {N : Type u} {V W Z : Type v} [BinNode N V] {σ : Type w} {τ : Type x} {O : Type y}

/-- C36 for binary trees; here `prune_path` may be anywhere, and is given the path in the source. -/
theorem C36_binary_collect (c : Chain σ V W) (n : N) (w : σ) :
    (c.binPipe (Track.binPipe σ)).binCollectTree (Api.binStart n) w =
      .ok (((binTreeOf n).runS c.step w []).2, ((binTreeOf n).runS c.step w []).1) := by
  obtain ⟨A, v, R', h1, h2, h3, h5⟩ := Chain.binEnum (Track.binEnum (N := N) σ) c
  obtain ⟨a', h⟩ := h5 _ _ _ (binRel_start n)
  rw [h1.binCollectTree h3 h2 h, decOf_bin]

/-- C36 for binary trees and `fold_path`: the closure is given the path of the node, which is the same in the source and
in the collected tree. -/
theorem C36_binary_foldPath (c : Chain σ V W) (n : N) (g : τ → Option O × Option O → List Nat → W → τ × O) (w : σ) (r : τ) :
    (c.binPipe (Track.binPipe σ)).binFoldPath g (Api.binStart n) w r =
      .ok ((foldO (fun r t => BinTree.foldPathS g r [] t) r ((binTreeOf n).runS c.step w []).2).2,
        (foldO (fun r t => BinTree.foldPathS g r [] t) r ((binTreeOf n).runS c.step w []).2).1,
        ((binTreeOf n).runS c.step w []).1) := by
  obtain ⟨A, v, R', h1, h2, h3, h5⟩ := Chain.binEnum (Track.binEnum (N := N) σ) c
  obtain ⟨a', h⟩ := h5 _ _ _ (binRel_start n)
  rw [h1.binFoldPath h3 h2 h, decOf_bin]

/-- C36 for binary trees and `fold_tree`. -/
theorem C36_binary_fold (c : Chain σ V W) (n : N) (g : τ → Option O × Option O → W → τ × O) (w : σ) (r : τ) :
    (c.binPipe (Track.binPipe σ)).binFoldTree g (Api.binStart n) w r =
      .ok ((foldO (BinTree.foldS g) r ((binTreeOf n).runS c.step w []).2).2,
        (foldO (BinTree.foldS g) r ((binTreeOf n).runS c.step w []).2).1, ((binTreeOf n).runS c.step w []).1) := by
  unfold Pipe.binFoldTree
  rw [C36_binary_foldPath]
  simp only [fold_noPath]

/-- C36 for binary trees: `map_tree` after stages whose closures have no state is `map` on the collected tree. -/
theorem C36_binary_then_map (c : Chain σ V W) (hs : c.Stateless) (f : σ → W → σ × Z) (n : N) (w : σ) :
    ((c.map f).binPipe (Track.binPipe σ)).binCollectTree (Api.binStart n) w =
      andThen ((c.binPipe (Track.binPipe σ)).binCollectTree (Api.binStart n) w) fun t w => always (Api.binMap f t w) := by
  obtain ⟨s1, h1⟩ := c.stateless_step hs
  rw [C36_binary_collect, C36_binary_collect, c.step_map_comp f h1, runS_bin_comp s1 _ _ w w, h1,
    runS_bin_pure_state s1 (binTreeOf n) w w []]
  rcases ((binTreeOf n).runS (pureStep s1) w []).2 with _ | t
  · rfl
  · simp only [andThen, BinTree.runSO, runS_bin_map, C28_binary, binTreeOf_binTree, always]

example := C36_binary_then_map pureChain pureChain_stateless (fun w v => (w + v, 2 * v)) sampleBin 0

/-- C36 for binary trees: the same for `prune`. -/
theorem C36_binary_then_prune (c : Chain σ V W) (hs : c.Stateless) (f : σ → W → σ × Bool) (n : N) (w : σ) :
    ((c.prune f).binPipe (Track.binPipe σ)).binCollectTree (Api.binStart n) w =
      andThen ((c.binPipe (Track.binPipe σ)).binCollectTree (Api.binStart n) w) fun t w => Api.binPrune f t w := by
  obtain ⟨s1, h1⟩ := c.stateless_step hs
  rw [C36_binary_collect, C36_binary_collect, c.step_prune_comp f h1, runS_bin_comp s1 _ _ w w, h1,
    runS_bin_pure_state s1 (binTreeOf n) w w []]
  rcases ((binTreeOf n).runS (pureStep s1) w []).2 with _ | t
  · rfl
  · simp only [andThen, BinTree.runSO, runS_bin_prune, C30_binary, binTreeOf_binTree]

example := C36_binary_then_prune pureChain pureChain_stateless (fun w v => (w + v, v == 12)) sampleBin 0

/-- C36 for binary trees: the same for `prune_path`. -/
theorem C36_binary_then_prunePath (c : Chain σ V W) (hs : c.Stateless) (f : σ → List Nat → W → σ × Bool) (n : N) (w : σ) :
    ((c.prunePath f).binPipe (Track.binPipe σ)).binCollectTree (Api.binStart n) w =
      andThen ((c.binPipe (Track.binPipe σ)).binCollectTree (Api.binStart n) w) fun t w => Api.binPrunePath f t w := by
  obtain ⟨s1, h1⟩ := c.stateless_step hs
  rw [C36_binary_collect, C36_binary_collect, c.step_prunePath_comp f h1, runS_bin_comp s1 _ _ w w, h1,
    runS_bin_pure_state s1 (binTreeOf n) w w []]
  rcases ((binTreeOf n).runS (pureStep s1) w []).2 with _ | t
  · rfl
  · simp only [andThen, BinTree.runSO, runS_bin_prunePath, C31_binary, binTreeOf_binTree]

example := C36_binary_then_prunePath pureChain pureChain_stateless (fun w p v => (w + v, p == [1])) sampleBin 0

/-- C36 for binary trees: the same for `prune_depth`. -/
theorem C36_binary_then_pruneDepth (c : Chain Unit V W) (hs : c.Stateless) (d : Nat) (n : N) :
    ((c.pruneDepth d).binPipe (Track.binPipe Unit)).binCollectTree (Api.binStart n) () =
      andThen ((c.binPipe (Track.binPipe Unit)).binCollectTree (Api.binStart n) ()) fun t _ =>
        always (Api.binPruneDepth d t) := by
  obtain ⟨s1, h1⟩ := c.stateless_step hs
  rw [C36_binary_collect, C36_binary_collect, c.step_pruneDepth_comp d h1, runS_bin_comp s1 _ _ () (), h1,
    runS_bin_pure_state s1 (binTreeOf n) () () []]
  rcases ((binTreeOf n).runS (pureStep s1) () []).2 with _ | t
  · rfl
  · simp only [andThen, BinTree.runSO, runS_bin_depth, C33_binary, binTreeOf_binTree, always]

example := C36_binary_then_pruneDepth addTen addTen_stateless 1 sampleBin

/-- C42 for binary trees, whatever the stages. -/
theorem C42_binary_emits (c : Chain σ V W) (n : N) (w : σ) :
    (c.binPipe (Track.binPipe σ)).emits (Api.binStart n) w =
      .ok (Tree.preorderL (BinTree.emittedO [] ((binTreeOf n).runS c.step w []).2), ((binTreeOf n).runS c.step w []).1) := by
  obtain ⟨A, v, R', h1, h2, h3, h5⟩ := Chain.binEnum (Track.binEnum (N := N) σ) c
  obtain ⟨a', h⟩ := h5 _ _ _ (binRel_start n)
  rw [h1.emits_bin h3 h2 h, decOf_bin]

example : let c : Chain (List (List Nat)) Nat Nat :=
      (Chain.source.prune fun log v => (log, v == 1)).prunePath fun log p _ => (log ++ [p], p == [1, 0])
    ((c.binPipe (Track.binPipe _)).binCollectTree (Api.binStart sampleBin) []).toOption =
      some (some (.node 0 none (some (.node 2 none none))), [[], [1], [1, 0]]) := by decide +kernel

end Binary

end TreeIter
