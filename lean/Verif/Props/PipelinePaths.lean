import Verif.Lemmas.PipePruned
import Verif.Props.Samples

/-! # Paths given to closures and reported by pipelines (C29, C32) -/

universe u v w x y

namespace TreeIter

/-! ## C29: `map_path`

The slice `map_path` hands to its closure was taken before the pipeline moved on: it is as long as the path of the node
before.  What it contains, `stale`, depends on the memory and is left open. -/

/-- C29 does not hold: on a root with one child the closure never gets the path of the child, whatever the memory holds. -/
theorem C29_false (stale : List (List Nat) → List Nat → List Nat → List Nat)
    (hs : ∀ w old new, (stale w old new).length = old.length) :
    ∃ r, Api.mapPath stale (fun log p (v : Nat) => (log ++ [p], v)) (Tree.node 0 [.node 1 []]) [] =
        .ok (.node 0 [.node 1 []], r) ∧
      r ≠ [[], [0]] := by
  have hn : ∀ w new, stale w [] new = [] := fun w new => List.eq_nil_of_length_eq_zero (hs w [] new)
  have hM := (Track.enum (N := Tree Nat) (List (List Nat))).mapPath stale fun log p v => (log ++ [p], v)
  refine ⟨[[], []], ?_, by decide⟩
  unfold Api.mapPath
  have h := hM.emits (s := Api.start (Tree.node 0 [.node 1 []])) (a := ([], [])) [] ⟨rel_start _, rfl⟩
  obtain ⟨t', h1, h2, h3⟩ := mapPath_visit stale (fun log p (v : Nat) => (log ++ [p], v)) (.node 0 [.node 1 []]) [] [] [] []
  rw [show (treeOf (Tree.node 0 [.node 1 []]) : Tree Nat).wpaths [] = (Tree.node 0 [.node 1 []]).paths [] by
    rw [treeOf_tree]; decide +kernel] at h
  simp only [visitL, h1, List.append_nil] at h
  rw [Pipe.collectTree_of_emits (o := some t') h (by simpa using h3.depthOk), Option.map_some, h2]
  simp [Tree.mapPathS, Tree.mapPathSL, staleArg, hn, unwrapRes]

section General
variable {N : Type u} {V : Type v} [TreeNode N V] {σ : Type w} {W : Type x}

/-- C29, what holds: `map_path` keeps the shape and calls the closure once per node, in preorder, where the path argument
is a slice of the length of the path of the node before (of length 0 at the root).  Missing: that it is the path of the
node. -/
theorem C29_general_partial (stale : σ → List Nat → List Nat → List Nat) (f : σ → List Nat → V → σ × W) (n : N)
    (hn : ArityOk n) (w : σ) :
    Api.mapPath stale f n w = .ok (((treeOf n).mapPathS (staleArg stale f) (w, []) []).2,
      ((treeOf n).mapPathS (staleArg stale f) (w, []) []).1.1) := by
  unfold Api.mapPath
  have hM := (Track.enum (N := N) σ).mapPath stale f
  have h := hM.emits (s := Api.start n) (a := ([], [])) w ⟨rel_start n, rfl⟩
  rw [wpaths_treeOf hn] at h
  obtain ⟨t', h1, h2, h3⟩ := mapPath_visit stale f (treeOf n) [] [] w []
  simp only [visitL, h1, List.append_nil] at h
  rw [Pipe.collectTree_of_emits (o := some t') h (by simpa using h3.depthOk), Option.map_some, h2]
  rfl

/-- With memory that is still there and not overwritten: the new path cut to the old length, then what is left of the old
one. -/
def keptMemory {σ : Type w} : σ → List Nat → List Nat → List Nat :=
  fun _ old new => new.take old.length ++ old.drop new.length

example : (Api.mapPath keptMemory (fun log p v => (log ++ [p], v)) sampleTree []).toOption =
    some (sampleTree, [[], [], [0], [0, 1], [1, 1], [1]]) := by decide +kernel

end General

section Binary
variable {N : Type u} {V : Type v} [BinNode N V] {σ : Type w} {W : Type x}

/-- C29 for binary trees, what holds. -/
theorem C29_binary_partial (stale : σ → List Nat → List Nat → List Nat) (f : σ → List Nat → V → σ × W) (n : N) (w : σ) :
    Api.binMapPath stale f n w = .ok (((binTreeOf n).mapPathS (staleArg stale f) (w, []) []).2,
      ((binTreeOf n).mapPathS (staleArg stale f) (w, []) []).1.1) := by
  unfold Api.binMapPath
  have hM := (Track.binEnum (N := N) σ).mapPath stale f
  have h := hM.emits (s := Api.binStart n) (a := ([], [])) w ⟨binRel_start n, rfl⟩
  simp only [visitL, mapPath_visit_bin, List.append_nil] at h
  rw [Pipe.binCollectTree_of_emits (o := some _) h]
  rfl

example : (Api.binMapPath keptMemory (fun log p v => (log ++ [p], v)) sampleBin []).toOption =
    some (sampleBin, [[], [], [0], [1, 1], [1]]) := by decide +kernel

end Binary

/-! ## C32: the path reported by a pruned pipeline -/

/-- C32 does not hold: on a root with two leaves, of which nothing is pruned, the second leaf is reported at `[0]`. -/
theorem C32_false : ¬ ∀ (t : Tree Nat) (f : Nat → Bool),
    ((Track.pipe Unit).prunePipe fun _ v => ((), f v)).emits (.new (Api.start t)) () =
      .ok (Tree.preorderL ((t.pruneS (fun _ v => ((), f v)) ()).2.map (Tree.atPaths [])).toList, ()) := by
  intro h
  have := congrArg Except.toOption (h (.node 0 [.node 1 [], .node 2 []]) fun _ => false)
  revert this
  decide +kernel

section General
variable {N : Type u} {V : Type v} [TreeNode N V] {σ : Type w} {τ : Type x} {O : Type y}

/-- C32, what holds: `prune` emits the nodes of the pruned tree in preorder; the number reported for a node among its
siblings is that of its earlier siblings that are kept and have children in the source.  Missing: that it is the number
of all earlier siblings that are kept. -/
theorem C32_prune_partial (f : σ → V → σ × Bool) (n : N) (hn : ArityOk n) (w : σ) :
    ((Track.pipe σ).prunePipe f).emits (.new (Api.start n)) w =
      .ok (Tree.preorderL ((treeOf n).prunedAtS (fun w _ v => f w v) w [] []).2.toList,
        ((treeOf n).prunedAtS (fun w _ v => f w v) w [] []).1) :=
  prunedAt_emits _ n hn w

example := C32_prune_partial (fun w v => (w + 1, v == 1)) sampleTree sampleTree_arity 0

/-- The same for `prune_path`. -/
theorem C32_prunePath_partial (f : σ → List Nat → V → σ × Bool) (n : N) (hn : ArityOk n) (w : σ) :
    ((Track.pipe σ).prunePath f).emits (.new (Api.start n)) w =
      .ok (Tree.preorderL ((treeOf n).prunedAtS f w [] []).2.toList, ((treeOf n).prunedAtS f w [] []).1) :=
  prunedAt_emits _ n hn w

example := C32_prunePath_partial (fun w p v => (w + v, p == [0])) sampleTree sampleTree_arity 0

/-- What the reported paths are attached to is the pruned tree. -/
theorem C32_values (f : σ → List Nat → V → σ × Bool) (t : Tree V) (w : σ) :
    (t.prunedAtS f w [] []).1 = (t.prunePathS f w []).1 ∧
      (t.prunedAtS f w [] []).2.map (Tree.map Prod.fst) = (t.prunePathS f w []).2 :=
  prunedAt_fst f t w [] []

/-- A `fold_path` after `prune` gets these paths. -/
theorem C32_foldPath_partial (f : σ → List Nat → V → σ × Bool) (g : τ → List O → List Nat → V → τ × O) (n : N)
    (hn : ArityOk n) (w : σ) (r : τ) :
    ((Track.pipe σ).prunePath f).foldPath g (.new (Api.start n)) w r =
      .ok ((foldO (Tree.foldS fun r os (x : V × List Nat) => g r os x.2 x.1) r ((treeOf n).prunedAtS f w [] []).2).2,
        (foldO (Tree.foldS fun r os (x : V × List Nat) => g r os x.2 x.1) r ((treeOf n).prunedAtS f w [] []).2).1,
        ((treeOf n).prunedAtS f w [] []).1) :=
  Pipe.foldPath_of_emits (prunedAt_emits f n hn w) (prunedAt_pathOk f (treeOf n) w [] []) r

example : (((Track.pipe Unit).prunePipe fun _ v => ((), v == 3)).emits (.new (Api.start sampleTree)) ()).toOption =
    some ([(0, []), (1, [0]), (4, [0, 0]), (2, [1]), (5, [1, 0])], ()) := by decide +kernel

end General

section Binary
variable {N : Type u} {V : Type v} [BinNode N V] {σ : Type w}

/-- C32 for binary trees: the reported path is the path in the pruned tree. -/
theorem C32_binary (f : σ → V → σ × Bool) (n : N) (w : σ) :
    ((Track.binPipe σ).binPrune f).emits (Api.binStart n) w =
      .ok (Tree.preorderL (BinTree.emittedO [] ((binTreeOf n).pruneS f w).2), ((binTreeOf n).pruneS f w).1) := by
  rw [((Track.binEnum (N := N) σ).binPrune f).emits_bin (Through.binPrunePath through_id _)
    (indep_id.binPrunePath through_id _) (a := ([], ())) (binRel_start n), decStep_id, prune_bin]

/-- The same for `prune_path`. -/
theorem C32_binary_path (f : σ → List Nat → V → σ × Bool) (n : N) (w : σ) :
    ((Track.binPipe σ).binPrunePath f).emits (Api.binStart n) w =
      .ok (Tree.preorderL (BinTree.emittedO [] ((binTreeOf n).prunePathS f w []).2), ((binTreeOf n).prunePathS f w []).1) := by
  rw [((Track.binEnum (N := N) σ).binPrunePath f).emits_bin (Through.binPrunePath through_id _)
    (indep_id.binPrunePath through_id _) (a := ([], ())) (binRel_start n), decStep_id, prunePath_bin]

example : (((Track.binPipe Unit).binPrune fun _ v => ((), v == 1)).emits (Api.binStart sampleBin) ()).toOption =
    some ([(0, []), (2, [1]), (4, [1, 0])], ()) := by decide +kernel

end Binary

end TreeIter
