import Verif.Lemmas.PipeStart
import Verif.Props.Samples

/-! # Properties of the whole-tree operations (C27, C28, C30, C31, C33, C34, C35)

`N` is any type of nodes; `treeOf n` (`binTreeOf n`) is the tree of values below the node `n`.  The expected results are
the recursive functions of `Verif/Spec/Pipeline.lean`. -/

universe u v w x y

namespace TreeIter

section General
variable {N : Type u} {V : Type v} [TreeNode N V] {σ : Type w} {W : Type x} {O : Type y}

/-- C27: `into_pipeline().collect_tree()` gives back the tree. -/
theorem C27_general (n : N) : Api.collect n = .ok (some (treeOf n), ()) := by
  unfold Api.collect
  rw [(Track.enum (N := N) Unit).collectTree (Through.lenOk through_id) indep_id (rel_start n)
    (labDepth_start n), id_tree]
  simp only [Option.map_some, Tree.map_map]
  congr 3
  have h := wpaths_snd (treeOf n) []
  rw [show (Prod.fst ∘ Prod.swap : List Nat × V → V) = Prod.snd from rfl]
  exact h

example : (Api.collect sampleTree).toOption.map Prod.fst = some (some sampleTree) := by decide +kernel

/-- C28: `map` applies the closure to every node, in preorder, once, and keeps the shape. -/
theorem C28_general (f : σ → V → σ × W) (n : N) (w : σ) :
    Api.map f n w = .ok (((treeOf n).mapS f w).2, ((treeOf n).mapS f w).1) := by
  unfold Api.map
  rw [((Track.enum (N := N) σ).map f).collectTree (Through.lenOk (Through.map through_id f)) (indep_id.map f) (a := ([], ()))
    (rel_start n) (labDepth_start n), decStep_id]
  obtain ⟨h1, h2⟩ := map_tree f ((treeOf n).wpaths []) w
  rw [h1, h2, wpaths_snd]
  rfl

example : ((Api.map (fun k v => (k + 1, (k, v))) sampleTree 0).toOption.map Prod.fst) =
    some (.node (0, 0) [.node (1, 1) [.node (2, 3) [], .node (3, 4) []], .node (4, 2) [.node (5, 5) []]]) := by
  decide +kernel

/-- C30: `prune` removes exactly the subtrees whose root satisfies the predicate, and consults it in preorder on the nodes
that are not below a removed one. -/
theorem C30_general (f : σ → V → σ × Bool) (n : N) (w : σ) :
    Api.prune f n w = .ok (((treeOf n).pruneS f w).2, ((treeOf n).pruneS f w).1) := by
  unfold Api.prune
  have hM := (Track.enum (N := N) σ).prunePath fun w _ v => f w v
  have h := hM.collectTree (s := Pipe.PruneState.new (Api.start n)) (a := ([], []))
    (LenOk.prunePath (Through.lenOk through_id) _) (indep_id.prune f) ⟨⟨rfl, rfl⟩, rel_start n⟩ (labDepth_start n) w
  rw [decStep_id] at h
  obtain ⟨h1, h2⟩ := prune_tree f ((treeOf n).wpaths []) w
  rw [h1, h2, wpaths_snd] at h
  exact h

example : (Api.prune (fun log v => (log ++ [v], v == 1)) sampleTree []).toOption =
    some (some (.node 0 [.node 2 [.node 5 []]]), [0, 1, 2, 5]) := by decide +kernel

example : (Api.prune (fun log v => (log ++ [v], v == 0)) sampleTree []).toOption = some (none, [0]) := by decide +kernel

/-- C31: `prune_path` is `prune` where the closure also gets the path of the node in the source tree. -/
theorem C31_general (f : σ → List Nat → V → σ × Bool) (n : N) (hn : ArityOk n) (w : σ) :
    Api.prunePath f n w = .ok (((treeOf n).prunePathS f w []).2, ((treeOf n).prunePathS f w []).1) := by
  unfold Api.prunePath
  have hM := (Track.enum (N := N) σ).prunePath f
  have h := hM.collectTree (s := Pipe.PruneState.new (Api.start n)) (a := ([], []))
    (LenOk.prunePath (Through.lenOk through_id) _) (indep_id.prunePath through_id f) ⟨⟨rfl, rfl⟩, rel_start n⟩
    (labDepth_start n) w
  rw [decStep_id, wpaths_treeOf hn] at h
  obtain ⟨h1, h2⟩ := prunePath_tree f (treeOf n) w []
  rw [h1, h2] at h
  exact h

example : (Api.prunePath (fun log p _ => (log ++ [p], p == [0, 0])) sampleTree []).toOption =
    some (some (.node 0 [.node 1 [.node 4 []], .node 2 [.node 5 []]]), [[], [0], [0, 0], [0, 1], [1], [1, 0]]) := by
  decide +kernel

example : (Api.prunePath (fun log p _ => (log ++ [p], p == [0, 0])) sampleTree []).toOption =
    some (((treeOf sampleTree).prunePathS (fun log p _ => (log ++ [p], p == [0, 0])) [] []).2,
      ((treeOf sampleTree).prunePathS (fun log p _ => (log ++ [p], p == [0, 0])) [] []).1) := by
  rw [C31_general _ _ sampleTree_arity]; rfl

/-- C33: `prune_depth(d)` keeps exactly the nodes of depth at most `d`. -/
theorem C33_general (d : Nat) (n : N) : Api.pruneDepth d n = .ok ((treeOf n).truncate d, ()) := by
  unfold Api.pruneDepth
  have hM := (Track.enum (N := N) Unit).pruneDepth Pipe.treeDepth List.length d (fun _ => True) fun _ _ => rfl
  have h := hM.collectTree (s := Api.start n) (a := ([], ())) (Through.lenOk (Through.pruneDepth through_id _ _))
    (indep_id.pruneDepth (Through.lenOk through_id) List.length (fun _ _ h => h) d) ⟨rel_start n, fun _ _ => trivial⟩
    (labDepth_start n) ()
  rw [decStep_id] at h
  obtain ⟨h1, h2⟩ := depth_tree (σ := Unit) d ((treeOf n).wpaths []) (labDepth_start n) (Nat.zero_le d) ()
  rw [h2, wpaths_snd] at h
  rw [h]
  rfl

example : ((Api.pruneDepth 1 sampleTree).toOption.map Prod.fst) = some (.node 0 [.node 1 [], .node 2 []]) := by
  decide +kernel

/-- C34: `fold` is the bottom-up fold; the closure is called once per node, in postorder. -/
theorem C34_general (f : σ → List O → V → σ × O) (n : N) (t : σ) :
    Api.fold f n t = .ok (((treeOf n).foldS f t).2, ((treeOf n).foldS f t).1, ()) := by
  unfold Api.fold
  rw [(Track.enum (N := N) Unit).foldTree (Through.lenOk through_id) indep_id (rel_start n)
    (labDepth_start n), id_tree]
  have h := wpaths_snd (treeOf n) []
  simp only [Option.map_some, Tree.map_map]
  rw [show (Prod.fst ∘ Prod.swap : List Nat × V → V) = Prod.snd from rfl, h]
  rfl

example : (Api.fold (fun log rs v => (log ++ [v], v + rs.sum)) sampleTree []).toOption =
    some (15, [3, 4, 1, 5, 2, 0], ()) := by decide +kernel

/-- C35: `fold_path` is `fold` where the closure also gets the path of the node. -/
theorem C35_general (f : σ → List O → List Nat → V → σ × O) (n : N) (hn : ArityOk n) (t : σ) :
    Api.foldPath f n t = .ok (((treeOf n).foldPathS f t []).2, ((treeOf n).foldPathS f t []).1, ()) := by
  unfold Api.foldPath
  rw [(Track.enum (N := N) Unit).foldPath through_id indep_id (rel_start n) (wpaths_labPath _ _), id_tree,
    wpaths_treeOf hn]
  simp only [foldO]
  rw [foldPath_paths]
  rfl

example : (Api.foldPath (fun log (rs : List Nat) p v => (log ++ [p], v + rs.length)) sampleTree []).toOption =
    some (2, [[0, 0], [0, 1], [0], [1, 0], [1], []], ()) := by decide +kernel

end General

section Binary
variable {N : Type u} {V : Type v} [BinNode N V] {σ : Type w} {W : Type x} {O : Type y}

/-- C27 for binary trees. -/
theorem C27_binary (n : N) : Api.binCollect n = .ok (some (binTreeOf n), ()) := by
  unfold Api.binCollect
  rw [(Track.binEnum (N := N) Unit).binCollectTree through_id indep_id (binRel_start n), id_bin]

example : (Api.binCollect sampleBin).toOption.map Prod.fst = some (some sampleBin) := by decide +kernel

/-- C28 for binary trees. -/
theorem C28_binary (f : σ → V → σ × W) (n : N) (w : σ) :
    Api.binMap f n w = .ok (((binTreeOf n).mapS f w).2, ((binTreeOf n).mapS f w).1) := by
  unfold Api.binMap
  rw [((Track.binEnum (N := N) σ).map f).binCollectTree (Through.map through_id f) (indep_id.map f) (a := ([], ()))
    (binRel_start n), decStep_id, map_bin]
  rfl

example : ((Api.binMap (fun k v => (k + 1, (k, v))) sampleBin 0).toOption.map Prod.fst) =
    some (.node (0, 0) (some (.node (1, 1) none (some (.node (2, 3) none none))))
      (some (.node (3, 2) (some (.node (4, 4) none none)) none))) := by decide +kernel

/-- C30 for binary trees: what is kept stays in its slot. -/
theorem C30_binary (f : σ → V → σ × Bool) (n : N) (w : σ) :
    Api.binPrune f n w = .ok (((binTreeOf n).pruneS f w).2, ((binTreeOf n).pruneS f w).1) := by
  unfold Api.binPrune
  rw [((Track.binEnum (N := N) σ).binPrune f).binCollectTree (Through.binPrunePath through_id _)
    (indep_id.binPrunePath through_id _) (a := ([], ())) (binRel_start n), decStep_id, prune_bin]

example : (Api.binPrune (fun log v => (log ++ [v], v == 1)) sampleBin []).toOption =
    some (some (.node 0 none (some (.node 2 (some (.node 4 none none)) none))), [0, 1, 2, 4]) := by decide +kernel

/-- C31 for binary trees. -/
theorem C31_binary (f : σ → List Nat → V → σ × Bool) (n : N) (w : σ) :
    Api.binPrunePath f n w = .ok (((binTreeOf n).prunePathS f w []).2, ((binTreeOf n).prunePathS f w []).1) := by
  unfold Api.binPrunePath
  rw [((Track.binEnum (N := N) σ).binPrunePath f).binCollectTree (Through.binPrunePath through_id _)
    (indep_id.binPrunePath through_id _) (a := ([], ())) (binRel_start n), decStep_id, prunePath_bin]

example : (Api.binPrunePath (fun log p _ => (log ++ [p], p == [0])) sampleBin []).toOption =
    some (some (.node 0 none (some (.node 2 (some (.node 4 none none)) none))), [[], [0], [1], [1, 0]]) := by
  decide +kernel

/-- C33 for binary trees. -/
theorem C33_binary (d : Nat) (n : N) : Api.binPruneDepth d n = .ok ((binTreeOf n).truncate d, ()) := by
  unfold Api.binPruneDepth
  have hM := (Track.binEnum (N := N) Unit).pruneDepth Pipe.treeDepth List.length d (fun _ => True) fun _ _ => rfl
  have h := hM.binCollectTree (s := Api.binStart n) (a := ([], ())) (Through.pruneDepth through_id _ _)
    (indep_id.pruneDepth (Through.lenOk through_id) List.length (fun _ _ h => h) d) ⟨binRel_start n, fun _ _ => trivial⟩ ()
  rw [decStep_id, depth_bin _ _ _ _ (Nat.zero_le d)] at h
  rw [h]
  rfl

example : ((Api.binPruneDepth 1 sampleBin).toOption.map Prod.fst) =
    some (.node 0 (some (.node 1 none none)) (some (.node 2 none none))) := by decide +kernel

/-- C34 for binary trees: the result of a child is in the slot of the child. -/
theorem C34_binary (f : σ → Option O × Option O → V → σ × O) (n : N) (t : σ) :
    Api.binFold f n t = .ok (((binTreeOf n).foldS f t).2, ((binTreeOf n).foldS f t).1, ()) := by
  unfold Api.binFold Pipe.binFoldTree
  rw [(Track.binEnum (N := N) Unit).binFoldPath through_id indep_id (binRel_start n), id_bin]
  simp only [foldO, fold_noPath]
  rfl

example : (Api.binFold (fun log (rs : Option Nat × Option Nat) v => (log ++ [v], 10 * rs.1.getD 0 + 100 * rs.2.getD 0 + v))
    sampleBin []).toOption = some (7210, [3, 1, 4, 2, 0], ()) := by decide +kernel

/-- C35 for binary trees. -/
theorem C35_binary (f : σ → Option O × Option O → List Nat → V → σ × O) (n : N) (t : σ) :
    Api.binFoldPath f n t = .ok (((binTreeOf n).foldPathS f t []).2, ((binTreeOf n).foldPathS f t []).1, ()) := by
  unfold Api.binFoldPath
  rw [(Track.binEnum (N := N) Unit).binFoldPath through_id indep_id (binRel_start n), id_bin]
  rfl

example : (Api.binFoldPath (fun log (_ : Option Nat × Option Nat) p v => (log ++ [p], v)) sampleBin []).toOption =
    some (0, [[0, 1], [0], [1, 0], [1], []], ()) := by decide +kernel

end Binary

end TreeIter
