import Verif.Lemmas.CollSpec
import Verif.Props.PipelinePaths

/-! # Properties of the operations on collections of trees (C27, C29, C37, C38)

Every operation gives an iterator.  The theorems say what a client sees that calls `next()` any number `k` of times —
`seen k os` is the first `k` items of `os` and then `None` — and what the states of the closures are once it has seen
`None`.  `eachS` (`Verif/Spec/Collection.lean`) treats the trees from the first to the last. -/

universe u v w x y

namespace TreeIter

/-- Two trees and a third one with a single node. -/
def threeTrees : List (Tree Nat) := [sampleTree, .node 7 [.node 8 []], .node 9 []]

/-- The same for binary trees. -/
def threeBins : List (BinTree Nat) := [sampleBin, .node 7 none (some (.node 8 none none)), .node 9 none none]

theorem arityOk_of_le {n : Tree Nat} (h : ∀ m ∈ (unfold n).preorder, (kids m).length ≤ 1) : ArityOk n :=
  fun m hm => Nat.le_trans (h m hm) (by decide)

theorem threeTrees_arity : ∀ n ∈ threeTrees, ArityOk n := by
  intro n hn
  simp only [threeTrees, List.mem_cons, List.not_mem_nil, or_false] at hn
  rcases hn with rfl | rfl | rfl
  · exact sampleTree_arity
  · exact arityOk_of_le (by decide +kernel : ∀ m ∈ (unfold (Tree.node 7 [.node 8 []])).preorder, (kids m).length ≤ 1)
  · exact arityOk_of_le (by decide +kernel : ∀ m ∈ (unfold (Tree.node 9 [])).preorder, (kids m).length ≤ 1)

theorem threeTrees_arity7 : ∀ n ∈ [Tree.node 7 []], ArityOk n := by
  intro n hn
  rw [List.mem_singleton.1 hn]
  exact arityOk_of_le (by decide +kernel)

section General
variable {N : Type u} {V : Type v} [TreeNode N V] {σ : Type w} {W : Type x} {O : Type y}

/-- C27 for collections: `into_pipeline().trees()` gives back the trees. -/
theorem C27_collection (ns : List N) (k : Nat) : ∃ r, Api.trees ns k = .ok (seen k (ns.map treeOf), r) := by
  obtain ⟨r, h, -⟩ := (collEnum Unit).trees (Through.lenOk through_id) indep_id (collRel ns) (collDepths ns) () k
  refine ⟨r, ?_⟩
  unfold Api.trees
  rw [h, id_forest, List.map_map]
  congr 3
  have : ∀ (ns : List N) (i : Nat),
      (CollPipe.labs (fun n p => (treeOf n : Tree V).wpaths p) i ns).map (Tree.map Prod.fst ∘ Tree.map Prod.swap) = ns.map treeOf := by
    intro ns
    induction ns with
    | nil => intro i; rfl
    | cons n ns ih =>
      intro i
      have h := wpaths_snd (treeOf n : Tree V) [i]
      simp only [CollPipe.labs, List.map_cons, ih, Function.comp, Tree.map_map]
      rw [show (Prod.fst ∘ Prod.swap : List Nat × V → V) = Prod.snd from rfl, h]
  exact this ns 0

example : ((Api.trees threeTrees 5).toOption.map Prod.fst) =
    some [some sampleTree, some (.node 7 [.node 8 []]), some (.node 9 []), none, none] := by decide +kernel

/-- C37: `prune_each` prunes tree by tree; trees whose root is pruned are absent. -/
theorem C37_prune (f : σ → V → σ × Bool) (ns : List N) (k : Nat) (w : σ) :
    ∃ r, Api.pruneEach f ns k w = .ok (seen k (eachS (fun w _ t => t.pruneS f w) w 0 (ns.map treeOf)).2, r) ∧
      ((eachS (fun w _ t => t.pruneS f w) w 0 (ns.map treeOf)).2.length < k →
        r = ((eachS (fun w _ t => t.pruneS f w) w 0 (ns.map treeOf)).1, ())) := by
  have hM := (collEnum (N := N) σ).prunePath fun w _ v => f w v
  have h := hM.trees (s := CollPipe.pruneNew (CollPipe.State.new ns)) (a := ([], [])) (LenOk.prunePath (Through.lenOk through_id) _)
    (indep_id.prune f) ⟨⟨rfl, rfl⟩, collRel ns⟩ (collDepths ns) w k
  rw [decStep_id] at h
  obtain ⟨h1, h2⟩ := Dec.forest_labs (dec := pruneStep fun w _ y => f w y) (lab := fun n p => (treeOf n : Tree V).wpaths p)
    (tree := treeOf) (g := fun w _ t => t.pruneS f w) ns
    (fun n _ w i => by
      obtain ⟨h1, h2⟩ := prune_tree f ((treeOf n).wpaths [i]) w
      rw [wpaths_snd] at h1 h2
      exact ⟨h1, h2⟩) w 0
  rw [← List.length_map (Tree.map Prod.fst), h1, h2] at h
  exact h

example : (Api.pruneEach (fun log v => (log ++ [v], v == 1 || v == 7)) threeTrees 4 []).toOption =
    some ([some (.node 0 [.node 2 [.node 5 []]]), some (.node 9 []), none, none], [0, 1, 2, 5, 7, 9], ()) := by
  decide +kernel

/-- C37: `prune_depth_each` keeps the nodes of depth at most `d` of every tree. -/
theorem C37_pruneDepth (d : Nat) (ns : List N) (k : Nat) :
    ∃ r, Api.pruneDepthEach d ns k = .ok (seen k (ns.map fun n => (treeOf n).truncate d), r) := by
  have hM := (collEnum (N := N) Unit).pruneDepth Pipe.collDepth (fun p => p.length - 1) d (fun p => p ≠ []) collDepth_visit
  have h := hM.trees (s := CollPipe.State.new ns) (a := ([], ())) (Through.lenOk (Through.pruneDepth through_id _ _))
    (indep_id.pruneDepth (Through.lenOk through_id) _ (fun _ _ h => by rw [h]) d)
    ⟨collRel ns, labDepth_neL (collDepths ns)⟩ (collDepths ns) () k
  rw [decStep_id] at h
  obtain ⟨-, h2⟩ := Dec.forest_labs (dec := depthStep (σ := Unit) (fun p => p.length - 1) d)
    (lab := fun n p => (treeOf n : Tree V).wpaths p) (tree := treeOf) (g := fun w _ t => (w, some (t.truncate d))) ns
    (fun n _ w i => by
      have hd := (wpaths_labPath (treeOf n : Tree V) [i]).labDepth
      rw [depth_coll d _ hd]
      obtain ⟨h1, h2⟩ := depth_tree (d + 1) ((treeOf n).wpaths [i]) hd (by simp) w
      rw [wpaths_snd] at h2
      exact ⟨h1, h2⟩) () 0
  rw [h2] at h
  obtain ⟨r, h, -⟩ := h
  refine ⟨r, ?_⟩
  unfold Api.pruneDepthEach
  rw [h]
  congr 3
  have : ∀ (ns : List N) (i : Nat),
      (eachS (fun (w : Unit) _ (t : Tree V) => (w, some (t.truncate d))) () i (ns.map treeOf)).2 =
        ns.map fun n => (treeOf n).truncate d := by
    intro ns
    induction ns with
    | nil => intro i; rfl
    | cons n ns ih => intro i; simp [eachS, ih]
  exact this ns 0

example : ((Api.pruneDepthEach 0 threeTrees 4).toOption.map Prod.fst) =
    some [some (.node 0 []), some (.node 7 []), some (.node 9 []), none] := by decide +kernel

/-- C37: `map_each` maps tree by tree. -/
theorem C37_map (f : σ → V → σ × W) (ns : List N) (k : Nat) (w : σ) :
    ∃ r, Api.mapEach f ns k w = .ok (seen k (eachS (fun w _ t => kept (Tree.mapS f w t)) w 0 (ns.map treeOf)).2, r) ∧
      ((eachS (fun w _ t => kept (Tree.mapS f w t)) w 0 (ns.map treeOf)).2.length < k →
        r = ((eachS (fun w _ t => kept (Tree.mapS f w t)) w 0 (ns.map treeOf)).1, ())) := by
  have hM := (collEnum (N := N) σ).map f
  have h := hM.trees (s := CollPipe.State.new ns) (a := ([], ())) (Through.lenOk (Through.map through_id f)) (indep_id.map f)
    (collRel ns) (collDepths ns) w k
  rw [decStep_id] at h
  obtain ⟨h1, h2⟩ := Dec.forest_labs (dec := mapStep f) (lab := fun n p => (treeOf n : Tree V).wpaths p)
    (tree := treeOf) (g := fun w _ t => kept (Tree.mapS f w t)) ns
    (fun n _ w i => by
      obtain ⟨h1, h2⟩ := map_tree f ((treeOf n).wpaths [i]) w
      rw [wpaths_snd] at h1 h2
      exact ⟨h1, h2⟩) w 0
  rw [← List.length_map (Tree.map Prod.fst), h1, h2] at h
  exact h

example : (Api.mapEach (fun i v => (i + 1, (i, v))) threeTrees 4 0).toOption.map (fun r => r.1.drop 1) =
    some [some (.node (6, 7) [.node (7, 8) []]), some (.node (8, 9) []), none] := by decide +kernel

/-- C37: `fold_each` folds tree by tree. -/
theorem C37_fold (f : σ → List O → V → σ × O) (ns : List N) (k : Nat) (t : σ) :
    ∃ r, Api.foldEach f ns k t = .ok (seen k (eachS (fun t _ c => kept (Tree.foldS f t c)) t 0 (ns.map treeOf)).2, r) ∧
      ((eachS (fun t _ c => kept (Tree.foldS f t c)) t 0 (ns.map treeOf)).2.length < k →
        r = ((), (eachS (fun t _ c => kept (Tree.foldS f t c)) t 0 (ns.map treeOf)).1)) := by
  have h := (collEnum (N := N) Unit).foldTrees (Through.lenOk through_id) indep_id (collRel ns) (collDepths ns) f () t k
  have h2 : ((Dec.forest decId () (CollPipe.labs (fun n p => (treeOf n : Tree V).wpaths p) 0 ns)).2.map (Tree.map Prod.fst)) =
      ns.map treeOf := by
    rw [id_forest, List.map_map]
    have : ∀ (ns : List N) (i : Nat),
        (CollPipe.labs (fun n p => (treeOf n : Tree V).wpaths p) i ns).map (Tree.map Prod.fst ∘ Tree.map Prod.swap) =
          ns.map treeOf := by
      intro ns
      induction ns with
      | nil => intro i; rfl
      | cons n ns ih =>
        intro i
        have h := wpaths_snd (treeOf n : Tree V) [i]
        simp only [CollPipe.labs, List.map_cons, ih, Function.comp, Tree.map_map]
        rw [show (Prod.fst ∘ Prod.swap : List Nat × V → V) = Prod.snd from rfl, h]
    exact this ns 0
  rw [h2, foldSL_each f _ t 0] at h
  exact h

example : (Api.foldEach (fun log rs v => (log ++ [v], v + rs.sum)) threeTrees 4 []).toOption =
    some ([some 15, some 15, some 9, none], (), [3, 4, 1, 5, 2, 0, 8, 7, 9]) := by decide +kernel

/-- C38: `prune_path_each` gives the closure the path of the node after the number of its tree. -/
theorem C38_prunePath (f : σ → List Nat → V → σ × Bool) (ns : List N) (hn : ∀ n ∈ ns, ArityOk n) (k : Nat) (w : σ) :
    ∃ r, Api.prunePathEach f ns k w =
        .ok (seen k (eachS (fun w i t => t.prunePathS f w [i]) w 0 (ns.map treeOf)).2, r) ∧
      ((eachS (fun w i t => t.prunePathS f w [i]) w 0 (ns.map treeOf)).2.length < k →
        r = ((eachS (fun w i t => t.prunePathS f w [i]) w 0 (ns.map treeOf)).1, ())) := by
  have hM := (collEnum (N := N) σ).prunePath f
  have h := hM.trees (s := CollPipe.prunePathNew (CollPipe.State.new ns)) (a := ([], [0])) (LenOk.prunePath (Through.lenOk through_id) _)
    (indep_id.prunePath through_id f) ⟨⟨rfl, rfl⟩, collRel ns⟩ (collDepths ns) w k
  rw [decStep_id] at h
  obtain ⟨h1, h2⟩ := Dec.forest_labs (dec := pruneStep f) (lab := fun n p => (treeOf n : Tree V).wpaths p)
    (tree := treeOf) (g := fun w i t => t.prunePathS f w [i]) ns
    (fun n h w i => by
      rw [wpaths_treeOf (hn n h)]
      exact prunePath_tree f (treeOf n) w [i]) w 0
  rw [← List.length_map (Tree.map Prod.fst), h1, h2] at h
  exact h

example : (Api.prunePathEach (fun log p _ => (log ++ [p], p == [0, 1] || p == [1])) threeTrees 3 []).toOption =
    some ([some (.node 0 [.node 1 [.node 3 [], .node 4 []]]), some (.node 9 []), none],
      [[0], [0, 0], [0, 0, 0], [0, 0, 1], [0, 1], [1], [2]], ()) := by decide +kernel

example : ∀ n ∈ threeTrees, ArityOk n := threeTrees_arity

/-- C38: `fold_path_each` gives the closure the path of the node after the number of its tree. -/
theorem C38_foldPath (f : σ → List O → List Nat → V → σ × O) (ns : List N) (hn : ∀ n ∈ ns, ArityOk n) (k : Nat) (t : σ) :
    ∃ r, Api.foldPathEach f ns k t =
        .ok (seen k (eachS (fun t i c => kept (Tree.foldPathS f t [i] c)) t 0 (ns.map treeOf)).2, r) ∧
      ((eachS (fun t i c => kept (Tree.foldPathS f t [i] c)) t 0 (ns.map treeOf)).2.length < k →
        r = ((), (eachS (fun t i c => kept (Tree.foldPathS f t [i] c)) t 0 (ns.map treeOf)).1)) := by
  have h := (collEnum (N := N) Unit).foldPathTrees through_id indep_id (collRel ns) (collPaths ns) f () t k
  rw [id_forest, collLabs hn, foldPathL_each] at h
  exact h

example : (Api.foldPathEach (fun log (rs : List Nat) p v => (log ++ [p], v + rs.length)) threeTrees 4 []).toOption =
    some ([some 2, some 8, some 9, none], (),
      [[0, 0, 0], [0, 0, 1], [0, 0], [0, 1, 0], [0, 1], [0], [1, 0], [1], [2]]) := by decide +kernel

/-- C29 for collections, what holds: `map_path_each` maps tree by tree, but the closure gets a slice as long as the path of
the node before (`staleArg`).  Missing: that it gets the path of the node. -/
theorem C29_collection_partial (stale : σ → List Nat → List Nat → List Nat) (f : σ → List Nat → V → σ × W) (ns : List N)
    (hn : ∀ n ∈ ns, ArityOk n) (k : Nat) (w : σ) :
    ∃ r, Api.mapPathEach stale f ns k w =
        .ok (seen k (eachS (fun wb i t => kept (Tree.mapPathS (staleArg stale f) wb [i] t)) (w, []) 0 (ns.map treeOf)).2, r) ∧
      ((eachS (fun wb i t => kept (Tree.mapPathS (staleArg stale f) wb [i] t)) (w, []) 0 (ns.map treeOf)).2.length < k →
        r = ((eachS (fun wb i t => kept (Tree.mapPathS (staleArg stale f) wb [i] t)) (w, []) 0 (ns.map treeOf)).1.1, ())) := by
  have hM := (collEnum (N := N) σ).mapPath stale f
  have hR : (fun s (a : List Nat × List Nat) l => CollPipe.Rel (Track.Rel (N := N)) (fun n p => (treeOf n : Tree V).wpaths p) s a.1 l ∧
      a.2 = a.1) (CollPipe.State.new ns) ([], []) (CollPipe.labs (fun n p => (treeOf n : Tree V).wpaths p) 0 ns) := ⟨collRel ns, rfl⟩
  obtain ⟨ts', h1, h2, h3, h4⟩ := mapPath_visitL stale f (treeOf : N → Tree V) ns [] [] w 0
  rw [← collLabs hn] at h1 h2
  subst h1
  have h := treesSim.calls hM hR (w := w) (fun c hc => by obtain ⟨i, hi⟩ := h4 c hc; exact hi.depthOk)
    (treesShape_forest _ ()) k
  rw [h2, h3] at h
  exact h

example : (Api.mapPathEach keptMemory (fun log p v => (log ++ [p], v)) (threeTrees.drop 1) 3 ([] : List (List Nat))).toOption =
    some ((threeTrees.drop 1).map some ++ [none], [[], [0], [1, 0]], ()) := by decide +kernel

/-- C29 does not hold for collections either: the root of the first tree never comes with its path `[0]`. -/
theorem C29_collection_false (stale : List (List Nat) → List Nat → List Nat → List Nat)
    (hs : ∀ w old new, (stale w old new).length = old.length) :
    ∃ r, Api.mapPathEach stale (fun log p (v : Nat) => (log ++ [p], v)) [Tree.node 7 []] 2 [] =
        .ok ([some (.node 7 []), none], r) ∧ r.1 ≠ [[0]] := by
  obtain ⟨r, h1, h2⟩ := C29_collection_partial stale (fun log p (v : Nat) => (log ++ [p], v)) [Tree.node 7 []]
    (fun n hn => threeTrees_arity7 n hn) 2 []
  simp only [List.map, treeOf_tree] at h1 h2
  have hn : ∀ w new, stale w [] new = [] := fun w new => List.eq_nil_of_length_eq_zero (hs w [] new)
  refine ⟨r, by rw [h1]; rfl, ?_⟩
  rw [h2 (Nat.lt_succ_self 1)]
  simp [eachS, kept, Tree.mapPathS, Tree.mapPathSL, staleArg, hn]

end General

section Binary
variable {N : Type u} {V : Type v} [BinNode N V] {σ : Type w} {W : Type x} {O : Type y}

/-- C27 for collections of binary trees. -/
theorem C27_binary_collection (ns : List N) (k : Nat) : ∃ r, Api.binTrees ns k = .ok (seen k (ns.map binTreeOf), r) := by
  obtain ⟨r, h, -⟩ := (binCollEnum (N := N) Unit).binTrees (tree := binTreeOf) through_id indep_id (binCollRel ns) () k
  refine ⟨r, ?_⟩
  unfold Api.binTrees
  rw [h, id_bins]
  congr 3
  have : ∀ (l : List (BinTree V)) (i : Nat),
      ((eachS (fun (w : Unit) i (t : BinTree V) => (w, some (i, t))) () i l).2.map Prod.snd) = l := by
    intro l
    induction l with
    | nil => intro i; rfl
    | cons n l ih => intro i; simp [eachS, ih]
  exact this _ 0

example : ((Api.binTrees threeBins 5).toOption.map Prod.fst) =
    some [some sampleBin, some (.node 7 none (some (.node 8 none none))), some (.node 9 none none), none, none] := by
  decide +kernel

/-- C37 for binary trees: `prune_each`. -/
theorem C37_binary_prune (f : σ → V → σ × Bool) (ns : List N) (k : Nat) (w : σ) :
    ∃ r, Api.binPruneEach f ns k w = .ok (seen k (eachS (fun w _ t => t.pruneS f w) w 0 (ns.map binTreeOf)).2, r) ∧
      ((eachS (fun w _ t => t.pruneS f w) w 0 (ns.map binTreeOf)).2.length < k →
        r = ((eachS (fun w _ t => t.pruneS f w) w 0 (ns.map binTreeOf)).1, ())) := by
  have h := ((binCollEnum (N := N) σ).binPrune f).binTrees (tree := binTreeOf) (s := CollPipe.State.new ns) (a := ([], ()))
    (Through.binPrunePath through_id _) (indep_id.binPrunePath through_id _) (binCollRel ns) w k
  rw [decStep_id, ← List.length_map Prod.snd] at h
  obtain ⟨h1, h2⟩ := Dec.bins_each (g := fun w _ t => t.pruneS f w) (fun w i t => prune_bin f t w [i])
    (ns.map (binTreeOf : N → BinTree V)) w 0
  rw [h1, h2] at h
  exact h

example : (Api.binPruneEach (fun log v => (log ++ [v], v == 1 || v == 7)) threeBins 4 []).toOption =
    some ([some (.node 0 none (some (.node 2 (some (.node 4 none none)) none))), some (.node 9 none none), none, none],
      [0, 1, 2, 4, 7, 9], ()) := by decide +kernel

/-- C37 for binary trees: `prune_depth_each`. -/
theorem C37_binary_pruneDepth (d : Nat) (ns : List N) (k : Nat) :
    ∃ r, Api.binPruneDepthEach d ns k = .ok (seen k (ns.map fun n => (binTreeOf n).truncate d), r) := by
  have hM := (binCollEnum (N := N) Unit).pruneDepth Pipe.collDepth (fun p => p.length - 1) d (fun p => p ≠ []) collDepth_visit
  have h := hM.binTrees (tree := binTreeOf) (s := CollPipe.State.new ns) (a := ([], ())) (Through.pruneDepth through_id _ _)
    (indep_id.pruneDepth (Through.lenOk through_id) _ (fun _ _ h => by rw [h]) d)
    ⟨binCollRel ns, labDepth_neL (binCollDepths ns)⟩ () k
  rw [decStep_id] at h
  obtain ⟨-, h2⟩ := Dec.bins_each (dec := depthStep (σ := Unit) (fun p => p.length - 1) d)
    (g := fun w _ t => (w, some (t.truncate d)))
    (fun w i t => by
      rw [depth_coll_bin d t w [i] (by simp), depth_bin (d + 1) t w [i] (by simp)]
      rfl) (ns.map (binTreeOf : N → BinTree V)) () 0
  rw [h2] at h
  obtain ⟨r, h, -⟩ := h
  refine ⟨r, ?_⟩
  unfold Api.binPruneDepthEach
  rw [h]
  congr 3
  have : ∀ (ns : List N) (i : Nat),
      (eachS (fun (w : Unit) _ (t : BinTree V) => (w, some (t.truncate d))) () i (ns.map binTreeOf)).2 =
        ns.map fun n => (binTreeOf n).truncate d := by
    intro ns
    induction ns with
    | nil => intro i; rfl
    | cons n ns ih => intro i; simp [eachS, ih]
  exact this ns 0

example : ((Api.binPruneDepthEach 0 threeBins 4).toOption.map Prod.fst) =
    some [some (.node 0 none none), some (.node 7 none none), some (.node 9 none none), none] := by decide +kernel

/-- C37 for binary trees: `map_each`. -/
theorem C37_binary_map (f : σ → V → σ × W) (ns : List N) (k : Nat) (w : σ) :
    ∃ r, Api.binMapEach f ns k w = .ok (seen k (eachS (fun w _ t => kept (BinTree.mapS f w t)) w 0 (ns.map binTreeOf)).2, r) ∧
      ((eachS (fun w _ t => kept (BinTree.mapS f w t)) w 0 (ns.map binTreeOf)).2.length < k →
        r = ((eachS (fun w _ t => kept (BinTree.mapS f w t)) w 0 (ns.map binTreeOf)).1, ())) := by
  have h := ((binCollEnum (N := N) σ).map f).binTrees (tree := binTreeOf) (s := CollPipe.State.new ns) (a := ([], ()))
    (Through.map through_id f) (indep_id.map f) (binCollRel ns) w k
  rw [decStep_id, ← List.length_map Prod.snd] at h
  obtain ⟨h1, h2⟩ := Dec.bins_each (g := fun w _ t => kept (BinTree.mapS f w t)) (fun w i t => map_bin f t w [i])
    (ns.map (binTreeOf : N → BinTree V)) w 0
  rw [h1, h2] at h
  exact h

example : (Api.binMapEach (fun i v => (i + 1, (i, v))) threeBins 4 0).toOption.map (fun r => r.1.drop 1) =
    some [some (.node (5, 7) none (some (.node (6, 8) none none))), some (.node (7, 9) none none), none] := by decide +kernel

/-- C38 for binary trees: `prune_path_each`. -/
theorem C38_binary_prunePath (f : σ → List Nat → V → σ × Bool) (ns : List N) (k : Nat) (w : σ) :
    ∃ r, Api.binPrunePathEach f ns k w =
        .ok (seen k (eachS (fun w i t => t.prunePathS f w [i]) w 0 (ns.map binTreeOf)).2, r) ∧
      ((eachS (fun w i t => t.prunePathS f w [i]) w 0 (ns.map binTreeOf)).2.length < k →
        r = ((eachS (fun w i t => t.prunePathS f w [i]) w 0 (ns.map binTreeOf)).1, ())) := by
  have h := ((binCollEnum (N := N) σ).binPrunePath f).binTrees (tree := binTreeOf) (s := CollPipe.State.new ns) (a := ([], ()))
    (Through.binPrunePath through_id _) (indep_id.binPrunePath through_id _) (binCollRel ns) w k
  rw [decStep_id, ← List.length_map Prod.snd] at h
  obtain ⟨h1, h2⟩ := Dec.bins_each (g := fun w i t => t.prunePathS f w [i]) (fun w i t => prunePath_bin f t w [i])
    (ns.map (binTreeOf : N → BinTree V)) w 0
  rw [h1, h2] at h
  exact h

example : (Api.binPrunePathEach (fun log p _ => (log ++ [p], p == [0, 0] || p == [1])) threeBins 3 []).toOption =
    some ([some (.node 0 none (some (.node 2 (some (.node 4 none none)) none))), some (.node 9 none none), none],
      [[0], [0, 0], [0, 1], [0, 1, 0], [1], [2]], ()) := by decide +kernel

/-- C38 for binary trees: `fold_path_each`. -/
theorem C38_binary_foldPath (f : σ → Option O × Option O → List Nat → V → σ × O) (ns : List N) (k : Nat) (t : σ) :
    ∃ r, Api.binFoldPathEach f ns k t =
        .ok (seen k (eachS (fun t i c => kept (BinTree.foldPathS f t [i] c)) t 0 (ns.map binTreeOf)).2, r) ∧
      ((eachS (fun t i c => kept (BinTree.foldPathS f t [i] c)) t 0 (ns.map binTreeOf)).2.length < k →
        r = ((), (eachS (fun t i c => kept (BinTree.foldPathS f t [i] c)) t 0 (ns.map binTreeOf)).1)) := by
  have h := (binCollEnum (N := N) Unit).binFoldPathTrees (tree := binTreeOf) through_id indep_id (binCollRel ns) f () t k
  obtain ⟨-, h2⟩ := eachS_numbers (σ := Unit) f (ns.map (binTreeOf : N → BinTree V)) () t 0
  rw [id_bins, h2] at h
  exact h

example : (Api.binFoldPathEach (fun log (_ : Option Nat × Option Nat) p v => (log ++ [p], v)) threeBins 4 []).toOption =
    some ([some 0, some 7, some 9, none], (), [[0, 0, 1], [0, 0], [0, 1, 0], [0, 1], [0], [1, 1], [1], [2]]) := by
  decide +kernel

/-- C37 for binary trees: `fold_each`. -/
theorem C37_binary_fold (f : σ → Option O × Option O → V → σ × O) (ns : List N) (k : Nat) (t : σ) :
    ∃ r, Api.binFoldEach f ns k t =
        .ok (seen k (eachS (fun t _ c => kept (BinTree.foldS f t c)) t 0 (ns.map binTreeOf)).2, r) ∧
      ((eachS (fun t _ c => kept (BinTree.foldS f t c)) t 0 (ns.map binTreeOf)).2.length < k →
        r = ((), (eachS (fun t _ c => kept (BinTree.foldS f t c)) t 0 (ns.map binTreeOf)).1)) := by
  have h := (binCollEnum (N := N) Unit).binFoldTrees (tree := binTreeOf) through_id indep_id (binCollRel ns) f () t k
  obtain ⟨-, h2⟩ := eachS_numbers (σ := Unit) (fun t x _ v => f t x v) (ns.map (binTreeOf : N → BinTree V)) () t 0
  rw [id_bins, h2] at h
  simp only [fold_noPath] at h
  exact h

example : (Api.binFoldEach (fun log (rs : Option Nat × Option Nat) v => (log ++ [v], 10 * rs.1.getD 0 + 100 * rs.2.getD 0 + v))
    threeBins 4 []).toOption = some ([some 7210, some 807, some 9, none], (), [3, 1, 4, 2, 0, 8, 7, 9]) := by
  decide +kernel

/-- C29 for collections of (borrowed) binary trees, what holds. -/
theorem C29_binary_collection_partial (stale : σ → List Nat → List Nat → List Nat) (f : σ → List Nat → V → σ × W) (ns : List N)
    (k : Nat) (w : σ) :
    ∃ r, Api.binMapPathEach stale f ns k w =
        .ok (seen k (eachS (fun wb i t => kept (BinTree.mapPathS (staleArg stale f) wb [i] t)) (w, []) 0
          (ns.map binTreeOf)).2, r) ∧
      ((eachS (fun wb i t => kept (BinTree.mapPathS (staleArg stale f) wb [i] t)) (w, []) 0 (ns.map binTreeOf)).2.length < k →
        r = ((eachS (fun wb i t => kept (BinTree.mapPathS (staleArg stale f) wb [i] t)) (w, []) 0
          (ns.map binTreeOf)).1.1, ())) := by
  have hM := (binCollEnum (N := N) σ).mapPath stale f
  have hR : (fun s (a : List Nat × List Nat) l => CollPipe.Rel (Track.BinRel (N := N))
      (fun n p => (binTreeOf n : BinTree V).paths p) s a.1 l ∧ a.2 = a.1) (CollPipe.State.new ns) ([], [])
      (CollPipe.labs (fun n p => (binTreeOf n : BinTree V).paths p) 0 ns) := ⟨binCollRel ns, rfl⟩
  obtain ⟨ics, h1, h2, h3⟩ := mapPath_visitL_bin stale f (binTreeOf : N → BinTree V) ns [] [] w 0
  have h := binTreesSim.calls hM hR (w := w)
    (fun c hc => by
      rw [h1] at hc
      obtain ⟨⟨i, c⟩, -, rfl⟩ := List.mem_map.1 hc
      exact emitted_depthOk c [i])
    (h1 ▸ binTreesShape_forest ics ()) k
  rw [h2, h3] at h
  exact h

example : (Api.binMapPathEach keptMemory (fun log p v => (log ++ [p], v)) (threeBins.drop 1) 3 ([] : List (List Nat))).toOption =
    some ((threeBins.drop 1).map some ++ [none], [[], [0], [1, 1]], ()) := by decide +kernel

end Binary

end TreeIter
