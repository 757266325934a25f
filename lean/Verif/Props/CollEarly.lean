import Verif.Lemmas.CollEarlySpec
import Verif.Props.CollChain

/-! # Collection pipelines that are dropped early (C69)

The iterators at the end of a collection pipeline know that a tree is complete only when they see the root of the next
one.  The theorems say what the closures have been called with when a client has called `next()` `k` times, for every
`k`, and not only when it has seen `None`: the fold closure nothing but the nodes of the trees handed out, in their order,
and the closures of the stages one more kept root (`quitS`, `Verif/Spec/Collection.lean`). -/

universe u v w x y

namespace TreeIter

section General
variable {N : Type u} {V : Type v} [TreeNode N V] {σ : Type w} {W : Type x} {O : Type y}

/-- C69 for `map_each`: when `k > 0` results have been asked for, the closure has been called with the nodes of the first
`k` trees and with the root of the next one. -/
theorem C69_map (f : σ → V → σ × W) (ns : List N) (k : Nat) (w : σ) :
    Api.mapEach f ns k w = .ok (seen k (eachS (fun w _ t => kept (Tree.mapS f w t)) w 0 (ns.map treeOf)).2,
      (match (ns.map treeOf)[k]? with
        | none => (eachS (fun w _ t => kept (Tree.mapS f w t)) w 0 ((ns.map treeOf).take k)).1
        | some t => if k = 0 then w else
            (f (eachS (fun w _ t => kept (Tree.mapS f w t)) w 0 ((ns.map treeOf).take k)).1 t.value).1), ()) := by
  have hM := (collEnum (N := N) σ).map f
  have h := hM.treesQuit (s := CollPipe.State.new ns) (a := ([], ())) (Through.lenOk (Through.map through_id f)) (indep_id.map f)
    (collRel ns) (collDepths ns) w k
  rw [decStep_id] at h
  have hg : ∀ n ∈ ns, ∀ w i, (Dec.tree (mapStep f) w ((treeOf n : Tree V).wpaths [i])).1 = (Tree.mapS f w (treeOf n)).1 ∧
      (Dec.tree (mapStep f) w ((treeOf n : Tree V).wpaths [i])).2.map (Tree.map Prod.fst) = some (Tree.mapS f w (treeOf n)).2 :=
    fun n _ w i => by
      obtain ⟨h1, h2⟩ := map_tree f ((treeOf n).wpaths [i]) w
      rw [wpaths_snd] at h1 h2
      exact ⟨h1, h2⟩
  obtain ⟨h1, h2⟩ := Dec.forest_labs (dec := mapStep f) (lab := fun n p => (treeOf n : Tree V).wpaths p)
    (tree := treeOf) (g := fun w _ t => kept (Tree.mapS f w t)) ns hg w 0
  have h3 := Dec.quit_labs (dec := mapStep f) (lab := fun n p => (treeOf n : Tree V).wpaths p) (tree := treeOf)
    (root := fun w _ t => ((f w t.value).1, true)) (g := fun w _ t => kept (Tree.mapS f w t)) ns
    (fun n _ w i => by
      rcases (treeOf n : Tree V) with ⟨v, cs⟩
      rfl)
    (fun n hn w i => ⟨(hg n hn w i).1, by rw [← Option.isSome_map, (hg n hn w i).2]; rfl⟩) k w
  rw [h2, h3] at h
  refine h.trans ?_
  congr 3
  rw [quitS, stopS_kept (fun w _ t => (f w (Tree.value t)).1) (fun w _ t => Tree.mapS f w t)]
  by_cases hk : k = 0
  · subst hk
    simp only [if_true, List.take_zero, eachS]
    split <;> rfl
  · simp only [if_neg hk]
    cases (ns.map (treeOf : N → Tree V))[k]? <;> rfl

example : (Api.mapEach (fun log v => (log ++ [v], v + 1)) threeTrees 1 []).toOption.map Prod.snd =
    some ([0, 1, 3, 4, 2, 5, 7], ()) := by decide +kernel

/-- C69 for `prune_each`. -/
theorem C69_prune (f : σ → V → σ × Bool) (ns : List N) (k : Nat) (w : σ) :
    Api.pruneEach f ns k w = .ok (seen k (eachS (fun w _ t => t.pruneS f w) w 0 (ns.map treeOf)).2,
      quitS (fun w _ t => ((f w t.value).1, !(f w t.value).2)) (fun w _ t => t.pruneS f w) k w (ns.map treeOf), ()) := by
  have hM := (collEnum (N := N) σ).prunePath fun w _ v => f w v
  have h := hM.treesQuit (s := CollPipe.pruneNew (CollPipe.State.new ns)) (a := ([], [])) (LenOk.prunePath (Through.lenOk through_id) _)
    (indep_id.prune f) ⟨⟨rfl, rfl⟩, collRel ns⟩ (collDepths ns) w k
  rw [decStep_id] at h
  have hg : ∀ n ∈ ns, ∀ w i,
      (Dec.tree (pruneStep fun w _ y => f w y) w ((treeOf n : Tree V).wpaths [i])).1 = (Tree.pruneS f w (treeOf n)).1 ∧
      (Dec.tree (pruneStep fun w _ y => f w y) w ((treeOf n : Tree V).wpaths [i])).2.map (Tree.map Prod.fst) =
        (Tree.pruneS f w (treeOf n)).2 :=
    fun n _ w i => by
      obtain ⟨h1, h2⟩ := prune_tree f ((treeOf n).wpaths [i]) w
      rw [wpaths_snd] at h1 h2
      exact ⟨h1, h2⟩
  obtain ⟨h1, h2⟩ := Dec.forest_labs (dec := pruneStep fun w _ y => f w y) (lab := fun n p => (treeOf n : Tree V).wpaths p)
    (tree := treeOf) (g := fun w _ t => t.pruneS f w) ns hg w 0
  have h3 := Dec.quit_labs (dec := pruneStep fun w _ y => f w y) (lab := fun n p => (treeOf n : Tree V).wpaths p) (tree := treeOf)
    (root := fun w _ t => ((f w t.value).1, !(f w t.value).2)) (g := fun w _ t => t.pruneS f w) ns
    (fun n _ w i => by
      rcases (treeOf n : Tree V) with ⟨v, cs⟩
      simp only [Tree.wpaths, Dec.root, pruneStep, Tree.value]
      cases (f w v).2 <;> rfl)
    (fun n hn w i => ⟨(hg n hn w i).1, by rw [← Option.isSome_map, (hg n hn w i).2]⟩) k w
  rw [h2, h3] at h
  exact h

example : (Api.pruneEach (fun log v => (log ++ [v], v == 1 || v == 7)) threeTrees 1 []).toOption.map Prod.snd =
    some ([0, 1, 2, 5, 7, 9], ()) := by decide +kernel

/-- C69 for `prune_path_each`. -/
theorem C69_prunePath (f : σ → List Nat → V → σ × Bool) (ns : List N) (hn : ∀ n ∈ ns, ArityOk n) (k : Nat) (w : σ) :
    Api.prunePathEach f ns k w = .ok (seen k (eachS (fun w i t => t.prunePathS f w [i]) w 0 (ns.map treeOf)).2,
      quitS (fun w i t => ((f w [i] t.value).1, !(f w [i] t.value).2)) (fun w i t => t.prunePathS f w [i]) k w
        (ns.map treeOf), ()) := by
  have hM := (collEnum (N := N) σ).prunePath f
  have h := hM.treesQuit (s := CollPipe.prunePathNew (CollPipe.State.new ns)) (a := ([], [0]))
    (LenOk.prunePath (Through.lenOk through_id) _) (indep_id.prunePath through_id f) ⟨⟨rfl, rfl⟩, collRel ns⟩ (collDepths ns) w k
  rw [decStep_id] at h
  have hg : ∀ n ∈ ns, ∀ w i,
      (Dec.tree (pruneStep f) w ((treeOf n : Tree V).wpaths [i])).1 = (Tree.prunePathS f w [i] (treeOf n)).1 ∧
      (Dec.tree (pruneStep f) w ((treeOf n : Tree V).wpaths [i])).2.map (Tree.map Prod.fst) =
        (Tree.prunePathS f w [i] (treeOf n)).2 :=
    fun n h w i => by
      rw [wpaths_treeOf (hn n h)]
      exact prunePath_tree f (treeOf n) w [i]
  obtain ⟨h1, h2⟩ := Dec.forest_labs (dec := pruneStep f) (lab := fun n p => (treeOf n : Tree V).wpaths p)
    (tree := treeOf) (g := fun w i t => t.prunePathS f w [i]) ns hg w 0
  have h3 := Dec.quit_labs (dec := pruneStep f) (lab := fun n p => (treeOf n : Tree V).wpaths p) (tree := treeOf)
    (root := fun w i t => ((f w [i] t.value).1, !(f w [i] t.value).2)) (g := fun w i t => t.prunePathS f w [i]) ns
    (fun n _ w i => by
      rcases (treeOf n : Tree V) with ⟨v, cs⟩
      simp only [Tree.wpaths, Dec.root, pruneStep, Tree.value]
      cases (f w [i] v).2 <;> rfl)
    (fun n hn w i => ⟨(hg n hn w i).1, by rw [← Option.isSome_map, (hg n hn w i).2]⟩) k w
  rw [h2, h3] at h
  exact h

example : (Api.prunePathEach (fun log p _ => (log ++ [p], p == [0, 1] || p == [1])) threeTrees 1 []).toOption.map Prod.snd =
    some ([[0], [0, 0], [0, 0, 0], [0, 0, 1], [0, 1], [1], [2]], ()) := by decide +kernel

example := C69_prunePath (fun (log : List (List Nat)) p (_ : Nat) => (log ++ [p], p == [1])) threeTrees threeTrees_arity 1 []

/-- C69 for `fold_each`: the closure has been called with the nodes of the first `k` trees and no others. -/
theorem C69_fold (f : σ → List O → V → σ × O) (ns : List N) (k : Nat) (t : σ) :
    Api.foldEach f ns k t = .ok (seen k (eachS (fun t _ c => kept (Tree.foldS f t c)) t 0 (ns.map treeOf)).2, (),
      (eachS (fun t _ c => kept (Tree.foldS f t c)) t 0 ((ns.map treeOf).take k)).1) := by
  have h := (collEnum (N := N) Unit).foldTreesQuit (Through.lenOk through_id) indep_id (collRel ns) (collDepths ns) f () t k
  rw [id_labs, foldSL_each f _ t 0, foldSL_each f _ t 0] at h
  exact h

example : (Api.foldEach (fun log rs v => (log ++ [v], v + rs.sum)) threeTrees 1 []).toOption =
    some ([some 15], (), [3, 4, 1, 5, 2, 0]) := by decide +kernel

/-- C69 for `fold_path_each`. -/
theorem C69_foldPath (f : σ → List O → List Nat → V → σ × O) (ns : List N) (hn : ∀ n ∈ ns, ArityOk n) (k : Nat) (t : σ) :
    Api.foldPathEach f ns k t = .ok (seen k (eachS (fun t i c => kept (Tree.foldPathS f t [i] c)) t 0 (ns.map treeOf)).2, (),
      (eachS (fun t i c => kept (Tree.foldPathS f t [i] c)) t 0 ((ns.map treeOf).take k)).1) := by
  have h := (collEnum (N := N) Unit).foldPathTreesQuit through_id indep_id (collRel ns) (collPaths ns) f () t k
  rw [id_forest, collLabs hn, foldPathL_each, ← List.map_take, labs_take, foldPathL_each] at h
  rw [← List.map_take]
  exact h

example : (Api.foldPathEach (fun log (rs : List Nat) p v => (log ++ [p], v + rs.length)) threeTrees 2 []).toOption =
    some ([some 2, some 8], (), [[0, 0, 0], [0, 0, 1], [0, 0], [0, 1, 0], [0, 1], [0], [1, 0], [1]]) := by decide +kernel

example := C69_foldPath (fun (log : List (List Nat)) (rs : List Nat) p (v : Nat) => (log ++ [p], v + rs.length)) threeTrees
  threeTrees_arity 2 []

end General

section Chains
variable {N : Type u} {V W : Type v} [TreeNode N V] {σ : Type w} {τ : Type x} {O : Type y}

/-- C69 for the trees that come out of a chain of stages. -/
theorem C69_chain (c : Chain σ V W) (hc : c.pathsFirst = true) (ns : List N)
    (hn : c.noPaths = true ∨ ∀ n ∈ ns, ArityOk n) (k : Nat) (w : σ) :
    treesEnd.calls (c.collPipe (Api.collPipe N σ)) k (c.collInit (.new ns), none) w () =
      .ok (seen k (c.trees w (ns.map treeOf)).2,
        quitS (fun w i t => c.rootS w i t.value) (fun w i t => t.runS (c.inTree i).step w []) k w (ns.map treeOf), ()) := by
  obtain ⟨A, v, R', h1, h2, h3, -, h5⟩ := Chain.collEnum (TreeIter.collEnum (N := N) σ) c hc
  obtain ⟨a', h⟩ := h5 _ _ _ (collRel ns) (labDepth_neL (collDepths ns))
  have h := h1.treesQuit h3 h2 h (collDepths ns) w k
  rw [(c.decOf_labs ns hn w).2, c.quit_labs ns hn] at h
  exact h

example : (treesEnd.calls (countChain.collPipe (Api.collPipe (Tree Nat) Nat)) 1 (countChain.collInit (.new threeTrees), none) 0 ()).toOption =
    some ([some (.node 10 [.node 12 [.node 15 []]])], 6, ()) := by decide +kernel

example := C69_chain countChain rfl threeTrees (.inl rfl) 1 0

example := C69_chain pathChain rfl threeTrees (.inr threeTrees_arity) 1 0

/-- C69 for `fold_trees` after a chain of stages: the stages have seen a root more than the fold closure. -/
theorem C69_chain_fold (c : Chain σ V W) (hc : c.pathsFirst = true) (ns : List N)
    (hn : c.noPaths = true ∨ ∀ n ∈ ns, ArityOk n) (g : τ → List O → W → τ × O) (k : Nat) (w : σ) (t : τ) :
    (foldEnd g).calls (c.collPipe (Api.collPipe N σ)) k (c.collInit (.new ns), none) w t =
      .ok (seen k (eachS (fun t _ b => kept (b.foldS g t)) t 0 (c.trees w (ns.map treeOf)).2).2,
        quitS (fun w i t => c.rootS w i t.value) (fun w i t => t.runS (c.inTree i).step w []) k w (ns.map treeOf),
        (eachS (fun t _ b => kept (b.foldS g t)) t 0 ((c.trees w (ns.map treeOf)).2.take k)).1) := by
  obtain ⟨A, v, R', h1, h2, h3, -, h5⟩ := Chain.collEnum (TreeIter.collEnum (N := N) σ) c hc
  obtain ⟨a', h⟩ := h5 _ _ _ (collRel ns) (labDepth_neL (collDepths ns))
  have h := h1.foldTreesQuit h3 h2 h (collDepths ns) g w t k
  rw [(c.decOf_labs ns hn w).2, c.quit_labs ns hn, foldSL_each g _ t 0, foldSL_each g _ t 0] at h
  exact h

example : ((foldEnd fun log rs v => (log ++ [v], v + rs.sum)).calls (countChain.collPipe (Api.collPipe (Tree Nat) Nat)) 1
      (countChain.collInit (.new threeTrees), none) 0 []).toOption = some ([some 37], 6, [15, 12, 10]) := by decide +kernel

example := C69_chain_fold countChain rfl threeTrees (.inl rfl) (fun log (rs : List Nat) v => (log ++ [v], v + rs.sum)) 1 0 []

/-- C69 for `fold_path` after stages that drop no node by a closure: the fold closure has been called with the nodes of the
first `k` trees. -/
theorem C69_chain_foldPath (c : Chain σ V W) (hc : c.keepsAll = true) (ns : List N) (hn : ∀ n ∈ ns, ArityOk n)
    (g : τ → List O → List Nat → W → τ × O) (k : Nat) (w : σ) (t : τ) :
    (foldPathEnd g).calls (c.collPipe (Api.collPipe N σ)) k (c.collInit (.new ns), none) w t =
      .ok (seen k (eachS (fun t i b => kept (b.foldPathS g t [i])) t 0 (c.trees w (ns.map treeOf)).2).2,
        quitS (fun w i t => c.rootS w i t.value) (fun w i t => t.runS (c.inTree i).step w []) k w (ns.map treeOf),
        (eachS (fun t i b => kept (b.foldPathS g t [i])) t 0 ((c.trees w (ns.map treeOf)).2.take k)).1) := by
  obtain ⟨A, v, R', h1, h2, h3, h4, h5⟩ := Chain.collEnum (TreeIter.collEnum (N := N) σ) c (c.keepsAll_pathsFirst hc)
  obtain ⟨a', h⟩ := h5 _ _ _ (collRel ns) (labDepth_neL (collDepths ns))
  have h := h1.foldPathTreesQuit (h4 hc) h2 h (collPaths ns) g w t k
  rw [c.quit_labs ns (.inr hn), collLabs hn, c.foldPath_labs hc, c.foldPath_labs_take hc] at h
  exact h

example : let c : Chain Nat Nat Nat := (Chain.source.map fun k v => (k + 1, v + 10)).pruneDepth 1
    ((foldPathEnd fun log (_ : List Unit) p v => (log ++ [(p, v)], ())).calls (c.collPipe (Api.collPipe (Tree Nat) Nat)) 1
      (c.collInit (.new threeTrees), none) 0 []).toOption.map (fun r => r.2) =
    some (4, [([0, 0], 11), ([0, 1], 12), ([0], 10)]) := by decide +kernel

example := C69_chain_foldPath ((Chain.source.map fun k v => (k + 1, v + 10)).pruneDepth 1) rfl threeTrees threeTrees_arity
  (fun log (_ : List Unit) p (v : Nat) => (log ++ [(p, v)], ())) 1 0 []

end Chains

section Binary
variable {N : Type u} {V : Type v} [BinNode N V] {σ : Type w} {W : Type x} {O : Type y}

/-- C69 for binary trees and `map_each`. -/
theorem C69_binary_map (f : σ → V → σ × W) (ns : List N) (k : Nat) (w : σ) :
    Api.binMapEach f ns k w = .ok (seen k (eachS (fun w _ t => kept (BinTree.mapS f w t)) w 0 (ns.map binTreeOf)).2,
      (match (ns.map binTreeOf)[k]? with
        | none => (eachS (fun w _ t => kept (BinTree.mapS f w t)) w 0 ((ns.map binTreeOf).take k)).1
        | some t => if k = 0 then w else
            (f (eachS (fun w _ t => kept (BinTree.mapS f w t)) w 0 ((ns.map binTreeOf).take k)).1 t.value).1), ()) := by
  have h := ((binCollEnum (N := N) σ).map f).binTreesQuit (tree := binTreeOf) (s := CollPipe.State.new ns) (a := ([], ()))
    (Through.map through_id f) (indep_id.map f) (binCollRel ns) (binCollDepths ns) w k
  rw [decStep_id] at h
  obtain ⟨h1, h2⟩ := Dec.bins_each (g := fun w _ t => kept (BinTree.mapS f w t)) (fun w i t => map_bin f t w [i])
    (ns.map (binTreeOf : N → BinTree V)) w 0
  have h3 := Dec.quit_labs (dec := mapStep f) (lab := fun n p => (binTreeOf n : BinTree V).paths p) (tree := binTreeOf)
    (root := fun w _ t => ((f w t.value).1, true)) (g := fun w _ t => kept (BinTree.mapS f w t)) ns
    (fun n _ w i => by
      rcases (binTreeOf n : BinTree V) with ⟨v, l, r⟩
      rfl)
    (fun n _ w i => by rw [Dec.tree_paths, map_bin]; exact ⟨rfl, rfl⟩) k w
  rw [h2, h3] at h
  refine h.trans ?_
  congr 3
  rw [quitS, stopS_kept (fun w _ t => (f w (BinTree.value t)).1) (fun w _ t => BinTree.mapS f w t)]
  by_cases hk : k = 0
  · subst hk
    simp only [if_true, List.take_zero, eachS]
    split <;> rfl
  · simp only [if_neg hk]
    cases (ns.map (binTreeOf : N → BinTree V))[k]? <;> rfl

example : (Api.binMapEach (fun log v => (log ++ [v], v + 1)) threeBins 1 []).toOption.map Prod.snd =
    some ([0, 1, 3, 2, 4, 7], ()) := by decide +kernel

/-- C69 for binary trees and `prune_each`. -/
theorem C69_binary_prune (f : σ → V → σ × Bool) (ns : List N) (k : Nat) (w : σ) :
    Api.binPruneEach f ns k w = .ok (seen k (eachS (fun w _ t => t.pruneS f w) w 0 (ns.map binTreeOf)).2,
      quitS (fun w _ t => ((f w t.value).1, !(f w t.value).2)) (fun w _ t => t.pruneS f w) k w (ns.map binTreeOf), ()) := by
  have h := ((binCollEnum (N := N) σ).binPrune f).binTreesQuit (tree := binTreeOf) (s := CollPipe.State.new ns) (a := ([], ()))
    (Through.binPrunePath through_id _) (indep_id.binPrunePath through_id _) (binCollRel ns) (binCollDepths ns) w k
  rw [decStep_id] at h
  obtain ⟨h1, h2⟩ := Dec.bins_each (g := fun w _ t => t.pruneS f w) (fun w i t => prune_bin f t w [i])
    (ns.map (binTreeOf : N → BinTree V)) w 0
  have h3 := Dec.quit_labs (dec := pruneStep fun w _ y => f w y) (lab := fun n p => (binTreeOf n : BinTree V).paths p)
    (tree := binTreeOf) (root := fun w _ t => ((f w t.value).1, !(f w t.value).2)) (g := fun w _ t => t.pruneS f w) ns
    (fun n _ w i => by
      rcases (binTreeOf n : BinTree V) with ⟨v, l, r⟩
      simp only [BinTree.paths, Dec.root, pruneStep, BinTree.value]
      cases (f w v).2 <;> rfl)
    (fun n _ w i => by rw [Dec.tree_paths, prune_bin, Option.isSome_map]; exact ⟨rfl, rfl⟩) k w
  rw [h2, h3] at h
  exact h

example : (Api.binPruneEach (fun log v => (log ++ [v], v == 1 || v == 7)) threeBins 1 []).toOption.map Prod.snd =
    some ([0, 1, 2, 4, 7, 9], ()) := by decide +kernel

/-- C69 for binary trees and `prune_path_each`. -/
theorem C69_binary_prunePath (f : σ → List Nat → V → σ × Bool) (ns : List N) (k : Nat) (w : σ) :
    Api.binPrunePathEach f ns k w = .ok (seen k (eachS (fun w i t => t.prunePathS f w [i]) w 0 (ns.map binTreeOf)).2,
      quitS (fun w i t => ((f w [i] t.value).1, !(f w [i] t.value).2)) (fun w i t => t.prunePathS f w [i]) k w
        (ns.map binTreeOf), ()) := by
  have h := ((binCollEnum (N := N) σ).binPrunePath f).binTreesQuit (tree := binTreeOf) (s := CollPipe.State.new ns) (a := ([], ()))
    (Through.binPrunePath through_id _) (indep_id.binPrunePath through_id _) (binCollRel ns) (binCollDepths ns) w k
  rw [decStep_id] at h
  obtain ⟨h1, h2⟩ := Dec.bins_each (g := fun w i t => t.prunePathS f w [i]) (fun w i t => prunePath_bin f t w [i])
    (ns.map (binTreeOf : N → BinTree V)) w 0
  have h3 := Dec.quit_labs (dec := pruneStep f) (lab := fun n p => (binTreeOf n : BinTree V).paths p)
    (tree := binTreeOf) (root := fun w i t => ((f w [i] t.value).1, !(f w [i] t.value).2))
    (g := fun w i t => t.prunePathS f w [i]) ns
    (fun n _ w i => by
      rcases (binTreeOf n : BinTree V) with ⟨v, l, r⟩
      simp only [BinTree.paths, Dec.root, pruneStep, BinTree.value]
      cases (f w [i] v).2 <;> rfl)
    (fun n _ w i => by rw [Dec.tree_paths, prunePath_bin, Option.isSome_map]; exact ⟨rfl, rfl⟩) k w
  rw [h2, h3] at h
  exact h

example : (Api.binPrunePathEach (fun log p _ => (log ++ [p], p == [0, 0] || p == [1])) threeBins 1 []).toOption.map Prod.snd =
    some ([[0], [0, 0], [0, 1], [0, 1, 0], [1], [2]], ()) := by decide +kernel

/-- C69 for binary trees and `fold_path_each`. -/
theorem C69_binary_foldPath (f : σ → Option O × Option O → List Nat → V → σ × O) (ns : List N) (k : Nat) (t : σ) :
    Api.binFoldPathEach f ns k t =
      .ok (seen k (eachS (fun t i c => kept (BinTree.foldPathS f t [i] c)) t 0 (ns.map binTreeOf)).2, (),
        (eachS (fun t i c => kept (BinTree.foldPathS f t [i] c)) t 0 ((ns.map binTreeOf).take k)).1) := by
  have h := (binCollEnum (N := N) Unit).binFoldPathTreesQuit (tree := binTreeOf) through_id indep_id (binCollRel ns)
    (binCollDepths ns) f () t k
  rw [id_bins, (eachS_numbers (σ := Unit) f (ns.map (binTreeOf : N → BinTree V)) () t 0).2, eachS_numbered_take,
    (eachS_numbers (σ := Unit) f ((ns.map (binTreeOf : N → BinTree V)).take k) () t 0).2] at h
  exact h

example : (Api.binFoldPathEach (fun log (_ : Option Nat × Option Nat) p v => (log ++ [p], v)) threeBins 1 []).toOption =
    some ([some 0], (), [[0, 0, 1], [0, 0], [0, 1, 0], [0, 1], [0]]) := by decide +kernel

/-- C69 for binary trees and `fold_each`. -/
theorem C69_binary_fold (f : σ → Option O × Option O → V → σ × O) (ns : List N) (k : Nat) (t : σ) :
    Api.binFoldEach f ns k t =
      .ok (seen k (eachS (fun t _ c => kept (BinTree.foldS f t c)) t 0 (ns.map binTreeOf)).2, (),
        (eachS (fun t _ c => kept (BinTree.foldS f t c)) t 0 ((ns.map binTreeOf).take k)).1) := by
  have h := (binCollEnum (N := N) Unit).binFoldTreesQuit (tree := binTreeOf) through_id indep_id (binCollRel ns)
    (binCollDepths ns) f () t k
  rw [id_bins, (eachS_numbers (σ := Unit) (fun t x _ v => f t x v) (ns.map (binTreeOf : N → BinTree V)) () t 0).2,
    eachS_numbered_take,
    (eachS_numbers (σ := Unit) (fun t x _ v => f t x v) ((ns.map (binTreeOf : N → BinTree V)).take k) () t 0).2] at h
  simp only [fold_noPath] at h
  exact h

example : (Api.binFoldEach (fun log (rs : Option Nat × Option Nat) v => (log ++ [v], 10 * rs.1.getD 0 + 100 * rs.2.getD 0 + v))
    threeBins 2 []).toOption = some ([some 7210, some 807], (), [3, 1, 4, 2, 0, 8, 7]) := by decide +kernel

end Binary

section BinaryChains
variable {N : Type u} {V W : Type v} [BinNode N V] {σ : Type w} {τ : Type x} {O : Type y}

/-- C69 for the binary trees that come out of a chain of stages. -/
theorem C69_binary_chain (c : Chain σ V W) (ns : List N) (k : Nat) (w : σ) :
    binTreesEnd.calls (c.binCollPipe (Api.binCollPipe N σ)) k (.new ns, none) w () =
      .ok (seen k (c.binTrees w (ns.map binTreeOf)).2,
        quitS (fun w i t => c.rootS w i t.value) (fun w i t => t.runS (c.inTree i).step w []) k w (ns.map binTreeOf), ()) := by
  obtain ⟨A, v, R', h1, h2, h3, h5⟩ := Chain.binCollEnum (TreeIter.binCollEnum (N := N) σ) c
  obtain ⟨a', h⟩ := h5 _ _ _ (binCollRel ns) (labDepth_neL (binCollDepths ns))
  have h := h1.binTreesQuit (tree := binTreeOf) h3 h2 h (binCollDepths ns) w k
  rw [c.decOf_bins, Chain.numbered,
    (numbered_snd (fun w i t => BinTree.runS (c.inTree i).step w [] t) (ns.map (binTreeOf : N → BinTree V)) w 0).2,
    c.binQuit_labs ns] at h
  exact h

example : (binTreesEnd.calls (countChain.binCollPipe (Api.binCollPipe (BinTree Nat) Nat)) 1 (.new threeBins, none) 0 ()).toOption =
    some ((countChain.binTrees 0 threeBins).2.map some |>.take 1, 6, ()) := by decide +kernel

/-- C69 for binary trees and `fold_path` after a chain of stages. -/
theorem C69_binary_chain_foldPath (c : Chain σ V W) (ns : List N) (g : τ → Option O × Option O → List Nat → W → τ × O) (k : Nat)
    (w : σ) (t : τ) :
    (binFoldPathEnd g).calls (c.binCollPipe (Api.binCollPipe N σ)) k (.new ns, none) w t =
      .ok (seen k (eachS (fun t _ ib => kept (ib.2.foldPathS g t [ib.1])) t 0 (c.numbered w (ns.map binTreeOf)).2).2,
        quitS (fun w i t => c.rootS w i t.value) (fun w i t => t.runS (c.inTree i).step w []) k w (ns.map binTreeOf),
        (eachS (fun t _ ib => kept (ib.2.foldPathS g t [ib.1])) t 0 ((c.numbered w (ns.map binTreeOf)).2.take k)).1) := by
  obtain ⟨A, v, R', h1, h2, h3, h5⟩ := Chain.binCollEnum (TreeIter.binCollEnum (N := N) σ) c
  obtain ⟨a', h⟩ := h5 _ _ _ (binCollRel ns) (labDepth_neL (binCollDepths ns))
  have h := h1.binFoldPathTreesQuit (tree := binTreeOf) h3 h2 h (binCollDepths ns) g w t k
  rw [c.decOf_bins, foldNumbered_each g _ t 0, foldNumbered_each g _ t 0, c.binQuit_labs ns] at h
  exact h

example : ((binFoldPathEnd fun log (_ : Option Unit × Option Unit) p v => (log ++ [(p, v)], ())).calls
      (countChain.binCollPipe (Api.binCollPipe (BinTree Nat) Nat)) 1 (.new threeBins, none) 0 []).toOption.map (fun r => r.2) =
    some (6, [([0, 1, 0], 14), ([0, 1], 12), ([0], 10)]) := by decide +kernel

/-- C69 for `fold_trees` after a chain of stages on binary trees. -/
theorem C69_binary_chain_fold (c : Chain σ V W) (ns : List N) (g : τ → Option O × Option O → W → τ × O) (k : Nat)
    (w : σ) (t : τ) :
    (binFoldEnd g).calls (c.binCollPipe (Api.binCollPipe N σ)) k (.new ns, none) w t =
      .ok (seen k (eachS (fun t _ b => kept (b.foldS g t)) t 0 (c.binTrees w (ns.map binTreeOf)).2).2,
        quitS (fun w i t => c.rootS w i t.value) (fun w i t => t.runS (c.inTree i).step w []) k w (ns.map binTreeOf),
        (eachS (fun t _ b => kept (b.foldS g t)) t 0 ((c.binTrees w (ns.map binTreeOf)).2.take k)).1) := by
  obtain ⟨A, v, R', h1, h2, h3, h5⟩ := Chain.binCollEnum (TreeIter.binCollEnum (N := N) σ) c
  obtain ⟨a', h⟩ := h5 _ _ _ (binCollRel ns) (labDepth_neL (binCollDepths ns))
  have h := h1.binFoldTreesQuit (tree := binTreeOf) h3 h2 h (binCollDepths ns) g w t k
  obtain ⟨-, k2⟩ := numbered_snd (fun w i t => BinTree.runS (c.inTree i).step w [] t) (ns.map (binTreeOf : N → BinTree V)) w 0
  rw [c.decOf_bins, foldNumbered_each _ _ t 0, foldNumbered_each _ _ t 0, c.binQuit_labs ns] at h
  simp only [fold_noPath] at h
  rw [eachS_second (fun t b => BinTree.foldS g t b), eachS_second (fun t b => BinTree.foldS g t b), List.map_take, Chain.numbered,
    k2] at h
  exact h

example : ((binFoldEnd fun log (_ : Option Unit × Option Unit) v => (log ++ [v], ())).calls
      (countChain.binCollPipe (Api.binCollPipe (BinTree Nat) Nat)) 1 (.new threeBins, none) 0 []).toOption.map (fun r => r.2) =
    some (6, [14, 12, 10]) := by decide +kernel

end BinaryChains

end TreeIter
