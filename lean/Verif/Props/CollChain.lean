import Verif.Lemmas.CollChain
import Verif.Props.CollectionPipeline
import Verif.Props.Chain

/-! # C64: chains of stages on collections act tree by tree -/

universe u v w x y

namespace TreeIter

/-- A chain for the concrete cases: count the nodes seen, add ten to the values, and drop the nodes with value 11 or 17. -/
def countChain : Chain Nat Nat Nat :=
  (Chain.source.map fun k v => (k + 1, v + 10)).prune fun k v => (k, v == 11 || v == 17)

/-- One whose closures have no state, with a `prune_path_each` before the others. -/
def pathChain : Chain Nat Nat Nat :=
  ((Chain.source.prunePath fun k p _ => (k, p == [0, 1] || p == [2])).map fun k v => (k, v + 10)).pruneDepth 1

section General
variable {N : Type u} {V W Z : Type v} [TreeNode N V] {σ : Type w} {τ : Type x} {O : Type y}

/-- C64: `k` calls of `next` on the trees that come out of a chain of stages give what the chain makes of each tree of the
collection on its own, in order, without those whose root is dropped, and then `None`.  The closures run over all trees with
one state.  A `prune_path` must not come after a `prune` or `prune_path` (see C32), and needs the number of children of every
node to be representable. -/
theorem C64_trees (c : Chain σ V W) (hc : c.pathsFirst = true) (ns : List N)
    (hn : c.noPaths = true ∨ ∀ n ∈ ns, ArityOk n) (k : Nat) (w : σ) :
    ∃ r, treesEnd.calls (c.collPipe (Api.collPipe N σ)) k (c.collInit (.new ns), none) w () =
        .ok (seen k (c.trees w (ns.map treeOf)).2, r) ∧
      ((c.trees w (ns.map treeOf)).2.length < k → r = ((c.trees w (ns.map treeOf)).1, ())) :=
  c.collTrees hc ns hn k w

example : (treesEnd.calls (countChain.collPipe (Api.collPipe (Tree Nat) Nat)) 4 (countChain.collInit (.new threeTrees), none) 0 ()).toOption =
    some ([some (.node 10 [.node 12 [.node 15 []]]), some (.node 19 []), none, none], 6, ()) := by decide +kernel

example : ∃ r, treesEnd.calls (countChain.collPipe (Api.collPipe (Tree Nat) Nat)) 4 (countChain.collInit (.new threeTrees), none) 0 () =
    .ok (seen 4 (countChain.trees 0 (threeTrees.map treeOf)).2, r) :=
  (C64_trees countChain rfl threeTrees (.inl rfl) 4 0).imp fun _ h => h.1

example : (pathChain.trees 0 (threeTrees.map treeOf)).2 = [.node 10 [.node 11 []], .node 17 [.node 18 []]] ∧
    ∃ r, treesEnd.calls (pathChain.collPipe (Api.collPipe (Tree Nat) Nat)) 3 (pathChain.collInit (.new threeTrees), none) 0 () =
      .ok ([some (.node 10 [.node 11 []]), some (.node 17 [.node 18 []]), none], r) := by
  have h : (pathChain.trees 0 (threeTrees.map treeOf)).2 = [.node 10 [.node 11 []], .node 17 [.node 18 []]] := by decide +kernel
  refine ⟨h, ?_⟩
  obtain ⟨r, hr, -⟩ := C64_trees pathChain rfl threeTrees (.inr threeTrees_arity) 3 0
  rw [h] at hr
  exact ⟨r, hr⟩

/-- C64 for `fold_trees`. -/
theorem C64_fold (c : Chain σ V W) (hc : c.pathsFirst = true) (ns : List N)
    (hn : c.noPaths = true ∨ ∀ n ∈ ns, ArityOk n) (g : τ → List O → W → τ × O) (k : Nat) (w : σ) (t : τ) :
    ∃ r, (foldEnd g).calls (c.collPipe (Api.collPipe N σ)) k (c.collInit (.new ns), none) w t =
        .ok (seen k (eachS (fun t _ b => kept (b.foldS g t)) t 0 (c.trees w (ns.map treeOf)).2).2, r) ∧
      ((c.trees w (ns.map treeOf)).2.length < k →
        r = ((c.trees w (ns.map treeOf)).1, (eachS (fun t _ b => kept (b.foldS g t)) t 0 (c.trees w (ns.map treeOf)).2).1)) :=
  c.collFold hc ns hn g k w t

example : ((foldEnd fun log rs v => (log ++ [v], v + rs.sum)).calls (countChain.collPipe (Api.collPipe (Tree Nat) Nat)) 3
      (countChain.collInit (.new threeTrees), none) 0 []).toOption =
    some ([some 37, some 19, none], 6, [15, 12, 10, 19]) := by decide +kernel

/-- C64 for `fold_path`, after stages that drop no node by a closure: the paths begin with the number of the tree. -/
theorem C64_foldPath (c : Chain σ V W) (hc : c.keepsAll = true) (ns : List N) (hn : ∀ n ∈ ns, ArityOk n)
    (g : τ → List O → List Nat → W → τ × O) (k : Nat) (w : σ) (t : τ) :
    ∃ r, (foldPathEnd g).calls (c.collPipe (Api.collPipe N σ)) k (c.collInit (.new ns), none) w t =
        .ok (seen k (eachS (fun t i b => kept (b.foldPathS g t [i])) t 0 (c.trees w (ns.map treeOf)).2).2, r) ∧
      ((c.trees w (ns.map treeOf)).2.length < k →
        r = ((c.trees w (ns.map treeOf)).1,
          (eachS (fun t i b => kept (b.foldPathS g t [i])) t 0 (c.trees w (ns.map treeOf)).2).1)) :=
  c.collFoldPath hc ns hn g k w t

example : let c : Chain Nat Nat Nat := (Chain.source.map fun k v => (k + 1, v + 10)).pruneDepth 1
    ((foldPathEnd fun log (_ : List Unit) p v => (log ++ [(p, v)], ())).calls (c.collPipe (Api.collPipe (Tree Nat) Nat)) 4
      (c.collInit (.new threeTrees), none) 0 []).toOption.map (fun r => r.2) =
    some (6, [([0, 0], 11), ([0, 1], 12), ([0], 10), ([1, 0], 18), ([1], 17), ([2], 19)]) := by decide +kernel

/-- C64: `map_trees` after stages without a state is `map_each` on the trees that come out of these. -/
theorem C64_then_map (c : Chain σ V W) (hs : c.Stateless) (hc : c.pathsFirst = true) (f : σ → W → σ × Z) (ns : List N)
    (hn : c.noPaths = true ∨ ∀ n ∈ ns, ArityOk n) (w : σ) :
    ∃ ts, (∀ k, ∃ r, treesEnd.calls (c.collPipe (Api.collPipe N σ)) k (c.collInit (.new ns), none) w () =
        .ok (seen k ts, r)) ∧
      ∀ k, ∃ os r r', treesEnd.calls ((c.map f).collPipe (Api.collPipe N σ)) k ((c.map f).collInit (.new ns), none) w () =
        .ok (os, r) ∧ Api.mapEach f ts k w = .ok (os, r') ∧ (ts.length < k → r = r') := by
  refine ⟨(c.trees w (ns.map treeOf)).2, fun k => (c.collTrees hc ns hn k w).imp fun _ h => h.1, fun k => ?_⟩
  obtain ⟨r, h1, h2⟩ := (c.map f).collTrees hc ns hn k w
  obtain ⟨r', h3, h4⟩ := C37_map f (c.trees w (ns.map treeOf)).2 k w
  rw [map_treeOf_tree] at h3 h4
  rw [c.trees_map hs f (ns.map treeOf) w w] at h1 h2
  refine ⟨_, r, r', h1, h3, fun hk => ?_⟩
  have hl := eachS_kept_length (fun w _ t => Tree.mapS f w t) (c.trees w (ns.map treeOf)).2 w 0
  rw [h2 (by rw [hl]; exact hk), h4 (by rw [hl]; exact hk)]

example := C64_then_map pureChain pureChain_stateless rfl (fun w v => (w + v, 2 * v)) threeTrees (.inl rfl) 0

/-- C64: the same for `prune` and `prune_each`. -/
theorem C64_then_prune (c : Chain σ V W) (hs : c.Stateless) (hc : c.pathsFirst = true) (f : σ → W → σ × Bool) (ns : List N)
    (hn : c.noPaths = true ∨ ∀ n ∈ ns, ArityOk n) (w : σ) :
    ∃ ts, (∀ k, ∃ r, treesEnd.calls (c.collPipe (Api.collPipe N σ)) k (c.collInit (.new ns), none) w () =
        .ok (seen k ts, r)) ∧
      ∀ k, ∃ os r r', treesEnd.calls ((c.prune f).collPipe (Api.collPipe N σ)) k ((c.prune f).collInit (.new ns), none) w () =
        .ok (os, r) ∧ Api.pruneEach f ts k w = .ok (os, r') ∧ (ts.length < k → r = r') := by
  refine ⟨(c.trees w (ns.map treeOf)).2, fun k => (c.collTrees hc ns hn k w).imp fun _ h => h.1, fun k => ?_⟩
  obtain ⟨r, h1, h2⟩ := (c.prune f).collTrees hc ns hn k w
  obtain ⟨r', h3, h4⟩ := C37_prune f (c.trees w (ns.map treeOf)).2 k w
  rw [map_treeOf_tree] at h3 h4
  rw [c.trees_prune hs f (ns.map treeOf) w w] at h1 h2
  refine ⟨_, r, r', h1, h3, fun hk => ?_⟩
  have hl := eachS_length (fun w _ t => Tree.pruneS f w t) (c.trees w (ns.map treeOf)).2 w 0
  rw [h2 (by omega), h4 (by omega)]

example := C64_then_prune pureChain pureChain_stateless rfl (fun w v => (w + v, v == 12)) threeTrees (.inr threeTrees_arity) 0

/-- C64: the same for `prune_depth` and `prune_depth_each`. -/
theorem C64_then_pruneDepth (c : Chain σ V W) (hs : c.Stateless) (hc : c.pathsFirst = true) (d : Nat) (ns : List N)
    (hn : c.noPaths = true ∨ ∀ n ∈ ns, ArityOk n) (w : σ) :
    ∃ ts, (∀ k, ∃ r, treesEnd.calls (c.collPipe (Api.collPipe N σ)) k (c.collInit (.new ns), none) w () =
        .ok (seen k ts, r)) ∧
      ∀ k, ∃ os r r', treesEnd.calls ((c.pruneDepth d).collPipe (Api.collPipe N σ)) k
          ((c.pruneDepth d).collInit (.new ns), none) w () = .ok (os, r) ∧ Api.pruneDepthEach d ts k = .ok (os, r') := by
  refine ⟨(c.trees w (ns.map treeOf)).2, fun k => (c.collTrees hc ns hn k w).imp fun _ h => h.1, fun k => ?_⟩
  obtain ⟨r, h1, -⟩ := (c.pruneDepth d).collTrees hc ns hn k w
  obtain ⟨r', h3⟩ := C37_pruneDepth d (c.trees w (ns.map treeOf)).2 k
  rw [c.trees_pruneDepth hs d (ns.map treeOf) w w] at h1
  simp only [treeOf_tree] at h3
  exact ⟨_, r, r', h1, h3⟩

example := C64_then_pruneDepth pureChain pureChain_stateless rfl 1 threeTrees (.inl rfl) 0

theorem pathChain_stateless : pathChain.Stateless := ⟨⟨trivial, fun _ _ _ _ => rfl⟩, fun _ _ _ => rfl⟩

example : ∃ ts, (∀ k, ∃ r, treesEnd.calls (pathChain.collPipe (Api.collPipe (Tree Nat) Nat)) k
      (pathChain.collInit (.new threeTrees), none) 0 () = .ok (seen k ts, r)) ∧
    ∀ k, ∃ os r r', treesEnd.calls ((pathChain.prune fun k v => (k + v, v == 18)).collPipe (Api.collPipe (Tree Nat) Nat)) k
        ((pathChain.prune fun k v => (k + v, v == 18)).collInit (.new threeTrees), none) 0 () = .ok (os, r) ∧
      Api.pruneEach (fun k v => (k + v, v == 18)) ts k 0 = .ok (os, r') ∧ (ts.length < k → r = r') :=
  C64_then_prune pathChain pathChain_stateless rfl _ threeTrees (.inr threeTrees_arity) 0

end General

section Binary
variable {N : Type u} {V W Z : Type v} [BinNode N V] {σ : Type w} {τ : Type x} {O : Type y}

/-- C64 for binary trees; here `prune_path` may be anywhere. -/
theorem C64_binary_trees (c : Chain σ V W) (ns : List N) (k : Nat) (w : σ) :
    ∃ r, binTreesEnd.calls (c.binCollPipe (Api.binCollPipe N σ)) k (.new ns, none) w () =
        .ok (seen k (c.binTrees w (ns.map binTreeOf)).2, r) ∧
      ((c.binTrees w (ns.map binTreeOf)).2.length < k → r = ((c.binTrees w (ns.map binTreeOf)).1, ())) :=
  c.binCollTrees ns k w

example : (binTreesEnd.calls (countChain.binCollPipe (Api.binCollPipe (BinTree Nat) Nat)) 4 (.new threeBins, none) 0 ()).toOption =
    some ((countChain.binTrees 0 threeBins).2.map some ++ [none, none], 6, ()) ∧ (countChain.binTrees 0 threeBins).2.length = 2 := by
  decide +kernel

/-- C64 for binary trees and `fold_trees`. -/
theorem C64_binary_fold (c : Chain σ V W) (ns : List N) (g : τ → Option O × Option O → W → τ × O) (k : Nat)
    (w : σ) (t : τ) :
    ∃ r, (binFoldEnd g).calls (c.binCollPipe (Api.binCollPipe N σ)) k (.new ns, none) w t =
        .ok (seen k (eachS (fun t _ b => kept (b.foldS g t)) t 0 (c.binTrees w (ns.map binTreeOf)).2).2, r) ∧
      ((c.binTrees w (ns.map binTreeOf)).2.length < k → r = ((c.binTrees w (ns.map binTreeOf)).1,
        (eachS (fun t _ b => kept (b.foldS g t)) t 0 (c.binTrees w (ns.map binTreeOf)).2).1)) :=
  c.binCollFold ns g k w t

/-- C64 for binary trees and `fold_path`: the paths begin with the number the tree has in the source, also when trees
before it were dropped. -/
theorem C64_binary_foldPath (c : Chain σ V W) (ns : List N) (g : τ → Option O × Option O → List Nat → W → τ × O) (k : Nat)
    (w : σ) (t : τ) :
    ∃ r, (binFoldPathEnd g).calls (c.binCollPipe (Api.binCollPipe N σ)) k (.new ns, none) w t =
        .ok (seen k (eachS (fun t _ ib => kept (ib.2.foldPathS g t [ib.1])) t 0 (c.numbered w (ns.map binTreeOf)).2).2, r) ∧
      ((c.numbered w (ns.map binTreeOf)).2.length < k → r = ((c.numbered w (ns.map binTreeOf)).1,
        (eachS (fun t _ ib => kept (ib.2.foldPathS g t [ib.1])) t 0 (c.numbered w (ns.map binTreeOf)).2).1)) :=
  c.binCollFoldPath ns g k w t

example : let c : Chain Nat Nat Nat := (Chain.source.map fun k v => (k + 1, v + 10)).prune fun k v => (k, v == 10)
    ((binFoldPathEnd fun log (_ : Option Unit × Option Unit) p v => (log ++ [(p, v)], ())).calls
      (c.binCollPipe (Api.binCollPipe (BinTree Nat) Nat)) 4 (.new threeBins, none) 0 []).toOption.map (fun r => r.2) =
    some (4, [([1, 1], 18), ([1], 17), ([2], 19)]) := by decide +kernel

/-- C64 for binary trees: `map_trees` after stages without a state is `map_each` on the trees that come out of these. -/
theorem C64_binary_then_map (c : Chain σ V W) (hs : c.Stateless) (f : σ → W → σ × Z) (ns : List N) (w : σ) :
    ∃ ts, (∀ k, ∃ r, binTreesEnd.calls (c.binCollPipe (Api.binCollPipe N σ)) k (.new ns, none) w () = .ok (seen k ts, r)) ∧
      ∀ k, ∃ os r r', binTreesEnd.calls ((c.map f).binCollPipe (Api.binCollPipe N σ)) k (.new ns, none) w () = .ok (os, r) ∧
        Api.binMapEach f ts k w = .ok (os, r') ∧ (ts.length < k → r = r') := by
  refine ⟨(c.binTrees w (ns.map binTreeOf)).2, fun k => (c.binCollTrees ns k w).imp fun _ h => h.1, fun k => ?_⟩
  obtain ⟨r, h1, h2⟩ := (c.map f).binCollTrees ns k w
  obtain ⟨r', h3, h4⟩ := C37_binary_map f (c.binTrees w (ns.map binTreeOf)).2 k w
  rw [map_binTreeOf_bin] at h3 h4
  rw [c.binTrees_map hs f (ns.map binTreeOf) w w] at h1 h2
  refine ⟨_, r, r', h1, h3, fun hk => ?_⟩
  have hl := eachS_kept_length (fun w _ t => BinTree.mapS f w t) (c.binTrees w (ns.map binTreeOf)).2 w 0
  rw [h2 (by rw [hl]; exact hk), h4 (by rw [hl]; exact hk)]

example := C64_binary_then_map pureChain pureChain_stateless (fun w v => (w + v, 2 * v)) threeBins 0

/-- C64 for binary trees: the same for `prune` and `prune_each`. -/
theorem C64_binary_then_prune (c : Chain σ V W) (hs : c.Stateless) (f : σ → W → σ × Bool) (ns : List N) (w : σ) :
    ∃ ts, (∀ k, ∃ r, binTreesEnd.calls (c.binCollPipe (Api.binCollPipe N σ)) k (.new ns, none) w () = .ok (seen k ts, r)) ∧
      ∀ k, ∃ os r r', binTreesEnd.calls ((c.prune f).binCollPipe (Api.binCollPipe N σ)) k (.new ns, none) w () = .ok (os, r) ∧
        Api.binPruneEach f ts k w = .ok (os, r') ∧ (ts.length < k → r = r') := by
  refine ⟨(c.binTrees w (ns.map binTreeOf)).2, fun k => (c.binCollTrees ns k w).imp fun _ h => h.1, fun k => ?_⟩
  obtain ⟨r, h1, h2⟩ := (c.prune f).binCollTrees ns k w
  obtain ⟨r', h3, h4⟩ := C37_binary_prune f (c.binTrees w (ns.map binTreeOf)).2 k w
  rw [map_binTreeOf_bin] at h3 h4
  rw [c.binTrees_prune hs f (ns.map binTreeOf) w w] at h1 h2
  refine ⟨_, r, r', h1, h3, fun hk => ?_⟩
  have hl := eachS_length (fun w _ t => BinTree.pruneS f w t) (c.binTrees w (ns.map binTreeOf)).2 w 0
  rw [h2 (by omega), h4 (by omega)]

example := C64_binary_then_prune pureChain pureChain_stateless (fun w v => (w + v, v == 12)) threeBins 0

/-- C64 for binary trees: the same for `prune_depth` and `prune_depth_each`. -/
theorem C64_binary_then_pruneDepth (c : Chain σ V W) (hs : c.Stateless) (d : Nat) (ns : List N) (w : σ) :
    ∃ ts, (∀ k, ∃ r, binTreesEnd.calls (c.binCollPipe (Api.binCollPipe N σ)) k (.new ns, none) w () = .ok (seen k ts, r)) ∧
      ∀ k, ∃ os r r', binTreesEnd.calls ((c.pruneDepth d).binCollPipe (Api.binCollPipe N σ)) k (.new ns, none) w () =
        .ok (os, r) ∧ Api.binPruneDepthEach d ts k = .ok (os, r') := by
  refine ⟨(c.binTrees w (ns.map binTreeOf)).2, fun k => (c.binCollTrees ns k w).imp fun _ h => h.1, fun k => ?_⟩
  obtain ⟨r, h1, -⟩ := (c.pruneDepth d).binCollTrees ns k w
  obtain ⟨r', h3⟩ := C37_binary_pruneDepth d (c.binTrees w (ns.map binTreeOf)).2 k
  rw [c.binTrees_pruneDepth hs d (ns.map binTreeOf) w w] at h1
  simp only [binTreeOf_binTree] at h3
  exact ⟨_, r, r', h1, h3⟩

example : ∃ ts, (∀ k, ∃ r, binTreesEnd.calls (pathChain.binCollPipe (Api.binCollPipe (BinTree Nat) Nat)) k (.new threeBins, none) 0 () =
      .ok (seen k ts, r)) ∧
    ∀ k, ∃ os r r', binTreesEnd.calls ((pathChain.map fun k v => (k + v, 2 * v)).binCollPipe (Api.binCollPipe (BinTree Nat) Nat)) k
        (.new threeBins, none) 0 () = .ok (os, r) ∧
      Api.binMapEach (fun k v => (k + v, 2 * v)) ts k 0 = .ok (os, r') ∧ (ts.length < k → r = r') :=
  C64_binary_then_map pathChain pathChain_stateless _ threeBins 0

end Binary

end TreeIter
