import Verif.Lemmas.LazyPipe
import Verif.Props.Chain
import Verif.Props.Lazy

/-! # Pipelines on infinite trees (C60) -/

universe u v w x y

namespace TreeIter

section General
variable {N : Type u} {V W : Type v} [SplitNode N V] {σ : Type w} {τ : Type x} {O : Type y}

/-- C60: with a `prune_depth(d)` stage among any others, `collect_tree` ends on every tree, and gives what it gives on
the finite tree of the nodes down to depth `d`; no loop of the pipeline is entered more often than that tree has nodes,
and once more. -/
theorem C60_like_cut (c : Chain σ V W) (d : Nat) (hc : c.cutsAt d = true) (n : N) (fuel : Nat)
    (hf : (cut d n).size < fuel) (w : σ) :
    (c.lazyPipe (Track.source σ) fuel).collectTree fuel (c.init (Api.lazyStart n)) w =
      (c.pipe (Track.pipe σ)).collectTree (c.init (Api.start ((cut d n).map val))) w := by
  obtain ⟨G, R, h1, h2, h3⟩ := c.inStep (Track.inStep σ d fuel) (fun _ => rfl) (.inl ⟨n, rfl, rfl⟩)
  refine h1.collectTree (h3 hc) h2 ?_ w
  rw [c.size_init]
  exact (Track.size_cut_start σ d n).symm ▸ hf

/-- C60, the result: the stages, one after another, applied to every node down to depth `d` in preorder.  As in C36, a
`prune_path` must not come after a `prune` or `prune_path`, and needs the number of children to be representable. -/
theorem C60_collect (c : Chain σ V W) (d : Nat) (hc : c.cutsAt d = true) (hp : c.pathsFirst = true) (n : N)
    (hn : c.noPaths = true ∨ ArityOk ((cut d n).map val)) (fuel : Nat) (hf : (cut d n).size < fuel) (w : σ) :
    (c.lazyPipe (Track.source σ) fuel).collectTree fuel (c.init (Api.lazyStart n)) w =
      .ok ((((cut d n).map val).runS c.step w []).2, (((cut d n).map val).runS c.step w []).1) := by
  rw [C60_like_cut c d hc n fuel hf w, C36_collect c hp _ hn, treeOf_tree]

/-- C60 for `fold_tree`. -/
theorem C60_fold (c : Chain σ V W) (d : Nat) (hc : c.cutsAt d = true) (hp : c.pathsFirst = true) (n : N)
    (hn : c.noPaths = true ∨ ArityOk ((cut d n).map val)) (fuel : Nat) (hf : (cut d n).size < fuel)
    (g : τ → List O → W → τ × O) (w : σ) (r : τ) :
    (c.lazyPipe (Track.source σ) fuel).foldTree fuel g (c.init (Api.lazyStart n)) w r =
      .ok ((foldO (Tree.foldS g) r (((cut d n).map val).runS c.step w []).2).2,
        (foldO (Tree.foldS g) r (((cut d n).map val).runS c.step w []).2).1,
        (((cut d n).map val).runS c.step w []).1) := by
  obtain ⟨G, R, h1, h2, h3⟩ := c.inStep (Track.inStep σ d fuel) (fun _ => rfl) (.inl ⟨n, rfl, rfl⟩)
  have := C36_fold c hp ((cut d n).map val) hn g w r
  rw [treeOf_tree] at this
  rw [← this]
  refine h1.foldTree (h3 hc) h2 ?_ g w r
  rw [c.size_init]
  exact (Track.size_cut_start σ d n).symm ▸ hf

/-- C60 for a client that calls `next` until it gives `None`, asking for the path after each item. -/
theorem C60_emits (c : Chain σ V W) (d : Nat) (hc : c.cutsAt d = true) (n : N) (fuel : Nat)
    (hf : (cut d n).size < fuel) (w : σ) :
    (c.lazyPipe (Track.source σ) fuel).emits fuel (c.init (Api.lazyStart n)) w =
      (c.pipe (Track.pipe σ)).emits (c.init (Api.start ((cut d n).map val))) w := by
  obtain ⟨G, R, h1, h2, h3⟩ := c.inStep (Track.inStep σ d fuel) (fun _ => rfl) (.inl ⟨n, rfl, rfl⟩)
  refine h1.emits (h3 hc) h2 ?_ w
  rw [c.size_init]
  exact (Track.size_cut_start σ d n).symm ▸ hf

theorem truncate_cut (d : Nat) (n : N) : ((cut d n).map val).truncate d = (cut d n).map val := by
  induction d generalizing n with
  | zero => rw [cut, Tree.map_node, Tree.truncate]; rfl
  | succ d ih =>
    rw [cut, Tree.map_node, Tree.truncate, List.map_map]
    congr 1
    generalize kids n = l
    induction l with
    | nil => rfl
    | cons c l ihl =>
      simp only [List.map_cons, Tree.truncateL, Function.comp_apply, ih, List.cons.injEq, true_and]
      exact ihl

/-- C60: `prune_depth(d)` of any tree, even an infinite one, is the tree of the values down to depth `d`. -/
theorem C60_prune_depth (n : N) (d fuel : Nat) (hf : (cut d n).size < fuel) :
    Api.lazyPruneDepth fuel d n = .ok ((cut d n).map val, ()) := by
  have h := C60_like_cut (.pruneDepth .source d : Chain Unit V V) d (by simp [Chain.cutsAt]) n fuel hf ()
  have h2 := C33_general d ((cut d n).map val)
  rw [treeOf_tree, truncate_cut] at h2
  rw [← h2, Api.pruneDepth, Api.lazyPruneDepth]
  exact congrArg unwrapRes h

/-- C60, why the stage is needed: where every node has a child, `collect_tree` alone never ends. -/
theorem C60_endless (h : ∀ m : N, kids m ≠ []) (n : N) (fuel : Nat) (w : σ) :
    ((.source : Chain σ V V).lazyPipe (Track.source σ) fuel).collectTree fuel (Api.lazyStart n) w = .error .outOfFuel :=
  Track.collectTree_endless σ h n fuel w

end General

/-- The infinite heap, where node `i` has the children `2 i + 1` and `2 i + 2`: the first levels of it. -/
example : (Api.lazyPruneDepth 8 2 (⟨0⟩ : Heap)).toOption.map Prod.fst =
    some (.node 0 [.node 1 [.node 3 [], .node 4 []], .node 2 [.node 5 [], .node 6 []]]) ∧
    (cut 2 (⟨0⟩ : Heap)).size = 7 := by decide +kernel

/-- The values are doubled, all that is below 4 is dropped, and the walk ends at depth 2; the world counts the calls of the
first closure. -/
def heapChain : Chain Nat Nat Nat := .pruneDepth (.prune (.map .source fun w v => (w + 1, 2 * v)) fun w v => (w, v == 4)) 2

example := C60_like_cut heapChain 2 rfl (⟨0⟩ : Heap) 8 (by decide +kernel) 0

example := C60_collect heapChain 2 rfl rfl (⟨0⟩ : Heap) (.inl rfl) 8 (by decide +kernel) 0

example := C60_fold heapChain 2 rfl rfl (⟨0⟩ : Heap) (.inl rfl) 8 (by decide +kernel) (fun r os v => (r + 1, os.sum + v)) 0 0

example := C60_emits heapChain 2 rfl (⟨0⟩ : Heap) 8 (by decide +kernel) 0

example := C60_prune_depth (⟨0⟩ : Heap) 2 8 (by decide +kernel)

example : ((heapChain.lazyPipe (Track.source Nat) 8).collectTree 8 (heapChain.init (Api.lazyStart (⟨0⟩ : Heap))) 0).toOption =
    some (some (.node 0 [.node 2 [.node 6 [], .node 8 []]]), 5) ∧ heapChain.cutsAt 2 = true ∧
    heapChain.pathsFirst = true ∧ heapChain.noPaths = true := by decide +kernel

section Binary
variable {N : Type u} {V W : Type v} [SplitNode2 N V] {σ : Type w} {τ : Type x} {O : Type y}

/-- C60 for binary trees; here `prune_path` may be anywhere. -/
theorem C60_binary_collect (c : Chain σ V W) (d : Nat) (hc : c.cutsAt d = true) (n : N) (fuel : Nat)
    (hf : (cut2 d n).size < fuel) (w : σ) :
    (c.binLazyPipe (Track.binSource σ) fuel).binCollectTree fuel (Api.binLazyStart n) w =
      .ok ((((cut2 d n).map val2).runS c.step w []).2, (((cut2 d n).map val2).runS c.step w []).1) := by
  obtain ⟨R, h1, h3⟩ := c.binInStep (Track.binInStep (N := N) σ d fuel)
  have := C36_binary_collect c ((cut2 d n).map val2) w
  rw [binTreeOf_binTree] at this
  rw [← this]
  refine h1.binCollectTree (h3 hc) (.inl ⟨n, rfl, rfl⟩) ?_ w
  rw [c.bin_size]
  exact (Track.size_binCut_start σ d n).symm ▸ hf

/-- C60 for binary trees and `fold_path`. -/
theorem C60_binary_foldPath (c : Chain σ V W) (d : Nat) (hc : c.cutsAt d = true) (n : N) (fuel : Nat)
    (hf : (cut2 d n).size < fuel) (g : τ → Option O × Option O → List Nat → W → τ × O) (w : σ) (r : τ) :
    (c.binLazyPipe (Track.binSource σ) fuel).binFoldPath fuel g (Api.binLazyStart n) w r =
      .ok ((foldO (fun r t => BinTree.foldPathS g r [] t) r (((cut2 d n).map val2).runS c.step w []).2).2,
        (foldO (fun r t => BinTree.foldPathS g r [] t) r (((cut2 d n).map val2).runS c.step w []).2).1,
        (((cut2 d n).map val2).runS c.step w []).1) := by
  obtain ⟨R, h1, h3⟩ := c.binInStep (Track.binInStep (N := N) σ d fuel)
  have := C36_binary_foldPath c ((cut2 d n).map val2) g w r
  rw [binTreeOf_binTree] at this
  rw [← this]
  refine h1.binFoldPath (h3 hc) (.inl ⟨n, rfl, rfl⟩) ?_ g w r
  rw [c.bin_size]
  exact (Track.size_binCut_start σ d n).symm ▸ hf

theorem truncate_cut2 (d : Nat) (n : N) : ((cut2 d n).map val2).truncate d = (cut2 d n).map val2 := by
  induction d generalizing n with
  | zero => rw [cut2, BinTree.map, BinTree.truncate]; rfl
  | succ d ih =>
    rw [cut2, BinTree.map, BinTree.truncate]
    congr 1
    · cases (split2 n).2.1 with
      | none => rfl
      | some c => simpa [BinTree.mapO, BinTree.truncateO] using ih c
    · cases (split2 n).2.2 with
      | none => rfl
      | some c => simpa [BinTree.mapO, BinTree.truncateO] using ih c

/-- C60: `prune_depth(d)` of any binary tree is the tree of the values down to depth `d`. -/
theorem C60_binary_prune_depth (n : N) (d fuel : Nat) (hf : (cut2 d n).size < fuel) :
    Api.binLazyPruneDepth fuel d n = .ok ((cut2 d n).map val2, ()) := by
  obtain ⟨R, h1, h3⟩ := (.pruneDepth .source d : Chain Unit V V).binInStep (Track.binInStep (N := N) Unit d fuel)
  have h := h1.binCollectTree (h3 (by simp [Chain.cutsAt])) (s := Api.binLazyStart n) (.inl ⟨n, rfl, rfl⟩)
    (by rw [Chain.bin_size]; exact (Track.size_binCut_start Unit d n).symm ▸ hf) ()
  have h2 := C33_binary d ((cut2 d n).map val2)
  rw [binTreeOf_binTree, truncate_cut2] at h2
  rw [← h2, Api.binPruneDepth, Api.binLazyPruneDepth]
  exact congrArg unwrapRes h

end Binary

/-- The same heap with two slots below every node. -/
structure BinHeap where
  index : Nat

instance : SplitNode2 BinHeap Nat where
  split2 h := (h.index, some ⟨2 * h.index + 1⟩, some ⟨2 * h.index + 2⟩)

example := C60_binary_collect heapChain 2 rfl (⟨0⟩ : BinHeap) 8 (by decide +kernel) 0

example := C60_binary_foldPath heapChain 2 rfl (⟨0⟩ : BinHeap) 8 (by decide +kernel)
  (fun r os p v => (r + p.length, os.1.getD 0 + os.2.getD 0 + v)) 0 0

example : (Api.binLazyPruneDepth 4 1 (⟨0⟩ : BinHeap)).toOption.map Prod.fst =
    some (.node 0 (some (.node 1 none none)) (some (.node 2 none none))) ∧ (cut2 1 (⟨0⟩ : BinHeap)).size = 3 := by
  decide +kernel

example : ((heapChain.binLazyPipe (Track.binSource Nat) 8).binCollectTree 8 (Api.binLazyStart (⟨0⟩ : BinHeap)) 0).toOption =
    some (some (.node 0 (some (.node 2 (some (.node 6 none none)) (some (.node 8 none none)))) none), 5) := by
  decide +kernel

end TreeIter
