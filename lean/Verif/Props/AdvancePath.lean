import Verif.Lemmas.AdvancePath
import Verif.Props.Advance

/-! # `fold_path` and binary `fold_tree` on pipelines advanced by hand (C70) -/

universe u v w x y

namespace TreeIter

section General
variable {N : Type u} {V W : Type v} [TreeNode N V] {σ : Type w} {τ : Type x} {O : Type y}

/-- C70: `fold_path` after `k` calls of `next()` never panics, folds the values that are left arranged by their depths, and tells its
closure the positions of `Spec/AdvancePath`, made of the positions `l` that `current_path()` would report for what is left. -/
theorem C70_fold_path_partial (c : Chain σ V W) (hc : c.pathsFirst = true) (n : N) (hn : c.noPaths = true ∨ ArityOk n)
    (g : τ → List O → List Nat → W → τ × O) (k : Nat) (w : σ) (r : τ) :
    ∃ s' w' l, (c.pipe (Track.pipe σ)).advance k (c.init (Api.start n)) w = .ok (s', w') ∧
      (c.pipe (Track.pipe σ)).emits s' w' = .ok (l, ((treeOf n).runS c.step w []).1) ∧
      (l.map fun x => (x.2.length, x.1)) = ((((treeOf n).runS c.step w []).2.map (Tree.levels 0)).getD []).drop k ∧
      (c.pipe (Track.pipe σ)).foldPath g s' w' r =
        .ok ((foldO (Tree.foldS (toldClosure g)) r (regroupTold l)).2,
          (foldO (Tree.foldS (toldClosure g)) r (regroupTold l)).1, ((treeOf n).runS c.step w []).1) := by
  obtain ⟨s', w', l, h1, h2, h3, h4⟩ := c.advanced hc n hn k w
  exact ⟨s', w', l, h1, h2, h4, Pipe.foldPath_told h2 h3 g r⟩

/-- C70: if no stage removes nodes, these positions are made of the real paths in the tree. -/
theorem C70_fold_path_exact (c : Chain σ V W) (hc : c.keepsAll = true) (n : N) (hn : ArityOk n)
    (g : τ → List O → List Nat → W → τ × O) (k : Nat) (w : σ) (r : τ) :
    ∃ s' w' o, o = regroupTold (((((treeOf n).runS c.step w []).2.map fun t => (t.atPaths []).preorder).getD []).drop k) ∧
      (c.pipe (Track.pipe σ)).advance k (c.init (Api.start n)) w = .ok (s', w') ∧
      (c.pipe (Track.pipe σ)).foldPath g s' w' r =
        .ok ((foldO (Tree.foldS (toldClosure g)) r o).2, (foldO (Tree.foldS (toldClosure g)) r o).1,
          ((treeOf n).runS c.step w []).1) := by
  obtain ⟨A, v, R', h1, h2, h3, h4, h5⟩ := Chain.enum (Track.enum (N := N) σ) c (c.keepsAll_pathsFirst hc)
  obtain ⟨a', h⟩ := h5 _ _ _ (rel_start n)
  obtain ⟨s', w', k1, k2⟩ := h1.advance k w h
  obtain ⟨g1, g2⟩ := visitT_through (h4 hc) h2 ((treeOf n).wpaths []) a' w
  simp only [visitL, List.append_nil] at k2
  rw [g1, g2, wpaths_treeOf hn, (decOf_keepsAll (c.keepsAll_step hc) (treeOf n) w []).1,
    (decOf_tree c.step (treeOf n) w []).1] at k2
  obtain ⟨t', ht'⟩ := Option.isSome_iff_exists.1 (decOf_keepsAll (c.keepsAll_step hc) (treeOf n) w []).2
  refine ⟨s', w', _, rfl, k1, ?_⟩
  refine Pipe.foldPath_told ?_ ?_ g r
  · rw [k2, ht']
    simp [Tree.preorderL_eq]
  · intro x hx
    have := tail_drop_mem hx
    rw [ht'] at this
    have hp := Dec.tree_pathOk (dec := decOf c.step) (w := w) (wpaths_labPath (treeOf n) [])
    rw [wpaths_treeOf hn, (decOf_keepsAll (c.keepsAll_step hc) (treeOf n) w []).1, ht'] at hp
    exact (hp _ rfl).depthOk.tail_ne_nil x this

example := C70_fold_path_partial sampleChain rfl sampleTree (.inl rfl) (fun r os p v => (r ++ [(p, v)], os.sum + v)) 1 [] []

/-- C70, the claims one would like: the closure is told the path of the node in the tree, or its place in the tree that
`collect_tree` collects.  Both are false: of `0 [9, 1 [2, 3]]`, after two calls of `next()`, `1 [2 [3]]` is collected, and the
closure is told `[1]` for 2 and `[1, 0]` for 3. -/
theorem C70_fold_path_false :
    let t : Tree Nat := .node 0 [.node 9 [], .node 1 [.node 2 [], .node 3 []]]
    afterNext (Track.pipe (N := Tree Nat) Unit) 2 (Api.start t) ()
      (fun s w => (Track.pipe Unit).foldPath (fun r (_ : List Unit) p v => (r ++ [(v, p)], ())) s w []) =
      some (some (), [(3, [1, 0]), (2, [1]), (1, [])], ()) ∧
    ((t.atPaths []).preorder.drop 2 = [(1, [1]), (2, [1, 0]), (3, [1, 1])]) ∧
    afterNext (Track.pipe (N := Tree Nat) Unit) 2 (Api.start t) () (Track.pipe Unit).collectTree =
      some (some (.node 1 [.node 2 [.node 3 []]]), ()) ∧
    toldPaths ((t.atPaths []).preorder.drop 2) = [(([], 1), [1]), (([1], 2), [1, 0]), (([1, 0], 3), [1, 1])] := by decide +kernel

end General

section Binary
variable {N : Type u} {V W : Type v} [BinNode N V] {σ : Type w} {τ : Type x} {O : Type y}

/-- C70 for binary trees: `fold_path` after `k` calls of `next()`.  The values that are left are arranged by their depths; the closure is
told the positions of `Spec/AdvancePath`, and a result goes into the slot that ends the position, whatever was there before. -/
theorem C70_binary_fold_path_exact (c : Chain σ V W) (n : N) (g : τ → Option O × Option O → List Nat → W → τ × O) (k : Nat)
    (w : σ) (r : τ) :
    ∃ s' w' o, o = regroupTold (((((binTreeOf n).runS c.step w []).2.map fun t => (t.emitted []).preorder).getD []).drop k) ∧
      (c.binPipe (Track.binPipe σ)).advance k (Api.binStart n) w = .ok (s', w') ∧
      (c.binPipe (Track.binPipe σ)).binFoldPath g s' w' r =
        .ok ((foldO (Tree.foldS (toldSlots g)) r o).2.map Prod.snd, (foldO (Tree.foldS (toldSlots g)) r o).1,
          ((binTreeOf n).runS c.step w []).1) := by
  obtain ⟨s', w', h1, h2⟩ := c.binAdvanced n k w
  exact ⟨s', w', _, rfl, h1, Pipe.binFoldPath_told h2 (binLeft_tail _ k) (binLeft_slots _ k) g r⟩

/-- C70 for binary trees: `fold_tree` likewise, with a closure that is not told the position. -/
theorem C70_binary_fold_exact (c : Chain σ V W) (n : N) (g : τ → Option O × Option O → W → τ × O) (k : Nat) (w : σ) (r : τ) :
    ∃ s' w' o, o = regroupTold (((((binTreeOf n).runS c.step w []).2.map fun t => (t.emitted []).preorder).getD []).drop k) ∧
      (c.binPipe (Track.binPipe σ)).advance k (Api.binStart n) w = .ok (s', w') ∧
      (c.binPipe (Track.binPipe σ)).binFoldTree g s' w' r =
        .ok ((foldO (Tree.foldS (toldSlots fun t os _ v => g t os v)) r o).2.map Prod.snd,
          (foldO (Tree.foldS (toldSlots fun t os _ v => g t os v)) r o).1, ((binTreeOf n).runS c.step w []).1) :=
  C70_binary_fold_path_exact c n (fun t os _ v => g t os v) k w r

example := C70_binary_fold_path_exact sampleChain sampleBin
  (fun r (os : Option Nat × Option Nat) p v => (r ++ [(p, v)], os.1.getD 0 + v)) 1 [] []

/-- On the tree of `C70_binary_fold_false` the ends of the positions told make 5 a left child and 3 a right child of 2. -/
example : regroupTold ((advBin.emitted []).preorder.drop 2) =
    some (.node ([], 2) [.node ([0, 1], 3) [], .node ([0], 5) []]) := by decide +kernel

end Binary

end TreeIter
