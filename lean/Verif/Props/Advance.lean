import Verif.Lemmas.AdvanceBin
import Verif.Props.Chain

/-! # Pipelines advanced by hand (C70)

`p.next(); …; p.collect_tree()`: what `collect_tree` and `fold_tree` make of the items that are left. -/

universe u v w x y

namespace TreeIter

section General
variable {N : Type u} {V W : Type v} [TreeNode N V] {σ : Type w} {τ : Type x} {O : Type y}

/-- C70: `collect_tree` after `k` calls of `next()` never panics, and arranges the items that are left by nothing but their
depths: the first becomes the root, each later one the last child of the last node one level above it, or of the last node if
there is none that deep.  The closures have then been called exactly as by `collect_tree` alone. -/
theorem C70_collect_partial (c : Chain σ V W) (hc : c.pathsFirst = true) (n : N) (hn : c.noPaths = true ∨ ArityOk n)
    (k : Nat) (w : σ) : ∃ s' w', (c.pipe (Track.pipe σ)).advance k (c.init (Api.start n)) w = .ok (s', w') ∧
      (c.pipe (Track.pipe σ)).collectTree s' w' =
        .ok (regroup (((((treeOf n).runS c.step w []).2.map (Tree.levels 0)).getD []).drop k),
          ((treeOf n).runS c.step w []).1) := by
  obtain ⟨s', w', l, h1, h2, h3, h4⟩ := c.advanced hc n hn k w
  exact ⟨s', w', h1, by rw [Pipe.collectTree_advanced h2 h3, h4]⟩

theorem levels_snd (t : Tree V) : ∀ d, (t.levels d).map Prod.snd = t.preorder := by
  induction t using Tree.ind with
  | h a cs ih =>
    intro d
    rw [Tree.levels, Tree.preorder_node, List.map_cons]
    congr 1
    induction cs with
    | nil => rfl
    | cons c cs ihc =>
      rw [Tree.levelsL, List.map_append, ih c (by simp), ihc fun c hc => ih c (by simp [hc]), List.flatMap_cons]

/-- C70: no value is lost, made up or moved: the collected tree has, in preorder, exactly the values that are left.  In
particular nothing is collected only when nothing is left. -/
theorem C70_values (c : Chain σ V W) (hc : c.pathsFirst = true) (n : N) (hn : c.noPaths = true ∨ ArityOk n)
    (k : Nat) (w : σ) : ∃ s' w' o, (c.pipe (Track.pipe σ)).advance k (c.init (Api.start n)) w = .ok (s', w') ∧
      (c.pipe (Track.pipe σ)).collectTree s' w' = .ok (o, ((treeOf n).runS c.step w []).1) ∧
      (o.map Tree.preorder).getD [] = ((((treeOf n).runS c.step w []).2.map Tree.preorder).getD []).drop k := by
  obtain ⟨s', w', h1, h2⟩ := C70_collect_partial c hc n hn k w
  refine ⟨s', w', _, h1, h2, ?_⟩
  rw [preorder_regroup, List.map_drop]
  cases ((treeOf n).runS c.step w []).2 with
  | none => rfl
  | some t => simp [levels_snd]

/-- C70: `fold_tree` after `k` calls of `next()` folds the tree that `collect_tree` would have collected. -/
theorem C70_fold_partial (c : Chain σ V W) (hc : c.pathsFirst = true) (n : N) (hn : c.noPaths = true ∨ ArityOk n)
    (g : τ → List O → W → τ × O) (k : Nat) (w : σ) (r : τ) :
    ∃ s' w' o, (c.pipe (Track.pipe σ)).advance k (c.init (Api.start n)) w = .ok (s', w') ∧
      (c.pipe (Track.pipe σ)).collectTree s' w' = .ok (o, ((treeOf n).runS c.step w []).1) ∧
      o = regroup (((((treeOf n).runS c.step w []).2.map (Tree.levels 0)).getD []).drop k) ∧
      (c.pipe (Track.pipe σ)).foldTree g s' w' r =
        .ok ((foldO (Tree.foldS g) r o).2, (foldO (Tree.foldS g) r o).1, ((treeOf n).runS c.step w []).1) := by
  obtain ⟨s', w', l, h1, h2, h3, h4⟩ := c.advanced hc n hn k w
  exact ⟨s', w', _, h1, by rw [Pipe.collectTree_advanced h2 h3, h4], rfl, by rw [Pipe.foldTree_advanced h2 h3, h4]⟩

example := C70_collect_partial sampleChain rfl sampleTree (.inl rfl) 1 []

example := C70_values sampleChain rfl sampleTree (.inl rfl) 1 []

example := C70_fold_partial sampleChain rfl sampleTree (.inl rfl) (fun r os v => (r + 1, os.sum + v)) 1 [] 0

/-- Collecting (or folding) after `k` calls of `next()`. -/
def afterNext {S : Type u} {V : Type v} {σ : Type w} {A : Type x} (M : Pipe S V σ) (k : Nat) (s : S) (w : σ)
    (fin : S → σ → Except Panic A) : Option A :=
  match M.advance k s w with
  | .error _ => none
  | .ok (s', w') => (fin s' w').toOption

/-- After the root of the sample tree has been taken by hand, its first child becomes the root and the second child, which
was at the same depth, a child of the first. -/
example : afterNext (Track.pipe (N := Tree Nat) Unit) 1 (Api.start sampleTree) () (Track.pipe Unit).collectTree =
    some (some (.node 1 [.node 3 [.node 4 []], .node 2 [.node 5 []]]), ()) := by decide +kernel

/-- C70, the claim one would like: if what is left is a whole subtree, that subtree is collected. It is false: of
`0 [1 [2, 3]]`, after one `next()`, `1 [2 [3]]` is collected, and not `1 [2, 3]`. -/
theorem C70_collect_false :
    let t : Tree Nat := .node 0 [.node 1 [.node 2 [], .node 3 []]]
    afterNext (Track.pipe (N := Tree Nat) Unit) 1 (Api.start t) () (Track.pipe Unit).collectTree =
      some (some (.node 1 [.node 2 [.node 3 []]]), ()) ∧
    some (some (.node 1 [.node 2 [.node 3 []]]), ()) ≠ some (t.children.head?, ()) := by decide +kernel

/-- And `fold_tree` (here: the height of the tree) goes wrong with it. -/
theorem C70_fold_false :
    let t : Tree Nat := .node 0 [.node 1 [.node 2 [], .node 3 []]]
    afterNext (Track.pipe (N := Tree Nat) Unit) 1 (Api.start t) ()
      (fun s w => (Track.pipe Unit).foldTree (fun r os _ => (r, os.foldl max 0 + 1)) s w ()) = some (some 3, (), ()) := by
  decide +kernel

end General

section Binary
variable {N : Type u} {V W : Type v} [BinNode N V] {σ : Type w} {O : Type y}

/-- C70 for binary trees: `collect_tree` after `k` calls of `next()` never panics; the first value that is left becomes the
root, and each later one goes into the slot that ends its path, of the last node one level above it (or of the last node if
there is none that deep), whatever was in that slot before. -/
theorem C70_binary_collect_partial (c : Chain σ V W) (n : N) (k : Nat) (w : σ) :
    ∃ s' w', (c.binPipe (Track.binPipe σ)).advance k (Api.binStart n) w = .ok (s', w') ∧
      (c.binPipe (Track.binPipe σ)).binCollectTree s' w' =
        .ok (regroup2 (((((binTreeOf n).runS c.step w []).2.map fun t => (t.emitted []).preorder).getD []).drop k),
          ((binTreeOf n).runS c.step w []).1) := by
  obtain ⟨s', w', h1, h2⟩ := c.binAdvanced n k w
  exact ⟨s', w', h1, Pipe.binCollectTree_advanced h2 (binLeft_steps _ k)⟩

/-- C70 for binary trees: `fold_tree` after `k` calls of `next()` never panics, and calls its closure exactly once for each
value that is left, children before the nodes that come before them and are less deep; it has a result if anything is left. -/
theorem C70_binary_fold_partial (c : Chain σ V W) (n : N) (g : Option O × Option O → W → O) (k : Nat) (w : σ) :
    ∃ s' w' o, (c.binPipe (Track.binPipe σ)).advance k (Api.binStart n) w = .ok (s', w') ∧
      (c.binPipe (Track.binPipe σ)).binFoldTree (fun t os v => (t ++ [v], g os v)) s' w' [] =
        .ok (o, ((regroup ((((((binTreeOf n).runS c.step w []).2.map fun t => (t.emitted []).preorder).getD []).drop k).map
          fun x => (x.2.length, x.1))).map Tree.postorder).getD [], ((binTreeOf n).runS c.step w []).1) ∧
      (o = none ↔ (((((binTreeOf n).runS c.step w []).2.map fun t => (t.emitted []).preorder).getD []).drop k) = []) := by
  obtain ⟨s', w', h1, h2⟩ := c.binAdvanced n k w
  obtain ⟨o, h3, h4⟩ := Pipe.binFoldPath_advanced (O := O) h2 (binLeft_tail _ k) (binLeft_slots _ k)
    (f := fun t os _ v => (t ++ [v], g os v)) fun _ _ _ _ => rfl
  refine ⟨s', w', o, h1, h3, ?_⟩
  rw [← Option.isNone_iff_eq_none, ← Option.not_isSome, h4, binLeft]
  cases (((((binTreeOf n).runS c.step w []).2.map fun t => (t.emitted []).preorder).getD []).drop k) <;> simp [regroup]

example := C70_binary_collect_partial sampleChain sampleBin 1 []

example := C70_binary_fold_partial sampleChain sampleBin (fun os v => os.1.getD 0 + os.2.getD 0 + v) 1 []

/-- A tree for the concrete cases: 0 with the children 1 and 5; 1 with the children 2 and 3. -/
def advBin : BinTree Nat :=
  .node 0 (some (.node 1 (some (.node 2 none none)) (some (.node 3 none none)))) (some (.node 5 none none))

/-- C70 for binary trees, the claim one would like: the values that are left are collected.  It is false: after two calls of
`next()` 2, 3 and 5 are left, and `collect_tree` gives 2 with the right child 5; 3 has been overwritten. -/
theorem C70_binary_values_false :
    afterNext (Track.binPipe (N := BinTree Nat) Unit) 2 (Api.binStart advBin) () (Track.binPipe Unit).binCollectTree =
      some (some (.node 2 none (some (.node 5 none none))), ()) ∧
    advBin.toTree.preorder.drop 2 = [2, 3, 5] := by decide +kernel

/-- C70 for binary trees, a further claim one would like: `fold_tree` folds what `collect_tree` collects.  It is false: here
`fold_tree` (which keeps its own record of slots) sees 2 with the left child 5 and the right child 3. -/
theorem C70_binary_fold_false :
    afterNext (Track.binPipe (N := BinTree Nat) Unit) 2 (Api.binStart advBin) ()
      (fun s w => (Track.binPipe Unit).binFoldTree (fun r os v => (r, BinTree.node v os.1 os.2)) s w ()) =
      some (some (.node 2 (some (.node 5 none none)) (some (.node 3 none none))), (), ()) := by decide +kernel

end Binary

end TreeIter
