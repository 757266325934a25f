import Verif.Lemmas.MutSlice
import Verif.Props.DepthFirst
import Verif.Props.BreadthFirst
import Verif.Props.BreadthFirstAnc
import Verif.Props.Samples

/-! # C44: writing through the ancestor slices of a mutable traversal -/

universe u v w

namespace TreeIter

variable {V : Type u} {σ : Type v} {S : Type w}

/-! ## Which cells the references of a slice stand for -/

/-- C44, references: in preorder, postorder and breadth-first order, the `k`-th slice handed out by
`…_iter_mut().attach_ancestors()` refers to the cells from the root down to the `k`-th node. -/
theorem C44_slices (t : Tree V) :
    (∃ s, Preorder.attachAncestors (Preorder.new (MutRef.mk [] t)) = .ok s ∧ ∀ k,
      nthCall Preorder.ancNext k s = (t.located.preorder.map fun p => prefixes p.path)[k]?) ∧
    (∃ s, Postorder.attachAncestors (Postorder.new (MutRef.mk [] t)) = .ok s ∧ ∀ k,
      nthCall Postorder.ancNext k s = (t.located.postorder.map fun p => prefixes p.path)[k]?) ∧
    (∃ s, Bfs.attachAncestors (Bfs.new (MutRef.mk [] t)) = .ok s ∧ ∀ k, k ≤ t.size →
      nthCallE Bfs.ancNext k s = .ok (t.located.levelOrder.map fun p => prefixes p.path)[k]?) := by
  refine ⟨?_, ?_, ?_⟩
  · obtain ⟨s, h1, h2⟩ := C06_preorder_ancestors (MutRef.mk [] t)
    refine ⟨s, h1, fun k => ?_⟩
    rw [h2, treeOf_mutRef, ← Tree.preorder_map, prefixes_located, Tree.preorder_map]
  · obtain ⟨s, h1, h2⟩ := C07_postorder_ancestors (MutRef.mk [] t)
    refine ⟨s, h1, fun k => ?_⟩
    rw [h2, treeOf_mutRef, ← Tree.postorder_map, prefixes_located, Tree.postorder_map]
  · obtain ⟨s, h1, h2⟩ := C09_bfs_ancestors (MutRef.mk [] t)
    refine ⟨s, h1, fun k hk => ?_⟩
    have hsize : (treeOf (MutRef.mk [] t)).size = t.size := by
      rw [← C09_length, treeOf_mutRef, ← Tree.levelOrder_map, prefixes_located, ← C09_length t,
        Tree.levelOrder_map, List.length_map, List.length_map]
    rw [h2 k (by omega), treeOf_mutRef, ← Tree.levelOrder_map, prefixes_located, Tree.levelOrder_map]

/-- C44, references, in-order. -/
theorem C44_slices_inorder (t : BinTree V) :
    ∃ s, Inorder.attachAncestors (Inorder.new (MutRef2.mk [] t)) = .ok s ∧ ∀ k,
      nthCallE Inorder.ancNext k s = .ok (t.located.inorder.map fun p => prefixes p.path)[k]? := by
  obtain ⟨s, h1, h2⟩ := C08_inorder_ancestors (MutRef2.mk [] t)
  refine ⟨s, h1, fun k => ?_⟩
  rw [h2, binTreeOf_mutRef, ← BinTree.inorder_map, prefixes_located2, BinTree.inorder_map]

/-! ## Loops -/

theorem forEachSlice_tree (next : S → Except Panic (Option (List (List Nat)) × S)) (s : S) (t : Tree V)
    (f : σ → List V → σ × List V) (w : σ) (k : Nat) (refs : List (Pos V))
    (hmem : ∀ p ∈ refs, p ∈ t.located.preorder)
    (hs : ∀ i, i < k → i ≤ refs.length →
      nthCallE next i s = .ok (refs.map fun p => prefixes p.path)[i]?) :
    forEachSlice next Tree.cell Tree.setCell f k s t w =
      .ok (((refs.map Pos.path).take k).foldl (visitAlong Tree.cell Tree.setCell f) (t, w)) := by
  refine forEachSlice_spec next Tree.cell Tree.setCell f
    (fun m => ∀ q, (m.cell q).isSome = (t.cell q).isSome) k s _ t w (fun i hi hl => ?_) (fun _ => rfl) ?_ ?_
  · rw [hs i hi (by simpa using hl), List.map_map]
    rfl
  · intro m hm p hp a ha
    obtain ⟨q, hq, rfl⟩ := List.mem_map.1 hp
    rw [prefixes, List.mem_map] at ha
    obtain ⟨i, _, rfl⟩ := ha
    rw [hm]
    exact cell_prefix t _ i (by rw [cell_of_mem_located t q (hmem q hq)]; rfl)
  · intro m a x hm q
    rw [cell_setCell, hm]

theorem forEachSlice_binTree (next : S → Except Panic (Option (List (List Nat)) × S)) (s : S) (t : BinTree V)
    (f : σ → List V → σ × List V) (w : σ) (k : Nat) (refs : List (Pos V))
    (hmem : ∀ p ∈ refs, p ∈ t.located.toTree.preorder)
    (hs : ∀ i, i < k → i ≤ refs.length →
      nthCallE next i s = .ok (refs.map fun p => prefixes p.path)[i]?) :
    forEachSlice next BinTree.cell BinTree.setCell f k s t w =
      .ok (((refs.map Pos.path).take k).foldl (visitAlong BinTree.cell BinTree.setCell f) (t, w)) := by
  refine forEachSlice_spec next BinTree.cell BinTree.setCell f
    (fun m => ∀ q, (m.cell q).isSome = (t.cell q).isSome) k s _ t w (fun i hi hl => ?_) (fun _ => rfl) ?_ ?_
  · rw [hs i hi (by simpa using hl), List.map_map]
    rfl
  · intro m hm p hp a ha
    obtain ⟨q, hq, rfl⟩ := List.mem_map.1 hp
    rw [prefixes, List.mem_map] at ha
    obtain ⟨i, _, rfl⟩ := ha
    rw [hm]
    exact cell_prefix2 t _ i (by rw [cell_of_mem_located2 t q (hmem q hq)]; rfl)
  · intro m a x hm q
    rw [cell_setCell2, hm]

/-- C44, preorder: the loop does to the tree in memory what visiting its paths in preorder, each time rewriting the
cells from the root down, does. -/
theorem C44_preorder (t : Tree V) (f : σ → List V → σ × List V) (w : σ) :
    ∃ s, Preorder.attachAncestors (Preorder.new (MutRef.mk [] t)) = .ok s ∧ ∀ k,
      forEachSlice (okNext Preorder.ancNext) Tree.cell Tree.setCell f k s t w =
        .ok (((t.located.preorder.map Pos.path).take k).foldl (visitAlong Tree.cell Tree.setCell f) (t, w)) := by
  obtain ⟨s, h1, h2⟩ := (C44_slices t).1
  exact ⟨s, h1, fun k => forEachSlice_tree _ s t f w k _ (fun _ h => h) fun i _ _ => by
    rw [nthCallE_okNext, h2]⟩

/-- C44, postorder. -/
theorem C44_postorder (t : Tree V) (f : σ → List V → σ × List V) (w : σ) :
    ∃ s, Postorder.attachAncestors (Postorder.new (MutRef.mk [] t)) = .ok s ∧ ∀ k,
      forEachSlice (okNext Postorder.ancNext) Tree.cell Tree.setCell f k s t w =
        .ok (((t.located.postorder.map Pos.path).take k).foldl (visitAlong Tree.cell Tree.setCell f) (t, w)) := by
  obtain ⟨s, h1, h2⟩ := (C44_slices t).2.1
  exact ⟨s, h1, fun k => forEachSlice_tree _ s t f w k _
    (fun _ h => (postorder_perm_preorder _).mem_iff.1 h) fun i _ _ => by rw [nthCallE_okNext, h2]⟩

/-- C44, breadth-first: in any number of rounds the loop never panics and rewrites the paths in level order. -/
theorem C44_bfs (t : Tree V) (f : σ → List V → σ × List V) (w : σ) :
    ∃ s, Bfs.attachAncestors (Bfs.new (MutRef.mk [] t)) = .ok s ∧ ∀ k,
      forEachSlice Bfs.ancNext Tree.cell Tree.setCell f k s t w =
        .ok (((t.located.levelOrder.map Pos.path).take k).foldl (visitAlong Tree.cell Tree.setCell f) (t, w)) := by
  obtain ⟨s, h1, h2⟩ := (C44_slices t).2.2
  refine ⟨s, h1, fun k => forEachSlice_tree _ s t f w k _
    (fun _ h => (levelOrder_perm_preorder _).mem_iff.1 h) fun i _ hi => h2 i ?_⟩
  rw [← C09_length, List.length_map]
  exact hi

/-- C44, in-order. -/
theorem C44_inorder (t : BinTree V) (f : σ → List V → σ × List V) (w : σ) :
    ∃ s, Inorder.attachAncestors (Inorder.new (MutRef2.mk [] t)) = .ok s ∧ ∀ k,
      forEachSlice Inorder.ancNext BinTree.cell BinTree.setCell f k s t w =
        .ok (((t.located.inorder.map Pos.path).take k).foldl
          (visitAlong BinTree.cell BinTree.setCell f) (t, w)) := by
  obtain ⟨s, h1, h2⟩ := C44_slices_inorder t
  exact ⟨s, h1, fun k => forEachSlice_binTree _ s t f w k _
    (fun _ h => (inorder_perm_preorder _).mem_iff.1 h) fun i _ _ => h2 i⟩

/-- A body that adds one to every value from the root down: every node ends up increased by the size of its subtree. -/
def addOne (w : Nat) (xs : List Nat) : Nat × List Nat := (w, xs.map (· + 1))

example : (match Bfs.attachAncestors (Bfs.new (MutRef.mk [] sampleTree)) with
    | .ok s =>
      match forEachSlice Bfs.ancNext Tree.cell Tree.setCell addOne 20 s sampleTree 0 with
      | .ok r => r.1.preorder
      | .error _ => []
    | .error _ => []) = [0 + 6, 1 + 3, 3 + 1, 4 + 1, 2 + 2, 5 + 1] := by decide +kernel

example : (match Inorder.attachAncestors (Inorder.new (MutRef2.mk [] sampleBin)) with
    | .ok s =>
      match forEachSlice Inorder.ancNext BinTree.cell BinTree.setCell addOne 3 s sampleBin 0 with
      | .ok r => r.1.inorder
      | .error _ => []
    | .error _ => []) = [1 + 2, 3 + 1, 0 + 3, 4, 2] := by decide +kernel

end TreeIter
