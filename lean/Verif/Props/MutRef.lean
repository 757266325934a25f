import Verif.Lemmas.MutRef
import Verif.Props.DepthFirst
import Verif.Props.BreadthFirst
import Verif.Props.Leaves
import Verif.Props.Samples

/-! # C43: loops over `…_iter_mut` update every cell in place, once, in traversal order -/

universe u v w x

namespace TreeIter

variable {V : Type u} {σ : Type v} {S : Type w}

/-! ## Helpers -/

theorem forEachMut_tree (next : S → Option (List Nat) × S) (s : S) (t : Tree V) (f : σ → V → σ × V)
    (w : σ) (k : Nat) (refs : List (Pos V)) (hmem : ∀ p ∈ refs, p ∈ t.located.preorder)
    (hnd : (refs.map Pos.path).Nodup) (hs : ∀ i, nthCall next i s = (refs.map Pos.path)[i]?) :
    ∃ g, forEachMut next Tree.cell Tree.setCell f k s t w =
        (t.fill g, (mapAccum f w ((refs.map Pos.item).take k)).2) ∧
      (refs.map fun p => g p.path) =
        (mapAccum f w ((refs.map Pos.item).take k)).1 ++ (refs.map Pos.item).drop k ∧
      ∀ p, p ∉ refs.map Pos.path → (t.fill g).cell p = t.cell p := by
  obtain ⟨g0, hg0⟩ := exists_fill t
  have hcell : ∀ p ∈ refs, t.cell p.path = some p.item := fun p hp =>
    cell_of_mem_located t p (hmem p hp)
  have hsome : ∀ a ∈ refs.map Pos.path, (t.cell a).isSome := by
    intro a ha
    obtain ⟨p, hp, rfl⟩ := List.mem_map.1 ha
    simp [hcell p hp]
  obtain ⟨g, h1, h2, h3⟩ := forEachMut_spec next Tree.cell Tree.setCell f t.fill k s
    (refs.map Pos.path) g0 w hs hnd
    (fun g a ha => by
      rw [cell_fill]
      obtain ⟨y, hy⟩ := Option.isSome_iff_exists.1 (hsome a ha)
      simp [hy])
    (fun g x a ha => setCell_fill t g x a (hsome a ha))
  have e0 : (refs.map Pos.path).map g0 = refs.map Pos.item := by
    rw [List.map_map]
    refine List.map_congr_left fun p hp => ?_
    have h := cell_fill t g0 p.path
    rw [hg0, hcell p hp] at h
    simpa using h.symm
  rw [← List.map_take, ← List.map_drop] at *
  have e1 : ((refs.take k).map Pos.path).map g0 = (refs.take k).map Pos.item := by
    rw [List.map_take, List.map_take, List.map_take, e0]
  have e2 : ((refs.drop k).map Pos.path).map g0 = (refs.drop k).map Pos.item := by
    rw [List.map_drop, List.map_drop, List.map_drop, e0]
  rw [e1] at h1 h2
  rw [e2] at h2
  refine ⟨g, ?_, ?_, ?_⟩
  · rw [hg0] at h1
    exact h1
  · rw [← h2, List.map_map]
    rfl
  · intro p hp
    rw [cell_fill]
    conv => rhs; rw [← hg0, cell_fill]
    rw [h3 p hp]

theorem forEachMut_binTree (next : S → Option (List Nat) × S) (s : S) (t : BinTree V) (f : σ → V → σ × V)
    (w : σ) (k : Nat) (refs : List (Pos V)) (hmem : ∀ p ∈ refs, p ∈ t.located.toTree.preorder)
    (hnd : (refs.map Pos.path).Nodup) (hs : ∀ i, nthCall next i s = (refs.map Pos.path)[i]?) :
    ∃ g, forEachMut next BinTree.cell BinTree.setCell f k s t w =
        (t.fill g, (mapAccum f w ((refs.map Pos.item).take k)).2) ∧
      (refs.map fun p => g p.path) =
        (mapAccum f w ((refs.map Pos.item).take k)).1 ++ (refs.map Pos.item).drop k ∧
      ∀ p, p ∉ refs.map Pos.path → (t.fill g).cell p = t.cell p := by
  obtain ⟨g0, hg0⟩ := exists_fill2 t
  have hcell : ∀ p ∈ refs, t.cell p.path = some p.item := fun p hp =>
    cell_of_mem_located2 t p (hmem p hp)
  have hsome : ∀ a ∈ refs.map Pos.path, (t.cell a).isSome := by
    intro a ha
    obtain ⟨p, hp, rfl⟩ := List.mem_map.1 ha
    simp [hcell p hp]
  obtain ⟨g, h1, h2, h3⟩ := forEachMut_spec next BinTree.cell BinTree.setCell f t.fill k s
    (refs.map Pos.path) g0 w hs hnd
    (fun g a ha => by
      rw [cell_fill2]
      obtain ⟨y, hy⟩ := Option.isSome_iff_exists.1 (hsome a ha)
      simp [hy])
    (fun g x a ha => setCell_fill2 t g x a (hsome a ha))
  have e0 : (refs.map Pos.path).map g0 = refs.map Pos.item := by
    rw [List.map_map]
    refine List.map_congr_left fun p hp => ?_
    have h := cell_fill2 t g0 p.path
    rw [hg0, hcell p hp] at h
    simpa using h.symm
  rw [← List.map_take, ← List.map_drop] at *
  have e1 : ((refs.take k).map Pos.path).map g0 = (refs.take k).map Pos.item := by
    rw [List.map_take, List.map_take, List.map_take, e0]
  have e2 : ((refs.drop k).map Pos.path).map g0 = (refs.drop k).map Pos.item := by
    rw [List.map_drop, List.map_drop, List.map_drop, e0]
  rw [e1] at h1 h2
  rw [e2] at h2
  refine ⟨g, ?_, ?_, ?_⟩
  · rw [hg0] at h1
    exact h1
  · rw [← h2, List.map_map]
    rfl
  · intro p hp
    rw [cell_fill2]
    conv => rhs; rw [← hg0, cell_fill2]
    rw [h3 p hp]

/-! ## The claim -/

/-- What a loop of at most `k` rounds must have done, for the listing `order`: same shape, the first `k` values of the
listing rewritten by the body in that order, the rest untouched, and the body's own state threaded through. -/
def UpdatesInOrder (order : Tree V → List V) (f : σ → V → σ × V) (w : σ) (k : Nat) (t : Tree V)
    (r : Tree V × σ) : Prop :=
  r.1.shape = t.shape ∧
  order r.1 = (mapAccum f w ((order t).take k)).1 ++ (order t).drop k ∧
  r.2 = (mapAccum f w ((order t).take k)).2

/-- The same for binary trees. -/
def UpdatesInOrder2 (order : BinTree V → List V) (f : σ → V → σ × V) (w : σ) (k : Nat) (t : BinTree V)
    (r : BinTree V × σ) : Prop :=
  r.1.shape = t.shape ∧
  order r.1 = (mapAccum f w ((order t).take k)).1 ++ (order t).drop k ∧
  r.2 = (mapAccum f w ((order t).take k)).2

/-- C43, `dfs_preorder_iter_mut`. -/
theorem C43_preorder (t : Tree V) (f : σ → V → σ × V) (w : σ) (k : Nat) :
    UpdatesInOrder Tree.preorder f w k t
      (forEachMut Preorder.next Tree.cell Tree.setCell f k (Preorder.new (MutRef.mk [] t)) t w) := by
  have e : t.located.preorder.map Pos.item = t.preorder := by
    rw [← Tree.preorder_map, map_item_located]
  obtain ⟨g, h1, h2, _⟩ := forEachMut_tree Preorder.next (Preorder.new (MutRef.mk [] t)) t f w k
    t.located.preorder (fun _ h => h) (located_nodup t)
    (fun i => by rw [C01_preorder, treeOf_mutRef, Tree.preorder_map])
  rw [e] at h1 h2
  rw [h1]
  exact ⟨shape_fill t g, by rw [← h2, Tree.fill, Tree.preorder_map], rfl⟩

/-- C43, `dfs_postorder_iter_mut`. -/
theorem C43_postorder (t : Tree V) (f : σ → V → σ × V) (w : σ) (k : Nat) :
    UpdatesInOrder Tree.postorder f w k t
      (forEachMut Postorder.next Tree.cell Tree.setCell f k (Postorder.new (MutRef.mk [] t)) t w) := by
  have e : t.located.postorder.map Pos.item = t.postorder := by
    rw [← Tree.postorder_map, map_item_located]
  have hp := postorder_perm_preorder t.located
  obtain ⟨g, h1, h2, _⟩ := forEachMut_tree Postorder.next (Postorder.new (MutRef.mk [] t)) t f w k
    t.located.postorder (fun _ h => hp.mem_iff.1 h) ((hp.map _).nodup_iff.2 (located_nodup t))
    (fun i => by rw [C02_postorder, treeOf_mutRef, Tree.postorder_map])
  rw [e] at h1 h2
  rw [h1]
  exact ⟨shape_fill t g, by rw [← h2, Tree.fill, Tree.postorder_map], rfl⟩

/-- C43, `bfs_iter_mut`. -/
theorem C43_bfs (t : Tree V) (f : σ → V → σ × V) (w : σ) (k : Nat) :
    UpdatesInOrder Tree.levelOrder f w k t
      (forEachMut Bfs.next Tree.cell Tree.setCell f k (Bfs.new (MutRef.mk [] t)) t w) := by
  have e : t.located.levelOrder.map Pos.item = t.levelOrder := by
    rw [← Tree.levelOrder_map, map_item_located]
  have hp := levelOrder_perm_preorder t.located
  obtain ⟨g, h1, h2, _⟩ := forEachMut_tree Bfs.next (Bfs.new (MutRef.mk [] t)) t f w k
    t.located.levelOrder (fun _ h => hp.mem_iff.1 h) ((hp.map _).nodup_iff.2 (located_nodup t))
    (fun i => by rw [C04_bfs, treeOf_mutRef, Tree.levelOrder_map])
  rw [e] at h1 h2
  rw [h1]
  exact ⟨shape_fill t g, by rw [← h2, Tree.fill, Tree.levelOrder_map], rfl⟩

/-- C43, `dfs_inorder_iter_mut`. -/
theorem C43_inorder (t : BinTree V) (f : σ → V → σ × V) (w : σ) (k : Nat) :
    UpdatesInOrder2 BinTree.inorder f w k t
      (forEachMut Inorder.next BinTree.cell BinTree.setCell f k (Inorder.new (MutRef2.mk [] t)) t w) := by
  have e : t.located.inorder.map Pos.item = t.inorder := by
    rw [← BinTree.inorder_map, map_item_located2]
  have hp := inorder_perm_preorder t.located
  obtain ⟨g, h1, h2, _⟩ := forEachMut_binTree Inorder.next (Inorder.new (MutRef2.mk [] t)) t f w k
    t.located.inorder (fun _ h => hp.mem_iff.1 h) ((hp.map _).nodup_iff.2 (located2_nodup t))
    (fun i => by rw [C03_inorder, binTreeOf_mutRef, BinTree.inorder_map])
  rw [e] at h1 h2
  rw [h1]
  exact ⟨shape_fill2 t g, by rw [← h2, BinTree.fill, BinTree.inorder_map], rfl⟩

/-- C43, the other orders on binary trees. -/
theorem C43_binary (t : BinTree V) (f : σ → V → σ × V) (w : σ) (k : Nat) :
    UpdatesInOrder2 (fun t => t.toTree.preorder) f w k t
      (forEachMut Preorder.next BinTree.cell BinTree.setCell f k (Preorder.new (MutRef2.mk [] t)) t w) ∧
    UpdatesInOrder2 (fun t => t.toTree.postorder) f w k t
      (forEachMut Postorder.next BinTree.cell BinTree.setCell f k (Postorder.new (MutRef2.mk [] t)) t w) ∧
    UpdatesInOrder2 (fun t => t.toTree.levelOrder) f w k t
      (forEachMut Bfs.next BinTree.cell BinTree.setCell f k (Bfs.new (MutRef2.mk [] t)) t w) := by
  refine ⟨?_, ?_, ?_⟩
  · have e : t.located.toTree.preorder.map Pos.item = t.toTree.preorder := by
      rw [← Tree.preorder_map, ← BinTree.toTree_map, map_item_located2]
    obtain ⟨g, h1, h2, _⟩ := forEachMut_binTree Preorder.next (Preorder.new (MutRef2.mk [] t)) t f w k
      t.located.toTree.preorder (fun _ h => h) (located2_nodup t)
      (fun i => by rw [C01_preorder_binary, binTreeOf_mutRef, BinTree.toTree_map, Tree.preorder_map])
    rw [e] at h1 h2
    rw [h1]
    exact ⟨shape_fill2 t g, by dsimp only; rw [← h2, BinTree.fill, BinTree.toTree_map, Tree.preorder_map], rfl⟩
  · have e : t.located.toTree.postorder.map Pos.item = t.toTree.postorder := by
      rw [← Tree.postorder_map, ← BinTree.toTree_map, map_item_located2]
    have hp := postorder_perm_preorder t.located.toTree
    obtain ⟨g, h1, h2, _⟩ := forEachMut_binTree Postorder.next (Postorder.new (MutRef2.mk [] t)) t f w k
      t.located.toTree.postorder (fun _ h => hp.mem_iff.1 h)
      ((hp.map _).nodup_iff.2 (located2_nodup t))
      (fun i => by rw [C02_postorder_binary, binTreeOf_mutRef, BinTree.toTree_map, Tree.postorder_map])
    rw [e] at h1 h2
    rw [h1]
    exact ⟨shape_fill2 t g, by dsimp only; rw [← h2, BinTree.fill, BinTree.toTree_map, Tree.postorder_map], rfl⟩
  · have e : t.located.toTree.levelOrder.map Pos.item = t.toTree.levelOrder := by
      rw [← Tree.levelOrder_map, ← BinTree.toTree_map, map_item_located2]
    have hp := levelOrder_perm_preorder t.located.toTree
    obtain ⟨g, h1, h2, _⟩ := forEachMut_binTree Bfs.next (Bfs.new (MutRef2.mk [] t)) t f w k
      t.located.toTree.levelOrder (fun _ h => hp.mem_iff.1 h)
      ((hp.map _).nodup_iff.2 (located2_nodup t))
      (fun i => by rw [C04_bfs_binary, binTreeOf_mutRef, BinTree.toTree_map, Tree.levelOrder_map])
    rw [e] at h1 h2
    rw [h1]
    exact ⟨shape_fill2 t g, by dsimp only; rw [← h2, BinTree.fill, BinTree.toTree_map, Tree.levelOrder_map], rfl⟩

/-- Number the values in the order in which the loop meets them. -/
def numbering (w x : Nat) : Nat × Nat := (w + 1, 10 * w + x)

example : (forEachMut Preorder.next Tree.cell Tree.setCell numbering 9
      (Preorder.new (MutRef.mk [] sampleTree)) sampleTree 0).1.preorder = [0, 11, 23, 34, 42, 55] ∧
    (forEachMut Postorder.next Tree.cell Tree.setCell numbering 4
      (Postorder.new (MutRef.mk [] sampleTree)) sampleTree 0).1.preorder = [0, 21, 3, 14, 2, 35] ∧
    (forEachMut Bfs.next Tree.cell Tree.setCell numbering 9
      (Bfs.new (MutRef.mk [] sampleTree)) sampleTree 0).1.levelOrder = [0, 11, 22, 33, 44, 55] ∧
    (forEachMut Inorder.next BinTree.cell BinTree.setCell numbering 9
      (Inorder.new (MutRef2.mk [] sampleBin)) sampleBin 0).1.inorder = [1, 13, 20, 34, 42] := by
  decide +kernel

/-- C43, `dfs_preorder_iter_mut().leaves()` and `dfs_postorder_iter_mut().leaves()`: the leaves are rewritten from
left to right and no other cell changes. -/
theorem C43_leaves (t : Tree V) (f : σ → V → σ × V) (w : σ) (k : Nat) :
    ∀ s ∈ [Leaves.ofPreorder (Preorder.new (MutRef.mk [] t)), Leaves.ofPostorder (Postorder.new (MutRef.mk [] t))],
      UpdatesInOrder Tree.leaves f w k t (forEachMut Leaves.next Tree.cell Tree.setCell f k s t w) ∧
      ∀ p, p ∉ t.located.leaves.map Pos.path →
        (forEachMut Leaves.next Tree.cell Tree.setCell f k s t w).1.cell p = t.cell p := by
  intro s hs
  have e : t.located.leaves.map Pos.item = t.leaves := by
    rw [← Tree.leaves_map, map_item_located]
  have hsub : t.located.leaves.Sublist t.located.preorder := leaves_sublist_preorder _
  have hcall : ∀ i, nthCall Leaves.next i s = (t.located.leaves.map Pos.path)[i]? := by
    intro i
    rw [← Tree.leaves_map, ← treeOf_mutRef]
    rcases List.mem_cons.1 hs with rfl | hs
    · exact C17_preorder_leaves _ i
    · rcases List.mem_cons.1 hs with rfl | hs
      · exact C17_postorder_leaves _ i
      · cases hs
  obtain ⟨g, h1, h2, h3⟩ := forEachMut_tree Leaves.next s t f w k t.located.leaves
    (fun _ h => hsub.subset h) ((hsub.map _).nodup (located_nodup t)) hcall
  rw [e] at h1 h2
  rw [h1]
  exact ⟨⟨shape_fill t g, by rw [← h2, Tree.fill, Tree.leaves_map], rfl⟩, h3⟩

example : (forEachMut Leaves.next Tree.cell Tree.setCell numbering 9
    (Leaves.ofPreorder (Preorder.new (MutRef.mk [] sampleTree))) sampleTree 1).1.preorder =
      [0, 1, 13, 24, 2, 35] := by decide +kernel

end TreeIter
