import Verif.Lemmas.SliceEditBfs
import Verif.Lemmas.SliceEditIn
import Verif.Props.MutSlice

/-! # C55: editing the ancestors of an owned traversal

The specification is the one of C44: a tree in memory, whose paths are visited one after the other; each time the body
sees the values from the root down to the node and says what to write to them.  What is observed of an owned traversal is
what the body sees, and with it whatever the body makes of it. -/

universe u v w

namespace TreeIter

variable {N : Type u} {V : Type v} {σ : Type w}

/-- The tree of addresses of a tree, read in a memory that fits. -/
theorem map_paths (t : Tree V) (g : List Nat → V) (ht : t.fill g = t) : (t.located.map Pos.path).map g = t := by
  rw [Tree.map_map]
  exact ht

theorem map_paths2 (t : BinTree V) (g : List Nat → V) (ht : t.fill g = t) : (t.located.map Pos.path).map g = t := by
  rw [BinTree.map_map]
  exact ht

/-- C55, preorder: with values written through `get_mut()`, the body of a loop over
`dfs_preorder().attach_ancestors()` sees what it would see if all nodes were in one tree in memory and it wrote to that
tree: each value written is seen in every later slice that has the node, and no other. -/
theorem C55_preorder [TreeNode N V] (n : N) (f : σ → List V → σ × List V) (w : σ) :
    ∃ s, Preorder.attachAncestors (Preorder.new n) = .ok s ∧ ∀ k,
      editLoop (okNext Preorder.ancNext) Preorder.AncState.edit f k s w =
        .ok ((((treeOf n).located.preorder.map Pos.path).take k).foldl
          (visitAlong Tree.cell Tree.setCell f) (treeOf n, w)).2 := by
  refine ⟨_, rfl, fun k => ?_⟩
  obtain ⟨g, hg⟩ := exists_fill (treeOf n)
  rw [← editLoop_hom (next' := okNext (Preorder.ancNext (N := Tree V))) (edit' := Preorder.AncState.edit)
    (Preorder.AncState.map treeOf id) (fun s => by
      simp only [Preorder.ancNext_map treeOf_hom, List.map_id_fun, Option.map_id, id]) (fun s ys => by
      simp [Preorder.AncState.map, Preorder.AncState.edit])]
  have h0 : (Preorder.AncState.new n).map (treeOf (V := V)) id =
      (Preorder.AncState.new ((treeOf n).located.map Pos.path)).map (Tree.map g) g := by
    simp [Preorder.AncState.new, Preorder.AncState.map, map_paths _ _ hg]
  rw [h0]
  refine editLoop_tree (nextA := okNext Preorder.ancNext) (fun g => Preorder.AncState.map (Tree.map g) g)
    (fun s => s.live.Nodup) (fun g s => ?_) (fun s o s' hs h => ?_) (fun s as s' hs h g ys => ?_) f k _ ?_ _ g w hg _ ?_
    (fun i _ _ => ?_)
  · exact Preorder.ancNext_map (treeMap_hom g) s
  · obtain ⟨-, rfl⟩ := Prod.mk.inj (Except.ok.inj h)
    exact Preorder.ancAdvance_live s hs
  · obtain ⟨h1, rfl⟩ := Prod.mk.inj (Except.ok.inj h)
    rw [Preorder.ancGet_items _ _ h1]
    exact Preorder.edit_map _ (Preorder.ancAdvance_live s hs) g ys
  · simpa [Preorder.AncState.new, Preorder.AncState.live, pend, Tree.preorder_map] using located_nodup (treeOf n)
  · intro p hp
    obtain ⟨q, hq, rfl⟩ := List.mem_map.1 hp
    rw [cell_of_mem_located _ q hq]
    rfl
  · obtain ⟨s, h1, h2⟩ := C06_preorder_ancestors ((treeOf n).located.map Pos.path)
    cases h1
    rw [nthCallE_okNext, h2, treeOf_tree, ← Tree.preorder_map, prefixes_located, Tree.preorder_map, List.map_map]
    rfl

/-- C55, postorder. -/
theorem C55_postorder [TreeNode N V] (n : N) (f : σ → List V → σ × List V) (w : σ) :
    ∃ s, Postorder.attachAncestors (Postorder.new n) = .ok s ∧ ∀ k,
      editLoop (okNext Postorder.ancNext) Postorder.AncState.edit f k s w =
        .ok ((((treeOf n).located.postorder.map Pos.path).take k).foldl
          (visitAlong Tree.cell Tree.setCell f) (treeOf n, w)).2 := by
  refine ⟨_, rfl, fun k => ?_⟩
  obtain ⟨g, hg⟩ := exists_fill (treeOf n)
  rw [← editLoop_hom (next' := okNext (Postorder.ancNext (N := Tree V))) (edit' := Postorder.AncState.edit)
    (Postorder.AncState.map treeOf id) (fun s => by
      simp only [Postorder.ancNext_map treeOf_hom, List.map_id_fun, Option.map_id, id]) (fun s ys => by
      simp [Postorder.AncState.map, Postorder.AncState.edit])]
  have h0 : (Postorder.AncState.new n).map (treeOf (V := V)) id =
      (Postorder.AncState.new ((treeOf n).located.map Pos.path)).map (Tree.map g) g := by
    simp [Postorder.AncState.new, Postorder.AncState.map, map_paths _ _ hg]
  rw [h0]
  refine editLoop_tree (nextA := okNext Postorder.ancNext) (fun g => Postorder.AncState.map (Tree.map g) g)
    (fun s => s.live.Nodup) (fun g s => ?_) (fun s o s' hs h => ?_) (fun s as s' hs h g ys => ?_) f k _ ?_ _ g w hg _ ?_
    (fun i _ _ => ?_)
  · exact Postorder.ancNext_map (treeMap_hom g) s
  · obtain ⟨-, rfl⟩ := Prod.mk.inj (Except.ok.inj h)
    exact Postorder.ancAdvance_live s hs
  · obtain ⟨h1, rfl⟩ := Prod.mk.inj (Except.ok.inj h)
    rw [Postorder.ancGet_items _ _ h1]
    exact Postorder.edit_map _ (Postorder.ancAdvance_live s hs) g ys
  · simpa [Postorder.AncState.new, Postorder.AncState.live, pend, Tree.preorder_map] using located_nodup (treeOf n)
  · intro p hp
    obtain ⟨q, hq, rfl⟩ := List.mem_map.1 hp
    rw [cell_of_mem_located _ q ((postorder_perm_preorder _).mem_iff.1 hq)]
    rfl
  · obtain ⟨s, h1, h2⟩ := C07_postorder_ancestors ((treeOf n).located.map Pos.path)
    cases h1
    rw [nthCallE_okNext, h2, treeOf_tree, ← Tree.postorder_map, prefixes_located, Tree.postorder_map, List.map_map]
    rfl

/-- C55, breadth first: the values written go into the cache of ancestors when the traversal moves on to another branch,
and come back when the traversal comes back to the branch on the next level. -/
theorem C55_bfs [TreeNode N V] (n : N) (f : σ → List V → σ × List V) (w : σ) :
    ∃ s, Bfs.attachAncestors (Bfs.new n) = .ok s ∧ ∀ k,
      editLoop Bfs.ancNext Bfs.AncState.edit f k s w =
        .ok ((((treeOf n).located.levelOrder.map Pos.path).take k).foldl
          (visitAlong Tree.cell Tree.setCell f) (treeOf n, w)).2 := by
  refine ⟨_, rfl, fun k => ?_⟩
  obtain ⟨g, hg⟩ := exists_fill (treeOf n)
  rw [← editLoop_hom (next' := Bfs.ancNext (N := Tree V)) (edit' := Bfs.AncState.edit)
    (Bfs.AncState.map treeOf id) (fun s => by
      simp only [Bfs.ancNext_map treeOf_hom, List.map_id_fun, Option.map_id, id]) (fun s ys => by
      simp [Bfs.AncState.map, Bfs.AncState.edit, Bfs.CacheState.map])]
  have h0 : (Bfs.AncState.new n).map (treeOf (V := V)) id =
      (Bfs.AncState.new ((treeOf n).located.map Pos.path)).map (Tree.map g) g := by
    simp only [Bfs.AncState.new, Bfs.AncState.map, Bfs.CacheState.map, List.map_cons, List.map_nil, ← treeOf_hom.val,
      ← treeOf_hom.kids, ← (treeMap_hom g).val, ← (treeMap_hom g).kids, map_paths _ _ hg, Bfs.Cache.map, Bfs.Cache.mapL,
      Option.map_none]
  rw [h0]
  refine editLoop_tree (nextA := Bfs.ancNext) (fun g => Bfs.AncState.map (Tree.map g) g)
    Bfs.AncState.Good (fun g s => ?_) (fun s o s' hs h => ?_) (fun s as s' hs h g ys => ?_) f k _ ?_ _ g w hg _ ?_
    (fun i _ hi => ?_)
  · exact Bfs.ancNext_map (treeMap_hom g) s
  · simp only [Bfs.ancNext, streamNextE] at h
    split at h
    · cases h
    · rename_i s1 h1
      obtain ⟨-, rfl⟩ := Prod.mk.inj (Except.ok.inj h)
      exact Bfs.ancAdvance_good s _ hs h1
  · simp only [Bfs.ancNext, streamNextE] at h
    split at h
    · cases h
    · rename_i s1 h1
      obtain ⟨h2, rfl⟩ := Prod.mk.inj (Except.ok.inj h)
      rw [Bfs.ancGet_items _ _ h2]
      exact Bfs.edit_map _ (Bfs.ancAdvance_good s _ hs h1).1 g ys
  · refine ⟨?_, by simp [Bfs.NoValue, Bfs.AncState.new]⟩
    have := located_nodup (treeOf n)
    rw [← Tree.preorder_map, preorder_kids] at this
    simpa [Bfs.AncState.new, Bfs.AncState.allVals, Bfs.CacheState.live, Bfs.CacheState.kept, Bfs.Cache.vals, Bfs.Cache.valsL,
      pend] using this
  · intro p hp
    obtain ⟨q, hq, rfl⟩ := List.mem_map.1 hp
    rw [cell_of_mem_located _ q ((levelOrder_perm_preorder _).mem_iff.1 hq)]
    rfl
  · obtain ⟨s, h1, h2⟩ := C09_bfs_ancestors ((treeOf n).located.map Pos.path)
    cases h1
    rw [h2 i ?_, treeOf_tree, ← Tree.levelOrder_map, prefixes_located, Tree.levelOrder_map, List.map_map]
    · rfl
    · rw [treeOf_tree, ← C09_length, ← Tree.levelOrder_map, prefixes_located, Tree.levelOrder_map]
      simpa using hi

/-- C55, in-order. -/
theorem C55_inorder [BinNode N V] (n : N) (f : σ → List V → σ × List V) (w : σ) :
    ∃ s, Inorder.attachAncestors (Inorder.new n) = .ok s ∧ ∀ k,
      editLoop Inorder.ancNext Inorder.AncState.edit f k s w =
        .ok ((((binTreeOf n).located.inorder.map Pos.path).take k).foldl
          (visitAlong BinTree.cell BinTree.setCell f) (binTreeOf n, w)).2 := by
  refine ⟨_, rfl, fun k => ?_⟩
  obtain ⟨g, hg⟩ := exists_fill2 (binTreeOf n)
  rw [← editLoop_hom (next' := Inorder.ancNext (N := BinTree V)) (edit' := Inorder.AncState.edit)
    (Inorder.AncState.map binTreeOf id) (fun s => by
      simp only [Inorder.ancNext_map binTreeOf_hom, List.map_id_fun, Option.map_id, id]) (fun s ys => by
      simp [Inorder.AncState.map, Inorder.AncState.edit])]
  have h0 : (Inorder.AncState.new n).map (binTreeOf (V := V)) id =
      (Inorder.AncState.new ((binTreeOf n).located.map Pos.path)).map (BinTree.map g) g := by
    simp [Inorder.AncState.new, Inorder.AncState.map, map_paths2 _ _ hg]
  rw [h0]
  refine editLoop_binTree (nextA := Inorder.ancNext) (fun g => Inorder.AncState.map (BinTree.map g) g)
    (fun s => s.live.Nodup) (fun g s => ?_) (fun s o s' hs h => ?_) (fun s as s' hs h g ys => ?_) f k _ ?_ _ g w hg _ ?_
    (fun i _ _ => ?_)
  · exact Inorder.ancNext_map (binTreeMap_hom g) s
  · simp only [Inorder.ancNext, streamNextE] at h
    split at h
    · cases h
    · rename_i s1 h1
      obtain ⟨-, rfl⟩ := Prod.mk.inj (Except.ok.inj h)
      exact Inorder.ancAdvance_live s _ hs h1
  · simp only [Inorder.ancNext, streamNextE] at h
    split at h
    · cases h
    · rename_i s1 h1
      obtain ⟨h2, rfl⟩ := Prod.mk.inj (Except.ok.inj h)
      rw [Inorder.ancGet_items _ _ h2]
      exact Inorder.edit_map _ (Inorder.ancAdvance_live s _ hs h1) g ys
  · simpa [Inorder.AncState.new, Inorder.AncState.live, slotVals, BinTree.toTree_map, Tree.preorder_map] using
      located2_nodup (binTreeOf n)
  · intro p hp
    obtain ⟨q, hq, rfl⟩ := List.mem_map.1 hp
    rw [cell_of_mem_located2 _ q ((inorder_perm_preorder _).mem_iff.1 hq)]
    rfl
  · obtain ⟨s, h1, h2⟩ := C08_inorder_ancestors ((binTreeOf n).located.map Pos.path)
    cases h1
    rw [h2, binTreeOf_binTree, ← BinTree.inorder_map, prefixes_located2, BinTree.inorder_map, List.map_map]
    rfl

/-- A body that notes what it sees and then adds one to every value. -/
def noteAddOne (w : List (List Nat)) (xs : List Nat) : List (List Nat) × List Nat := (w ++ [xs], xs.map (· + 1))

example : (match Bfs.attachAncestors (Bfs.new sampleTree) with
    | .ok s => (editLoop Bfs.ancNext Bfs.AncState.edit noteAddOne 20 s []).toOption
    | .error _ => none) = some [[0], [1, 1], [2, 2], [3, 2, 3], [4, 3, 4], [5, 3, 5]] := by decide +kernel

example : (match Inorder.attachAncestors (Inorder.new sampleBin) with
    | .ok s => (editLoop Inorder.ancNext Inorder.AncState.edit noteAddOne 20 s []).toOption
    | .error _ => none) = some [[0, 1], [1, 2, 3], [2], [3, 2, 4], [4, 3]] := by decide +kernel

end TreeIter
