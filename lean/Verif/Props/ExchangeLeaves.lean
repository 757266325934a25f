import Verif.Props.Exchange

/-! # C57 for `attach_ancestors().leaves()`

A client may use the ancestor iterator for a while, keeping references, and then ask for the leaves.  The slices of the
leaves iterator lack ancestors or contain strangers then (C21), but still no reference is given out that the client holds.
-/

universe u v

namespace TreeIter

variable {N : Type u} {V : Type v}

/-- C57, `dfs_preorder_iter_mut().attach_ancestors().leaves()` at any point. -/
theorem C57_preorder_leaves [TreeNode N V] (n : N) (p : List V) (h : (p ++ (treeOf n).preorder).Nodup) :
    ∃ s, Preorder.attachAncestors (Preorder.new n) = .ok s ∧ ∀ s' p', Preorder.lendAncestors.Reach s p s' p' →
      Leaves.lendAncestors.Exclusive (Leaves.ofPreorderAnc s') p' := by
  classical
  refine ⟨_, rfl, fun s' p' hr => Leaves.lend_exclusive _ _ (nodup_of_count_le (fun a => ?_) h)⟩
  have h1 := (Preorder.accountsAncestors.reach_count trivial hr).1 a
  simpa [Preorder.AncState.live, Preorder.AncState.map, Preorder.AncState.new, Leaves.AncState.all, Leaves.ofPreorderAnc,
    stackRefs, pend, List.flatMap_map, Option.toList_map] using h1

example := C57_preorder_leaves sampleTree [9] (by decide +kernel)

/-- C57, `dfs_postorder_iter_mut().attach_ancestors().leaves()` at any point. -/
theorem C57_postorder_leaves [TreeNode N V] (n : N) (p : List V) (h : (p ++ (treeOf n).preorder).Nodup) :
    ∃ s, Postorder.attachAncestors (Postorder.new n) = .ok s ∧ ∀ s' p', Postorder.lendAncestors.Reach s p s' p' →
      Leaves.lendAncestors.Exclusive (Leaves.ofPostorderAnc s') p' := by
  classical
  refine ⟨_, rfl, fun s' p' hr => Leaves.lend_exclusive _ _ (nodup_of_count_le (fun a => ?_) h)⟩
  have h1 := (Postorder.accountsAncestors.reach_count trivial hr).1 a
  simpa [Postorder.AncState.live, Postorder.AncState.map, Postorder.AncState.new, Leaves.AncState.all, Leaves.ofPostorderAnc,
    stackRefs, pend, List.flatMap_map, Option.toList_map] using h1

example := C57_postorder_leaves sampleTree [9] (by decide +kernel)

/-- C57, `dfs_inorder_iter_mut().attach_ancestors().leaves()` at any point. -/
theorem C57_inorder_leaves [BinNode N V] (n : N) (p : List V) (h : (p ++ (binTreeOf n).toTree.preorder).Nodup) :
    ∃ s, Inorder.attachAncestors (Inorder.new n) = .ok s ∧ ∀ s' p', Inorder.lendAncestors.Reach s p s' p' →
      Leaves.lendAncestors.Exclusive (Leaves.ofInorderAnc s') p' := by
  classical
  refine ⟨_, rfl, fun s' p' hr => Leaves.lend_exclusive _ _ (nodup_of_count_le (fun a => ?_) h)⟩
  have h1 := (Inorder.accountsAncestors.reach_count trivial hr).1 a
  have h2 : (Leaves.ofInorderAnc s').all = (s'.map (binTreeOf (V := V)) id).live := by
    obtain ⟨right, items, status⟩ := s'
    have h3 : ∀ o : Option N, (o.toList.flatMap fun n => (treeOf (V := V) n).preorder) = slotVals (o.map binTreeOf) := by
      intro o
      cases o <;> simp [slotVals, treeOf_eq_toTree]
    rcases right with _ | ⟨r, _ | ⟨r2, rs⟩⟩ <;>
      simp [Leaves.ofInorderAnc, Leaves.AncState.all, Inorder.AncState.live, Inorder.AncState.map, stackRefs, List.flatMap_map, h3]
  rw [h2]
  simpa [Inorder.AncState.live, Inorder.AncState.map, Inorder.AncState.new, slotVals] using h1

example := C57_inorder_leaves sampleBin [9] (by decide +kernel)

/-- C57, `bfs_iter_mut().attach_ancestors().leaves()` at any point. -/
theorem C57_bfs_leaves [TreeNode N V] (n : N) (p : List V) (h : (p ++ (treeOf n).preorder).Nodup) :
    ∃ s, Bfs.attachAncestors (Bfs.new n) = .ok s ∧ ∀ s' p', Bfs.lendAncestors.Reach s p s' p' →
      Bfs.lendLeaves.Exclusive s' p' := by
  classical
  have h0 : Bfs.NoValue ((Bfs.AncState.new n : Bfs.AncState N V).map (treeOf (V := V)) id).cs := by
    simp [Bfs.NoValue, Bfs.AncState.new, Bfs.AncState.map, Bfs.CacheState.map]
  refine ⟨_, rfl, fun s' p' hr => ?_⟩
  have h1 := Bfs.accountsAncestors.reach_count h0 hr
  have h2 : (s'.map (treeOf (V := V)) id).cs = s'.cs := Bfs.CacheState.map_id _
  refine Bfs.lv_exclusive _ _ (h2 ▸ h1.2) (nodup_of_count_le (fun a => ?_) h)
  have h3 := h1.1 a
  simp only [Bfs.AncState.allVals, h2] at h3
  rw [treeOf_eq, Tree.preorder_node]
  simpa [stackRefs_eq, Bfs.AncState.new, Bfs.AncState.map, Bfs.CacheState.live, Bfs.CacheState.kept,
      Bfs.CacheState.map, Bfs.Cache.map, Bfs.Cache.mapL, Bfs.Cache.vals, Bfs.Cache.valsL, pend] using h3

/-! ## A client to which the theorems apply -/

/-- A client of the preorder ancestors of `sampleTree` that exchanges the root for its own `9` and then asks for the leaves. -/
example : ∃ s s', Preorder.lendAncestors.Reach (Preorder.AncState.new sampleTree) [9] s [0] ∧
    Leaves.lendAncestors.next (Leaves.ofPreorderAnc s) = .ok (some [9, 3], s') := by
  have h1 : Preorder.lendAncestors.next (Preorder.AncState.new sampleTree) = .ok (some [0], _) := rfl
  have h2 := Lending.Reach.exchange (it := Preorder.lendAncestors) (p' := [0]) (dropped := []) (o' := [9])
    (.next (p₀ := [9]) .start h1) rfl (by decide +kernel)
  exact ⟨_, _, .next h2 rfl, by with_unfolding_all rfl⟩

end TreeIter
