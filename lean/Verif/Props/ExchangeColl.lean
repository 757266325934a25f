import Verif.Props.CollectionPipeline
import Verif.Lemmas.ExchangeColl
import Verif.Props.Samples

/-! # C57 for collections of trees -/

universe u v

namespace TreeIter

variable {N : Type u} {V : Type v}

/-- C57, `dfs_preorder_iter_mut().attach_context()` of a collection: no reference is held twice, be it to values of one tree
or of two. -/
theorem C57_collection_preorder_context [TreeNode N V] (ns : List N) (p : List V)
    (h : (p ++ ns.flatMap fun n => (treeOf n).preorder).Nodup) :
    ∃ s, Coll.attachContext (Coll.new (S := Preorder.State N) ns) = .ok s ∧
      (Coll.lend Preorder.CtxState.new Preorder.ctxAdvance Preorder.lendContext).Exclusive s p := by
  classical
  refine ⟨_, rfl, (Coll.accounts_lend Preorder.accountsContext (fun n => (treeOf n).preorder) _ rfl fun n path =>
    ⟨trivial, fun a => ?_⟩).exclusive (by simp) (by simpa [Coll.CtxState.refs, Coll.new] using h)⟩
  simp [Preorder.CtxState.new, Preorder.CtxState.map, Preorder.CtxState.live, pend]

example := C57_collection_preorder_context threeTrees [10] (by decide +kernel)

/-- C57, `dfs_preorder_iter_mut().attach_context()` of a collection of binary trees. -/
theorem C57_collection_preorder_context_binary [BinNode N V] (ns : List N) (p : List V)
    (h : (p ++ ns.flatMap fun n => (binTreeOf n).toTree.preorder).Nodup) :
    ∃ s, Coll.attachContext (Coll.new (S := Preorder.State N) ns) = .ok s ∧
      (Coll.lend Preorder.BinCtxState.new Preorder.binCtxAdvance Preorder.lendBinContext).Exclusive s p := by
  classical
  refine ⟨_, rfl, (Coll.accounts_lend Preorder.accountsBinContext (fun n => (binTreeOf n).toTree.preorder) _ rfl fun n path =>
    ⟨trivial, fun a => ?_⟩).exclusive (by simp) (by simpa [Coll.CtxState.refs, Coll.new] using h)⟩
  simp [Preorder.BinCtxState.new, Preorder.BinCtxState.map, Preorder.BinCtxState.live, pend2, Preorder.pairVals, slotVals]

example := C57_collection_preorder_context_binary threeBins [10] (by decide +kernel)

/-- C57, `bfs_iter_mut().attach_context()` of a collection. -/
theorem C57_collection_bfs_context [TreeNode N V] (ns : List N) (p : List V)
    (h : (p ++ ns.flatMap fun n => (treeOf n).preorder).Nodup) :
    ∃ s, Coll.attachContext (Coll.new (S := Bfs.State N) ns) = .ok s ∧
      (Coll.lend Bfs.CtxState.new Bfs.ctxAdvance Bfs.lendContext).Exclusive s p := by
  classical
  refine ⟨_, rfl, (Coll.accounts_lend Bfs.accountsContext (fun n => (treeOf n).preorder) _ rfl fun n path =>
    ⟨?_, fun a => ?_⟩).exclusive (by simp) (by simpa [Coll.CtxState.refs, Coll.new] using h)⟩
  · simp [Bfs.CtxCache.NoValue, Bfs.CtxState.new, Bfs.CtxState.mapG, Bfs.CtxCache.map]
  · rw [treeOf_eq, Tree.preorder_node]
    simp [Bfs.CtxState.new, Bfs.CtxState.mapG, Bfs.CtxState.all, Bfs.CtxCache.map, Bfs.CtxCache.live, Bfs.CtxCache.kept,
      Bfs.Cache.map, Bfs.Cache.mapL, Bfs.Cache.vals, Bfs.Cache.valsL, pend]

example := C57_collection_bfs_context threeTrees [10] (by decide +kernel)

/-- C57, `bfs_iter_mut().attach_context()` of a collection of binary trees. -/
theorem C57_collection_bfs_context_binary [BinNode N V] (ns : List N) (p : List V)
    (h : (p ++ ns.flatMap fun n => (binTreeOf n).toTree.preorder).Nodup) :
    ∃ s, Coll.attachContext (Coll.new (S := Bfs.State N) ns) = .ok s ∧
      (Coll.lend Bfs.CtxState.binNew Bfs.binCtxAdvance Bfs.lendBinContext).Exclusive s p := by
  classical
  refine ⟨_, rfl, (Coll.accounts_lend Bfs.accountsBinContext (fun n => (binTreeOf n).toTree.preorder) _ rfl fun n path =>
    ⟨?_, fun a => ?_⟩).exclusive (by simp) (by simpa [Coll.CtxState.refs, Coll.new] using h)⟩
  · simp [Bfs.CtxCache.NoValue, Bfs.CtxState.binNew, Bfs.CtxState.mapB, Bfs.CtxCache.map]
  · have h1 : slotVals (some (binTreeOf n)) = (binTreeOf (V := V) n).toTree.preorder := by simp [slotVals]
    rw [← h1, slotVals_some, binTreeOf_hom.val, binTreeOf_hom.left, binTreeOf_hom.right]
    simp [Bfs.CtxState.binNew, Bfs.CtxState.mapB, Bfs.CtxState.binAll, Bfs.CtxCache.map, Bfs.CtxCache.live, Bfs.CtxCache.kept,
      Bfs.Cache.map, Bfs.Cache.mapL, Bfs.Cache.vals, Bfs.Cache.valsL, pend2, Preorder.pairVals]

example := C57_collection_bfs_context_binary threeBins [10] (by decide +kernel)

/-- C57, `dfs_postorder_iter_mut().attach_context()` of a collection, for clients that exchange references to values only.
Missing: clients that use `children`, for which C57 is false of a single tree already (`C57_postorder_context_false`). -/
theorem C57_collection_postorder_context_partial [TreeNode N V] (ns : List N) (p : List V)
    (h : (p ++ ns.flatMap fun n => (treeOf n).preorder).Nodup) :
    ∃ s, Coll.attachContext (Coll.new (S := Postorder.State N V) ns) = .ok s ∧
      (Coll.lend Postorder.CtxState.new Postorder.ctxAdvance Postorder.lendContext).ancestorsOnly.Exclusive s p := by
  classical
  refine ⟨_, rfl, (Coll.accounts_ancestorsOnly Postorder.accountsContextAncestorsOnly (fun n => (treeOf n).preorder) _ rfl
    fun n path => ⟨trivial, fun a => ?_⟩).exclusive (by simp) (by simpa [Coll.CtxState.refs, Coll.new] using h)⟩
  simp [Postorder.CtxState.new, Postorder.CtxState.own, Postorder.OwnCtxState.map, Postorder.OwnCtxState.live, pend]

example := C57_collection_postorder_context_partial threeTrees [10] (by decide +kernel)

/-- C57, `dfs_postorder_iter_mut().attach_context()` of a collection of binary trees, for clients that exchange references to
values only.  Missing: clients that use `children`. -/
theorem C57_collection_postorder_context_binary_partial [BinNode N V] (ns : List N) (p : List V)
    (h : (p ++ ns.flatMap fun n => (binTreeOf n).toTree.preorder).Nodup) :
    ∃ s, Coll.attachContext (Coll.new (S := Postorder.State N V) ns) = .ok s ∧
      (Coll.lend Postorder.BinCtxState.new Postorder.mutBinCtxAdvance Postorder.lendBinContext).ancestorsOnly.Exclusive s p := by
  classical
  refine ⟨_, rfl, (Coll.accounts_ancestorsOnly Postorder.accountsBinContextAncestorsOnly (fun n => (binTreeOf n).toTree.preorder)
    _ rfl fun n path => ⟨trivial, fun a => ?_⟩).exclusive (by simp) (by simpa [Coll.CtxState.refs, Coll.new] using h)⟩
  simp [Postorder.BinCtxState.new, Postorder.BinCtxState.own, Postorder.OwnBinCtxState.map, Postorder.OwnBinCtxState.live, pend2,
    slotVals]

example := C57_collection_postorder_context_binary_partial threeBins [10] (by decide +kernel)

/-- C57, `dfs_inorder_iter_mut().attach_context()` of a collection, for clients that exchange references to values only.
Missing: clients that use `children`. -/
theorem C57_collection_inorder_context_partial [BinNode N V] (ns : List N) (p : List V)
    (h : (p ++ ns.flatMap fun n => (binTreeOf n).toTree.preorder).Nodup) :
    ∃ s, Coll.attachContext (Coll.new (S := Inorder.State N V) ns) = .ok s ∧
      (Coll.lend Inorder.CtxState.new Inorder.ctxAdvance Inorder.lendContext).ancestorsOnly.Exclusive s p := by
  classical
  refine ⟨_, rfl, (Coll.accounts_ancestorsOnly Inorder.accountsContextAncestorsOnly (fun n => (binTreeOf n).toTree.preorder)
    _ rfl fun n path => ⟨trivial, fun a => ?_⟩).exclusive (by simp) (by simpa [Coll.CtxState.refs, Coll.new] using h)⟩
  simp [Inorder.CtxState.new, Inorder.CtxState.own, Inorder.OwnCtxState.map, Inorder.OwnCtxState.live, slotVals]

/-- A client of the preorder contexts of the two trees `0[1]` and `2` that takes the child `1` of the first root and puts it
into the second tree, where the traversal visits it. -/
example : ∃ s, (Coll.lend Preorder.CtxState.new Preorder.ctxAdvance Preorder.lendContext).Reach
      (⟨[Tree.node 0 [.node 1 []], .node 2 []], usizeMax, none⟩ : Coll.CtxState (Tree Nat) (Preorder.CtxState (Tree Nat) Nat)) [] s [] ∧
    (Coll.ctxGet Preorder.lendContext.get s).map Ctx.ancestors = some [2, 1] := by
  have h1 : (Coll.lend Preorder.CtxState.new Preorder.ctxAdvance Preorder.lendContext).next
      (⟨[Tree.node 0 [.node 1 []], .node 2 []], usizeMax, none⟩ : Coll.CtxState (Tree Nat) (Preorder.CtxState (Tree Nat) Nat)) =
      .ok (some ⟨[0], [0], some [.node 1 []]⟩, _) := rfl
  have h2 := Lending.Reach.exchange (it := Coll.lend Preorder.CtxState.new Preorder.ctxAdvance Preorder.lendContext) (p' := [1])
    (dropped := []) (o' := ⟨[0], [0], some []⟩) (.next (p₀ := []) .start h1) rfl (by decide +kernel)
  have h3 := Lending.Reach.exchange (it := Coll.lend Preorder.CtxState.new Preorder.ctxAdvance Preorder.lendContext) (p' := [])
    (dropped := []) (o' := ⟨[1], [2], some [.node 1 []]⟩) (.next h2 rfl) rfl (by decide +kernel)
  exact ⟨_, .next h3 rfl, rfl⟩

end TreeIter
