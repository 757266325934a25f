import Verif.Lemmas.ExchangeCtx
import Verif.Props.Samples

/-! # C57: mutable references are exclusive

A client of a mutably borrowed traversal keeps references that it moved out of the items it was shown
(`Model/Exchange`).  If the references to the values of the tree and those in its pocket are different at the start, it
should never hold a reference that the next item gives access to as well.

This holds for the ancestor iterators and for preorder and breadth-first contexts.  It is false for postorder and
in-order contexts: `children` of a context there gives access to nodes that were visited before or are visited later. -/

universe u v w x

namespace TreeIter

variable {N : Type u} {V : Type v}

/-! ## `attach_ancestors` -/

/-- C57, `dfs_preorder_iter_mut().attach_ancestors()`. -/
theorem C57_preorder [TreeNode N V] (n : N) (p : List V) (h : (p ++ (treeOf n).preorder).Nodup) :
    ∃ s, Preorder.attachAncestors (Preorder.new n) = .ok s ∧ Preorder.lendAncestors.Exclusive s p := by
  classical
  refine ⟨_, rfl, Preorder.accountsAncestors.exclusive trivial ?_⟩
  simpa [Preorder.AncState.new, Preorder.AncState.map, Preorder.AncState.live, pend] using h

example := C57_preorder sampleTree [9] (by decide +kernel)

/-- C57, `dfs_postorder_iter_mut().attach_ancestors()`. -/
theorem C57_postorder [TreeNode N V] (n : N) (p : List V) (h : (p ++ (treeOf n).preorder).Nodup) :
    ∃ s, Postorder.attachAncestors (Postorder.new n) = .ok s ∧ Postorder.lendAncestors.Exclusive s p := by
  classical
  refine ⟨_, rfl, Postorder.accountsAncestors.exclusive trivial ?_⟩
  simpa [Postorder.AncState.new, Postorder.AncState.map, Postorder.AncState.live, pend] using h

example := C57_postorder sampleTree [9] (by decide +kernel)

/-- C57, `dfs_inorder_iter_mut().attach_ancestors()`. -/
theorem C57_inorder [BinNode N V] (n : N) (p : List V) (h : (p ++ (binTreeOf n).toTree.preorder).Nodup) :
    ∃ s, Inorder.attachAncestors (Inorder.new n) = .ok s ∧ Inorder.lendAncestors.Exclusive s p := by
  classical
  refine ⟨_, rfl, Inorder.accountsAncestors.exclusive trivial ?_⟩
  simpa [Inorder.AncState.new, Inorder.AncState.map, Inorder.AncState.live, slotVals] using h

example := C57_inorder sampleBin [9] (by decide +kernel)

/-- C57, `bfs_iter_mut().attach_ancestors()`. -/
theorem C57_bfs [TreeNode N V] (n : N) (p : List V) (h : (p ++ (treeOf n).preorder).Nodup) :
    ∃ s, Bfs.attachAncestors (Bfs.new n) = .ok s ∧ Bfs.lendAncestors.Exclusive s p := by
  classical
  refine ⟨_, rfl, Bfs.accountsAncestors.exclusive ?_ ?_⟩
  · simp [Bfs.NoValue, Bfs.AncState.new, Bfs.AncState.map, Bfs.CacheState.map]
  · rw [treeOf_eq, Tree.preorder_node] at h
    simpa [Bfs.AncState.new, Bfs.AncState.map, Bfs.AncState.allVals, Bfs.CacheState.live, Bfs.CacheState.kept,
      Bfs.CacheState.map, Bfs.Cache.map, Bfs.Cache.mapL, Bfs.Cache.vals, Bfs.Cache.valsL, pend] using h

example := C57_bfs sampleTree [9] (by decide +kernel)

/-! ## `attach_context` -/

/-- C57, `dfs_preorder_iter_mut().attach_context()`. -/
theorem C57_preorder_context [TreeNode N V] (n : N) (p : List V) (h : (p ++ (treeOf n).preorder).Nodup) :
    ∃ s, Preorder.attachContext (Preorder.new n) = .ok s ∧ Preorder.lendContext.Exclusive s p := by
  classical
  refine ⟨_, rfl, Preorder.accountsContext.exclusive trivial ?_⟩
  simpa [Preorder.CtxState.new, Preorder.CtxState.map, Preorder.CtxState.live, pend] using h

example := C57_preorder_context sampleTree [9] (by decide +kernel)

/-- C57, `dfs_preorder_iter_mut().attach_context()`, binary nodes. -/
theorem C57_preorder_context_binary [BinNode N V] (n : N) (p : List V) (h : (p ++ (binTreeOf n).toTree.preorder).Nodup) :
    ∃ s, Preorder.binAttachContext (Preorder.new n) = .ok s ∧ Preorder.lendBinContext.Exclusive s p := by
  classical
  refine ⟨_, rfl, Preorder.accountsBinContext.exclusive trivial ?_⟩
  simpa [Preorder.BinCtxState.new, Preorder.BinCtxState.map, Preorder.BinCtxState.live, pend2, Preorder.pairVals, slotVals] using h

example := C57_preorder_context_binary sampleBin [9] (by decide +kernel)

/-- C57, `bfs_iter_mut().attach_context()`. -/
theorem C57_bfs_context [TreeNode N V] (n : N) (p : List V) (h : (p ++ (treeOf n).preorder).Nodup) :
    ∃ s, Bfs.attachContext (Bfs.new n) = .ok s ∧ Bfs.lendContext.Exclusive s p := by
  classical
  refine ⟨_, rfl, Bfs.accountsContext.exclusive ?_ ?_⟩
  · simp [Bfs.CtxCache.NoValue, Bfs.CtxState.new, Bfs.CtxState.mapG, Bfs.CtxCache.map]
  · rw [treeOf_eq, Tree.preorder_node] at h
    simpa [Bfs.CtxState.new, Bfs.CtxState.mapG, Bfs.CtxState.all, Bfs.CtxCache.map, Bfs.CtxCache.live, Bfs.CtxCache.kept,
      Bfs.Cache.map, Bfs.Cache.mapL, Bfs.Cache.vals, Bfs.Cache.valsL, pend] using h

example := C57_bfs_context sampleTree [9] (by decide +kernel)

/-- C57, `bfs_iter_mut().attach_context()`, binary nodes. -/
theorem C57_bfs_context_binary [BinNode N V] (n : N) (p : List V) (h : (p ++ (binTreeOf n).toTree.preorder).Nodup) :
    ∃ s, Bfs.binAttachContext (Bfs.new n) = .ok s ∧ Bfs.lendBinContext.Exclusive s p := by
  classical
  refine ⟨_, rfl, Bfs.accountsBinContext.exclusive ?_ ?_⟩
  · simp [Bfs.CtxCache.NoValue, Bfs.CtxState.binNew, Bfs.CtxState.mapB, Bfs.CtxCache.map]
  · have h1 : slotVals (some (binTreeOf n)) = (binTreeOf (V := V) n).toTree.preorder := by simp [slotVals]
    rw [← h1, slotVals_some, binTreeOf_hom.val, binTreeOf_hom.left, binTreeOf_hom.right] at h
    simpa [Bfs.CtxState.binNew, Bfs.CtxState.mapB, Bfs.CtxState.binAll, Bfs.CtxCache.map, Bfs.CtxCache.live, Bfs.CtxCache.kept,
      Bfs.Cache.map, Bfs.Cache.mapL, Bfs.Cache.vals, Bfs.Cache.valsL, pend2, Preorder.pairVals] using h

example := C57_bfs_context_binary sampleBin [9] (by decide +kernel)

/-! ## Postorder and in-order contexts

`children` of these contexts is a second way to nodes that the traversal has shown or will show. -/

/-- C57 is false for `dfs_postorder_iter_mut().attach_context()`: on `0[1]`, a client that swaps the reference to the value
of the leaf for one of its own gets at that value again through the `children` of the root. -/
theorem C57_postorder_context_false :
    ∃ s, Postorder.attachContext (Postorder.new (Tree.node 0 [.node 1 []])) = .ok s ∧
      ([9] ++ (Tree.node 0 [.node 1 []]).preorder).Nodup ∧ ¬ Postorder.lendContext.Exclusive s [9] := by
  refine ⟨_, rfl, by decide, fun h => ?_⟩
  have h1 : Postorder.lendContext.next (Postorder.CtxState.new (Tree.node 0 [.node 1 []]) []) =
      .ok (some ⟨[0], [0, 1], some []⟩, ⟨none, [[]], [[.node 1 []]], [0], [1, 0], some []⟩) := by
    with_unfolding_all rfl
  have h2 : Postorder.lendContext.next (⟨none, [[]], [[.node 1 []]], [0], [9, 0], some []⟩ : Postorder.CtxState (Tree Nat) Nat) =
      .ok (some ⟨[], [0], some [.node 1 []]⟩, ⟨none, [], [], [], [0], some [.node 1 []]⟩) := by
    with_unfolding_all rfl
  have h3 := Lending.Reach.exchange (it := Postorder.lendContext) (p' := [1]) (dropped := []) (o' := ⟨[0], [0, 9], some []⟩)
    (.next (p₀ := [9]) .start h1) rfl (by decide +kernel)
  have h4 := h _ _ (.next h3 h2) _ rfl
  exact absurd h4 (by decide +kernel)

/-- C57 is false for `dfs_postorder_iter_mut().attach_context()` of binary nodes in the same way. -/
theorem C57_postorder_context_binary_false :
    ∃ s, Postorder.binAttachContext (Postorder.new (BinTree.node 0 (some (.node 1 none none)) none)) = .ok s ∧
      ([9] ++ (BinTree.node 0 (some (.node 1 none none)) none).toTree.preorder).Nodup ∧
      ¬ Postorder.lendBinContext.Exclusive s [9] := by
  refine ⟨_, rfl, by decide +kernel, fun h => ?_⟩
  have h1 : Postorder.lendBinContext.next (Postorder.BinCtxState.new (BinTree.node 0 (some (.node 1 none none)) none) []) =
      .ok (some ⟨[0], [0, 1], some (none, none)⟩,
        ⟨none, [[none]], [(some (.node 1 none none), none)], [0], [1, 0], some (none, none)⟩) := by
    with_unfolding_all rfl
  have h2 : Postorder.lendBinContext.next (⟨none, [[none]], [(some (.node 1 none none), none)], [0], [9, 0], some (none, none)⟩ :
      Postorder.BinCtxState (BinTree Nat) Nat) =
      .ok (some ⟨[], [0], some (some (.node 1 none none), none)⟩,
        ⟨none, [], [], [], [0], some (some (.node 1 none none), none)⟩) := by
    with_unfolding_all rfl
  have h3 := Lending.Reach.exchange (it := Postorder.lendBinContext) (p' := [1]) (dropped := []) (o' := ⟨[0], [0, 9], some (none, none)⟩)
    (.next (p₀ := [9]) .start h1) rfl (by decide +kernel)
  have h4 := h _ _ (.next h3 h2) _ rfl
  exact absurd h4 (by decide +kernel)

/-- C57 is false for `dfs_inorder_iter_mut().attach_context()`: on a root `0` with the right child `1`, a client that takes the
right child out of the context of the root (`Option::take`) finds the reference to its value in the next context. -/
theorem C57_inorder_context_false :
    ∃ s, Inorder.attachContext (Inorder.new (BinTree.node 0 none (some (.node 1 none none)))) = .ok s ∧
      ([] ++ (BinTree.node 0 none (some (.node 1 none none))).toTree.preorder).Nodup ∧
      ¬ Inorder.lendContext.Exclusive s [] := by
  refine ⟨_, rfl, by decide +kernel, fun h => ?_⟩
  have h1 : Inorder.lendContext.next (Inorder.CtxState.new (BinTree.node 0 none (some (.node 1 none none))) []) =
      .ok (some ⟨[], [0], some (none, some (.node 1 none none))⟩,
        ⟨[some (.node 1 none none)], [], [0], some (none, some (.node 1 none none)), [], [.returnedSelf]⟩) := by
    with_unfolding_all rfl
  have h2 : Inorder.lendContext.next (⟨[some (.node 1 none none)], [], [0], some (none, none), [], [.returnedSelf]⟩ :
      Inorder.CtxState (BinTree Nat) Nat) =
      .ok (some ⟨[1], [0, 1], some (none, none)⟩, ⟨[none], [1], [1, 0], some (none, none), [], [.returnedSelf, .wentRight]⟩) := by
    with_unfolding_all rfl
  have h3 := Lending.Reach.exchange (it := Inorder.lendContext) (p' := [1]) (dropped := []) (o' := ⟨[], [0], some (none, none)⟩)
    (.next (p₀ := []) .start h1) rfl (by decide +kernel)
  have h4 := h _ _ (.next h3 h2) _ rfl
  exact absurd h4 (by decide +kernel)

/-- C57, `dfs_postorder_iter_mut().attach_context()`: a client that exchanges references to values only, and neither
takes nodes out of `children` nor keeps references to them, holds no reference twice.  Missing: clients that use `children`,
for which C57 is false (`C57_postorder_context_false`). -/
theorem C57_postorder_context_partial [TreeNode N V] (n : N) (p : List V) (h : (p ++ (treeOf n).preorder).Nodup) :
    ∃ s, Postorder.attachContext (Postorder.new n) = .ok s ∧ Postorder.lendContext.ancestorsOnly.Exclusive s p := by
  classical
  refine ⟨_, rfl, Postorder.accountsContextAncestorsOnly.exclusive trivial ?_⟩
  simpa [Postorder.CtxState.new, Postorder.CtxState.own, Postorder.OwnCtxState.map, Postorder.OwnCtxState.live, pend] using h

example := C57_postorder_context_partial sampleTree [9] (by decide +kernel)

/-- C57, `dfs_postorder_iter_mut().attach_context()` of binary nodes, for clients that exchange references to values only.
Missing: clients that use `children`. -/
theorem C57_postorder_context_binary_partial [BinNode N V] (n : N) (p : List V) (h : (p ++ (binTreeOf n).toTree.preorder).Nodup) :
    ∃ s, Postorder.binAttachContext (Postorder.new n) = .ok s ∧ Postorder.lendBinContext.ancestorsOnly.Exclusive s p := by
  classical
  refine ⟨_, rfl, Postorder.accountsBinContextAncestorsOnly.exclusive trivial ?_⟩
  simpa [Postorder.BinCtxState.new, Postorder.BinCtxState.own, Postorder.OwnBinCtxState.map, Postorder.OwnBinCtxState.live, pend2, slotVals] using h

example := C57_postorder_context_binary_partial sampleBin [9] (by decide +kernel)

/-- C57, `dfs_inorder_iter_mut().attach_context()`, for clients that exchange references to values only.  Missing: clients
that use `children`. -/
theorem C57_inorder_context_partial [BinNode N V] (n : N) (p : List V) (h : (p ++ (binTreeOf n).toTree.preorder).Nodup) :
    ∃ s, Inorder.attachContext (Inorder.new n) = .ok s ∧ Inorder.lendContext.ancestorsOnly.Exclusive s p := by
  classical
  refine ⟨_, rfl, Inorder.accountsContextAncestorsOnly.exclusive trivial ?_⟩
  simpa [Inorder.CtxState.new, Inorder.CtxState.own, Inorder.OwnCtxState.map, Inorder.OwnCtxState.live, slotVals] using h

example := C57_inorder_context_partial sampleBin [9] (by decide +kernel)

/-! ## What is put is what is there -/

/-- `get_mut` hands out the item itself: what a client leaves there is what it would be shown again (provided `shows`: the
slice of ancestors is not empty), leaving the item as it is changes nothing, and only what was left last counts. -/
structure Lending.Lawful {S : Type u} {O : Type v} {R : Type w} (it : Lending S O R) (shows : O → Prop) : Prop where
  get_put : ∀ s o o', it.get s = some o → shows o' → it.get (it.put s o') = some o'
  put_get : ∀ s o, it.get s = some o → it.put s o = s
  put_put : ∀ s o o', it.put (it.put s o) o' = it.put s o'

theorem slice_lawful {S : Type u} {R : Type w} {it : Lending S (List R) R} (items : S → List R) (set : S → List R → S)
    (hg : ∀ s, it.get s = if items s = [] then none else some (items s).reverse)
    (hp : ∀ s as, it.put s as = set s as.reverse) (h1 : ∀ s l, items (set s l) = l) (h2 : ∀ s, set s (items s) = s)
    (h3 : ∀ s l l', set (set s l) l' = set s l') : it.Lawful (· ≠ []) where
  get_put s o o' _ h := by simp [hg, hp, h1, h]
  put_get s o h := by
    rw [hg] at h
    split at h
    · simp at h
    · simp only [Option.some.injEq] at h
      rw [hp, ← h, List.reverse_reverse, h2]
  put_put s o o' := by simp [hp, h3]

theorem context_lawful {S : Type u} {C : Type x} {R : Type w} {it : Lending S (Ctx R C) R}
    (path : S → List Nat) (anc : S → List R) (cs : S → Option C) (set : S → List Nat → List R → Option C → S)
    (hg : ∀ s, it.get s = if anc s = [] then none else some ⟨(path s).reverse, (anc s).reverse, cs s⟩)
    (hp : ∀ s c, it.put s c = set s c.path.reverse c.ancestors.reverse c.children)
    (h1 : ∀ s a b c, path (set s a b c) = a ∧ anc (set s a b c) = b ∧ cs (set s a b c) = c)
    (h2 : ∀ s, set s (path s) (anc s) (cs s) = s)
    (h3 : ∀ s a b c a' b' c', set (set s a b c) a' b' c' = set s a' b' c') : it.Lawful fun c => c.ancestors ≠ [] where
  get_put s o o' _ h := by simp [hg, hp, h1, h]
  put_get s o h := by
    rw [hg] at h
    split at h
    · simp at h
    · simp only [Option.some.injEq] at h
      rw [hp, ← h]
      simp only [List.reverse_reverse, h2]
  put_put s o o' := by simp [hp, h3]

/-- C57: `get_mut` of the mutably borrowed iterators over general nodes. -/
theorem C57_lawful [TreeNode N V] :
    (Preorder.lendAncestors (N := N) (V := V)).Lawful (· ≠ []) ∧ (Postorder.lendAncestors (N := N) (V := V)).Lawful (· ≠ []) ∧
    (Bfs.lendAncestors (N := N) (V := V)).Lawful (· ≠ []) ∧ (Leaves.lendAncestors (N := N) (V := V)).Lawful (· ≠ []) ∧
    (Bfs.lendLeaves (N := N) (V := V)).Lawful (· ≠ []) ∧
    (Preorder.lendContext (N := N) (V := V)).Lawful (·.ancestors ≠ []) ∧
    (Postorder.lendContext (N := N) (V := V)).Lawful (·.ancestors ≠ []) ∧
    (Bfs.lendContext (N := N) (V := V)).Lawful (·.ancestors ≠ []) := by
  refine ⟨?_, ?_, ?_, ?_, ?_, ?_, ?_, ?_⟩
  · refine slice_lawful (·.items) (fun s l => { s with items := l }) ?_ ?_ ?_ ?_ ?_ <;> intros <;>
      simp [Preorder.lendAncestors, Preorder.ancGet, List.length_pos_iff]
  · refine slice_lawful (·.items) (fun s l => { s with items := l }) ?_ ?_ ?_ ?_ ?_ <;> intros <;>
      simp [Postorder.lendAncestors, Postorder.ancGet, List.length_pos_iff]
  · refine slice_lawful (·.cs.items) (fun s l => { s with cs := { s.cs with items := l } }) ?_ ?_ ?_ ?_ ?_ <;> intros <;>
      simp [Bfs.lendAncestors, Bfs.ancGet]
  · refine slice_lawful (·.items) (fun s l => { s with items := l }) ?_ ?_ ?_ ?_ ?_ <;> intros <;>
      simp [Leaves.lendAncestors, Leaves.ancGet]
  · refine slice_lawful (·.cs.items) (fun s l => { s with cs := { s.cs with items := l } }) ?_ ?_ ?_ ?_ ?_ <;> intros <;>
      simp [Bfs.lendLeaves, Bfs.ancGet]
  · refine context_lawful (·.path) (·.ancestors) (·.children)
      (fun s a b c => { s with path := a, ancestors := b, children := c }) ?_ ?_ ?_ ?_ ?_ <;> intros <;>
      simp [Preorder.lendContext, Preorder.ctxGet]
  · refine context_lawful (·.path) (·.ancestors) (·.children)
      (fun s a b c => { s with path := a, ancestors := b, children := c }) ?_ ?_ ?_ ?_ ?_ <;> intros <;>
      simp [Postorder.lendContext, Postorder.ctxGet]
  · refine context_lawful (·.cc.path) (·.cc.ancestors) (·.children)
      (fun s a b c => { s with cc := { s.cc with path := a, ancestors := b }, children := c }) ?_ ?_ ?_ ?_ ?_ <;> intros <;>
      simp [Bfs.lendContext, Bfs.ctxGet]

/-- C57: `get_mut` of the mutably borrowed iterators over binary nodes. -/
theorem C57_lawful_binary [BinNode N V] :
    (Inorder.lendAncestors (N := N) (V := V)).Lawful (· ≠ []) ∧
    (Preorder.lendBinContext (N := N) (V := V)).Lawful (·.ancestors ≠ []) ∧
    (Postorder.lendBinContext (N := N) (V := V)).Lawful (·.ancestors ≠ []) ∧
    (Inorder.lendContext (N := N) (V := V)).Lawful (·.ancestors ≠ []) ∧
    (Bfs.lendBinContext (N := N) (V := V)).Lawful (·.ancestors ≠ []) := by
  refine ⟨?_, ?_, ?_, ?_, ?_⟩
  · refine slice_lawful (·.items) (fun s l => { s with items := l }) ?_ ?_ ?_ ?_ ?_ <;> intros <;>
      simp [Inorder.lendAncestors, Inorder.ancGet, List.length_pos_iff]
  · refine context_lawful (·.path) (·.ancestors) (·.children)
      (fun s a b c => { s with path := a, ancestors := b, children := c }) ?_ ?_ ?_ ?_ ?_ <;> intros <;>
      simp [Preorder.lendBinContext, Preorder.binCtxGet]
  · refine context_lawful (·.path) (·.ancestors) (·.children)
      (fun s a b c => { s with path := a, ancestors := b, children := c }) ?_ ?_ ?_ ?_ ?_ <;> intros <;>
      simp [Postorder.lendBinContext, Postorder.binCtxGet]
  · refine context_lawful (·.path) (·.ancestors) (·.children)
      (fun s a b c => { s with path := a, ancestors := b, children := c }) ?_ ?_ ?_ ?_ ?_ <;> intros <;>
      simp [Inorder.lendContext, Inorder.ctxGet]
  · refine context_lawful (·.cc.path) (·.cc.ancestors) (·.children)
      (fun s a b c => { s with cc := { s.cc with path := a, ancestors := b }, children := c }) ?_ ?_ ?_ ?_ ?_ <;> intros <;>
      simp [Bfs.lendBinContext, Bfs.ctxGet]

/-- C57: `get_mut` of a collection of trees, if it is so for the iterators over single trees. -/
theorem C57_lawful_collection {S : Type x} {O : Type w} (mk : N → List Nat → S) (advance : S → Except Panic S)
    {it : Lending S O V} {shows : O → Prop} (h : it.Lawful shows) : (Coll.lend mk advance it).Lawful shows where
  get_put s o o' hs hs' := by
    obtain ⟨rest, index, _ | i⟩ := s
    · simp [Coll.lend, Coll.ctxGet] at hs
    · exact h.get_put i o o' hs hs'
  put_get s o hs := by
    obtain ⟨rest, index, _ | i⟩ := s
    · simp [Coll.lend, Coll.ctxGet] at hs
    · simp only [Coll.lend, Option.map_some]
      rw [h.put_get i o hs]
  put_put s o o' := by
    obtain ⟨rest, index, _ | i⟩ := s
    · rfl
    · simp only [Coll.lend, Option.map_some, h.put_put]

/-! ## Clients to which the theorems apply -/

/-- A client of the preorder ancestors of `sampleTree` that keeps the reference to the root and puts its own `9` there. -/
example : ∃ s, Preorder.lendAncestors.Reach (Preorder.AncState.new sampleTree) [9] s [0] ∧
    Preorder.lendAncestors.get s = some [9, 1] := by
  have h1 : Preorder.lendAncestors.next (Preorder.AncState.new sampleTree) = .ok (some [0], _) := rfl
  have h2 := Lending.Reach.exchange (it := Preorder.lendAncestors) (p' := [0]) (dropped := []) (o' := [9])
    (.next (p₀ := [9]) .start h1) rfl (by decide +kernel)
  exact ⟨_, .next h2 rfl, rfl⟩

/-- The hypothesis of C57 for it. -/
example : ([9] ++ (treeOf sampleTree).preorder).Nodup := by decide +kernel

/-- A client of the preorder contexts of `sampleTree` that takes the second child of the root: the traversal goes on in
the first. -/
example : ∃ s, Preorder.lendContext.Reach (Preorder.CtxState.new sampleTree []) [] s [2, 5] ∧
    (Preorder.lendContext.get s).map Ctx.ancestors = some [0, 1] := by
  have h1 : Preorder.lendContext.next (Preorder.CtxState.new sampleTree []) = .ok (some ⟨[], [0], _⟩, _) := rfl
  have h2 := Lending.Reach.exchange (it := Preorder.lendContext) (p' := [2, 5]) (dropped := [])
    (o' := ⟨[], [0], some [.node 1 [.node 3 [], .node 4 []]]⟩) (.next (p₀ := []) .start h1) rfl (by decide +kernel)
  exact ⟨_, .next h2 rfl, rfl⟩

end TreeIter
