import Verif.Lemmas.Exchange
import Verif.Lemmas.Inorder
import Verif.Lemmas.Postorder

/-! # Accounting for the references in ancestors and contexts, per iterator -/

universe u v

namespace TreeIter

variable {N : Type u} {V : Type v}

theorem pairVals_refs [BinNode N V] [DecidableEq V] (ch : Option (Option N × Option N)) (a : V) :
    (Preorder.pairVals (ch.map (Prod.map (Option.map (binTreeOf (V := V))) (Option.map binTreeOf)))).count a =
      (((ch.getD (none, none)).1.toList ++ (ch.getD (none, none)).2.toList).flatMap fun n =>
        (binTreeOf (V := V) n).toTree.preorder).count a := by
  rcases ch with _ | ⟨_ | l, _ | r⟩ <;> simp [Preorder.pairVals, slotVals]

theorem pend_refs [TreeNode N V] [DecidableEq V] (ch : Option (List N)) (a : V) :
    (pend (ch.map (List.map (treeOf (V := V)))).toList).count a =
      ((ch.getD []).flatMap fun n => (treeOf (V := V) n).preorder).count a := by
  cases ch <;> simp [pend, List.flatMap_map]

variable [DecidableEq V]

theorem Preorder.accountsAncestors [TreeNode N V] :
    (Preorder.lendAncestors (N := N) (V := V)).Accounts (fun s => (s.map treeOf id).live)
      (fun _ => True) := by
  refine ⟨?_, ?_, ?_⟩
  · intro s o s' _ hs
    refine ⟨fun a => ?_, trivial⟩
    exact Preorder.lend_next s o s' hs a
  · intro s o ho a
    rw [Preorder.ancGet_items s o ho]
    simp [Preorder.lendAncestors, Preorder.AncState.live, Preorder.AncState.map]
  · intro s o o' _ ho
    rw [Preorder.ancGet_items s o ho]
    refine ⟨fun a => ?_, trivial⟩
    simp only [Preorder.lendAncestors, Preorder.AncState.live, Preorder.AncState.map, List.map_id, List.count_append,
      List.count_reverse, id]
    omega

theorem Postorder.accountsAncestors [TreeNode N V] :
    (Postorder.lendAncestors (N := N) (V := V)).Accounts (fun s => (s.map treeOf id).live)
      (fun _ => True) := by
  refine ⟨?_, ?_, ?_⟩
  · intro s o s' _ hs
    refine ⟨fun a => ?_, trivial⟩
    exact Postorder.lend_next s o s' hs a
  · intro s o ho a
    rw [Postorder.ancGet_items s o ho]
    simp [Postorder.lendAncestors, Postorder.AncState.live, Postorder.AncState.map]
  · intro s o o' _ ho
    rw [Postorder.ancGet_items s o ho]
    refine ⟨fun a => ?_, trivial⟩
    simp only [Postorder.lendAncestors, Postorder.AncState.live, Postorder.AncState.map, List.map_id, List.count_append,
      List.count_reverse, id]
    omega

theorem Inorder.accountsAncestors [BinNode N V] :
    (Inorder.lendAncestors (N := N) (V := V)).Accounts (fun s => (s.map binTreeOf id).live)
      (fun _ => True) := by
  refine ⟨?_, ?_, ?_⟩
  · intro s o s' _ hs
    refine ⟨fun a => ?_, trivial⟩
    exact Inorder.lend_next s o s' hs a
  · intro s o ho a
    rw [Inorder.ancGet_items s o ho]
    simp [Inorder.lendAncestors, Inorder.AncState.live, Inorder.AncState.map]
  · intro s o o' _ ho
    rw [Inorder.ancGet_items s o ho]
    refine ⟨fun a => ?_, trivial⟩
    simp only [Inorder.lendAncestors, Inorder.AncState.live, Inorder.AncState.map, List.map_id, List.count_append,
      List.count_reverse, id]
    omega

theorem Bfs.accountsAncestors [TreeNode N V] :
    (Bfs.lendAncestors (N := N) (V := V)).Accounts (fun s => (s.map treeOf id).allVals)
      (fun s => Bfs.NoValue (s.map treeOf id).cs) := by
  refine ⟨?_, ?_, ?_⟩
  · intro s o s' hi hs
    exact Bfs.lend_next s o s' hi hs
  · intro s o ho a
    rw [Bfs.ancGet_items s o ho]
    simp [Bfs.lendAncestors, Bfs.AncState.allVals, Bfs.AncState.map, Bfs.CacheState.live, Bfs.CacheState.map]
  · intro s o o' hi ho
    rw [Bfs.ancGet_items s o ho]
    refine ⟨fun a => ?_, hi⟩
    simp only [Bfs.lendAncestors, Bfs.AncState.allVals, Bfs.AncState.map, Bfs.CacheState.live, Bfs.CacheState.kept,
      Bfs.CacheState.map, List.map_id, List.count_append, List.count_reverse, id]
    omega

theorem Preorder.accountsContext [TreeNode N V] :
    (Preorder.lendContext (N := N) (V := V)).Accounts (fun s => (s.map treeOf id).live)
      (fun _ => True) := by
  refine ⟨?_, ?_, ?_⟩
  · intro s o s' _ hs
    refine ⟨fun a => ?_, trivial⟩
    have h1 := Preorder.ctxNext_map treeOf_hom s
    rw [show Preorder.ctxNext s = .ok (o, s') from hs] at h1
    exact Preorder.ctxAdvance_count _ _ a (streamNextE_ok h1).1
  · intro s o ho a
    simp only [Preorder.lendContext, Preorder.ctxGet] at ho
    split at ho
    · cases ho
    · obtain rfl := Option.some.inj ho
      obtain ⟨root, st, path, anc, ch⟩ := s
      cases ch <;>
        simp only [Preorder.lendContext, Ctx.refs, Preorder.CtxState.live, Preorder.CtxState.map, List.map_id, pend,
          Option.getD_none, Option.getD_some, Option.map_some, Option.map_none, Option.toList_some, Option.toList_none,
          List.flatMap_cons, List.flatMap_nil, List.flatMap_map, List.count_append, List.count_reverse, List.count_nil] <;>
        omega
  · intro s o o' _ ho
    refine ⟨fun a => ?_, trivial⟩
    simp only [Preorder.lendContext, Preorder.ctxGet] at ho
    split at ho
    · cases ho
    · obtain rfl := Option.some.inj ho
      obtain ⟨root, st, path, anc, ch⟩ := s
      obtain ⟨path', anc', ch'⟩ := o'
      cases ch <;> cases ch' <;>
        simp only [Preorder.lendContext, Ctx.refs, Preorder.CtxState.live, Preorder.CtxState.map, List.map_id, pend,
          Option.getD_none, Option.getD_some, Option.map_some, Option.map_none, Option.toList_some, Option.toList_none,
          List.flatMap_cons, List.flatMap_nil, List.flatMap_map, List.count_append, List.count_reverse, List.count_nil] <;>
        omega

theorem Preorder.accountsBinContext [BinNode N V] :
    (Preorder.lendBinContext (N := N) (V := V)).Accounts (fun s => (s.map binTreeOf id).live)
      (fun _ => True) := by
  refine ⟨?_, ?_, ?_⟩
  · intro s o s' _ hs
    refine ⟨fun a => ?_, trivial⟩
    have h1 := Preorder.binCtxNext_map binTreeOf_hom s
    rw [show Preorder.binCtxNext s = .ok (o, s') from hs] at h1
    exact Preorder.binCtxAdvance_count _ _ a (streamNextE_ok h1).1
  · intro s o ho a
    simp only [Preorder.lendBinContext, Preorder.binCtxGet] at ho
    split at ho
    · cases ho
    · obtain rfl := Option.some.inj ho
      obtain ⟨root, st, path, anc, ch⟩ := s
      have h1 := pairVals_refs ch a
      simp only [Preorder.lendBinContext, Ctx.binRefs, Preorder.BinCtxState.live, Preorder.BinCtxState.map, List.map_id,
        List.count_append, List.count_reverse] at h1 ⊢
      omega
  · intro s o o' _ ho
    refine ⟨fun a => ?_, trivial⟩
    simp only [Preorder.lendBinContext, Preorder.binCtxGet] at ho
    split at ho
    · cases ho
    · obtain rfl := Option.some.inj ho
      obtain ⟨root, st, path, anc, ch⟩ := s
      obtain ⟨path', anc', ch'⟩ := o'
      have h1 := pairVals_refs ch a
      have h2 := pairVals_refs ch' a
      simp only [Preorder.lendBinContext, Ctx.binRefs, Preorder.BinCtxState.live, Preorder.BinCtxState.map, List.map_id,
        List.count_append, List.count_reverse] at h1 h2 ⊢
      omega

theorem Bfs.accountsContext [TreeNode N V] :
    (Bfs.lendContext (N := N) (V := V)).Accounts (fun s => (s.mapG treeOf id).all)
      (fun s => (s.mapG (treeOf (V := V)) id).cc.NoValue) := by
  refine ⟨?_, ?_, ?_⟩
  · intro s o s' hi hs
    have h1 := Bfs.ctxNext_map treeOf_hom s
    rw [show Bfs.ctxNext s = .ok (o, s') from hs] at h1
    have h2 := Bfs.ctxAdvance_count _ _ hi (streamNextE_ok h1).1
    exact ⟨fun a => (h2 a).1, fun t ht => Option.eq_none_iff_forall_ne_some.2 fun v hv => by
      rw [(h2 v.1).2 t ht] at hv; cases hv⟩
  · intro s o ho a
    simp only [Bfs.lendContext, Bfs.ctxGet] at ho
    split at ho
    · cases ho
    · obtain rfl := Option.some.inj ho
      obtain ⟨isRoot, cc, ch, queue, k⟩ := s
      have h1 := pend_refs ch a
      simp only [Bfs.lendContext, Ctx.refs, Bfs.CtxState.all, Bfs.CtxState.mapG, Bfs.CtxCache.map, Bfs.CtxCache.live, List.map_id,
        List.count_append, List.count_reverse] at h1 ⊢
      omega
  · intro s o o' hi ho
    refine ⟨fun a => ?_, hi⟩
    simp only [Bfs.lendContext, Bfs.ctxGet] at ho
    split at ho
    · cases ho
    · obtain rfl := Option.some.inj ho
      obtain ⟨isRoot, cc, ch, queue, k⟩ := s
      obtain ⟨path', anc', ch'⟩ := o'
      have h1 := pend_refs ch a
      have h2 := pend_refs ch' a
      simp only [Bfs.lendContext, Ctx.refs, Bfs.CtxState.all, Bfs.CtxState.mapG, Bfs.CtxCache.map, Bfs.CtxCache.live,
        Bfs.CtxCache.kept, List.map_id, List.count_append, List.count_reverse] at h1 h2 ⊢
      omega

theorem Bfs.accountsBinContext [BinNode N V] :
    (Bfs.lendBinContext (N := N) (V := V)).Accounts (fun s => (s.mapB binTreeOf id).binAll)
      (fun s => (s.mapB (binTreeOf (V := V)) id).cc.NoValue) := by
  refine ⟨?_, ?_, ?_⟩
  · intro s o s' hi hs
    have h1 := Bfs.binCtxNext_map binTreeOf_hom s
    rw [show Bfs.binCtxNext s = .ok (o, s') from hs] at h1
    have h2 := Bfs.binCtxAdvance_count _ _ hi (streamNextE_ok h1).1
    exact ⟨fun a => (h2 a).1, fun t ht => Option.eq_none_iff_forall_ne_some.2 fun v hv => by
      rw [(h2 v.1).2 t ht] at hv; cases hv⟩
  · intro s o ho a
    simp only [Bfs.lendBinContext, Bfs.ctxGet] at ho
    split at ho
    · cases ho
    · obtain rfl := Option.some.inj ho
      obtain ⟨isRoot, cc, ch, queue, k⟩ := s
      have h1 := pairVals_refs ch a
      simp only [Bfs.lendBinContext, Ctx.binRefs, Bfs.CtxState.binAll, Bfs.CtxState.mapB, Bfs.CtxCache.map, Bfs.CtxCache.live,
        List.map_id, List.count_append, List.count_reverse] at h1 ⊢
      omega
  · intro s o o' hi ho
    refine ⟨fun a => ?_, hi⟩
    simp only [Bfs.lendBinContext, Bfs.ctxGet] at ho
    split at ho
    · cases ho
    · obtain rfl := Option.some.inj ho
      obtain ⟨isRoot, cc, ch, queue, k⟩ := s
      obtain ⟨path', anc', ch'⟩ := o'
      have h1 := pairVals_refs ch a
      have h2 := pairVals_refs ch' a
      simp only [Bfs.lendBinContext, Ctx.binRefs, Bfs.CtxState.binAll, Bfs.CtxState.mapB, Bfs.CtxCache.map, Bfs.CtxCache.live,
        Bfs.CtxCache.kept, List.map_id, List.count_append, List.count_reverse] at h1 h2 ⊢
      omega

theorem Postorder.accountsContextAncestorsOnly [TreeNode N V] :
    (Postorder.lendContext (N := N) (V := V)).ancestorsOnly.Accounts (fun s => (s.own.map treeOf id).live)
      (fun _ => True) := by
  refine ⟨?_, ?_, ?_⟩
  · intro s o s' _ hs
    refine ⟨fun a => ?_, trivial⟩
    have h1 := Postorder.ownCtxNext_map treeOf_hom s.own
    rw [Postorder.ownCtxNext_sim s s' o hs] at h1
    exact Postorder.ownCtxAdvance_count _ _ a (streamNextE_ok h1).1
  · intro s o ho a
    simp only [Lending.ancestorsOnly, Postorder.lendContext, Postorder.ctxGet] at ho
    split at ho
    · cases ho
    · obtain rfl := Option.some.inj ho
      simp [Lending.ancestorsOnly, Postorder.CtxState.own, Postorder.OwnCtxState.live, Postorder.OwnCtxState.map]
  · intro s o o' _ ho
    refine ⟨fun a => ?_, trivial⟩
    simp only [Lending.ancestorsOnly, Postorder.lendContext, Postorder.ctxGet] at ho
    split at ho
    · cases ho
    · obtain rfl := Option.some.inj ho
      simp only [Lending.ancestorsOnly, Postorder.lendContext, Postorder.CtxState.own, Postorder.OwnCtxState.live, Postorder.OwnCtxState.map, List.map_id, List.count_append, List.count_reverse]
      omega

theorem Postorder.accountsBinContextAncestorsOnly [BinNode N V] :
    (Postorder.lendBinContext (N := N) (V := V)).ancestorsOnly.Accounts (fun s => (s.own.map binTreeOf id).live)
      (fun _ => True) := by
  refine ⟨?_, ?_, ?_⟩
  · intro s o s' _ hs
    refine ⟨fun a => ?_, trivial⟩
    have h1 := Postorder.ownBinCtxNext_map binTreeOf_hom s.own
    rw [show Postorder.ownBinCtxNext s.own = _ from Postorder.ownBinCtxNext_sim { s with children := none } s' o hs] at h1
    exact Postorder.ownBinCtxAdvance_count _ _ a (streamNextE_ok h1).1
  · intro s o ho a
    simp only [Lending.ancestorsOnly, Postorder.lendBinContext, Postorder.binCtxGet] at ho
    split at ho
    · cases ho
    · obtain rfl := Option.some.inj ho
      simp [Lending.ancestorsOnly, Postorder.BinCtxState.own, Postorder.OwnBinCtxState.live, Postorder.OwnBinCtxState.map]
  · intro s o o' _ ho
    refine ⟨fun a => ?_, trivial⟩
    simp only [Lending.ancestorsOnly, Postorder.lendBinContext, Postorder.binCtxGet] at ho
    split at ho
    · cases ho
    · obtain rfl := Option.some.inj ho
      simp only [Lending.ancestorsOnly, Postorder.lendBinContext, Postorder.BinCtxState.own, Postorder.OwnBinCtxState.live, Postorder.OwnBinCtxState.map, List.map_id, List.count_append, List.count_reverse]
      omega

theorem Inorder.accountsContextAncestorsOnly [BinNode N V] :
    (Inorder.lendContext (N := N) (V := V)).ancestorsOnly.Accounts (fun s => (s.own.map binTreeOf id).live)
      (fun _ => True) := by
  refine ⟨?_, ?_, ?_⟩
  · intro s o s' _ hs
    refine ⟨fun a => ?_, trivial⟩
    have h1 := Inorder.ownNext_map binTreeOf_hom s.own
    rw [Inorder.ownNext_sim s s' o hs] at h1
    exact Inorder.ownAdvance_count _ _ a (streamNextE_ok h1).1
  · intro s o ho a
    simp only [Lending.ancestorsOnly, Inorder.lendContext, Inorder.ctxGet] at ho
    split at ho
    · cases ho
    · obtain rfl := Option.some.inj ho
      simp [Lending.ancestorsOnly, Inorder.CtxState.own, Inorder.OwnCtxState.live, Inorder.OwnCtxState.map]
  · intro s o o' _ ho
    refine ⟨fun a => ?_, trivial⟩
    simp only [Lending.ancestorsOnly, Inorder.lendContext, Inorder.ctxGet] at ho
    split at ho
    · cases ho
    · obtain rfl := Option.some.inj ho
      simp only [Lending.ancestorsOnly, Inorder.lendContext, Inorder.CtxState.own, Inorder.OwnCtxState.live, Inorder.OwnCtxState.map, List.map_id, List.count_append, List.count_reverse]
      omega

end TreeIter
