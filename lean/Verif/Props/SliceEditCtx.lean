import Verif.Lemmas.SliceEditBfsCtx
import Verif.Props.SliceEdit
import Verif.Props.BreadthFirstCtx

/-! # C55: editing the ancestors in the contexts of an owned traversal

As for the ancestor iterators, with a body that sees the path too and writes through `ancestors_mut`. -/

universe u v w

namespace TreeIter

variable {N : Type u} {V : Type v} {σ : Type w}

theorem map_seen {C : Type u} {α : Type w} (l : List α) (c : α → Ctx V C) (i : Nat) :
    (Except.ok (l.map c)[i]? : Except Panic _).map (·.map Ctx.seen) = .ok (l.map fun a => (c a).seen)[i]? := by
  simp [Except.map]
  rfl

/-- C55, preorder contexts: with values written through `ancestors_mut`, the body of a loop over
`dfs_preorder().attach_context()` sees what it would see if all nodes were in one tree in memory and it wrote to that
tree. -/
theorem C55_preorder_context [TreeNode N V] (n : N) (h : ArityOk n) (f : List Nat → σ → List V → σ × List V) (w : σ) :
    ∃ s, Preorder.attachContext (Preorder.new n) = .ok s ∧ ∀ k,
      ctxEditLoop Preorder.ctxNext Preorder.CtxState.edit f k s w =
        .ok ((((treeOf n).located.preorder.map Pos.path).take k).foldl
          (fun mw p => visitAlong Tree.cell Tree.setCell (f p) mw p) (treeOf n, w)).2 := by
  refine ⟨_, rfl, fun k => ?_⟩
  obtain ⟨g, hg⟩ := exists_fill (treeOf n)
  rw [← ctxEditLoop_hom (next' := Preorder.ctxNext (N := Tree V)) (edit' := Preorder.CtxState.edit)
    (Preorder.CtxState.map treeOf id) (List.map treeOf) (fun s => Preorder.ctxNext_map treeOf_hom s) (fun s ys => by
      simp [Preorder.CtxState.map, Preorder.CtxState.edit])]
  have h0 : (Preorder.CtxState.new n []).map (treeOf (V := V)) id =
      (Preorder.CtxState.new ((treeOf n).located.map Pos.path) []).map (Tree.map g) g := by
    simp [Preorder.CtxState.new, Preorder.CtxState.map, map_paths _ _ hg]
  refine Eq.trans (congrArg (fun s => ctxEditLoop _ _ f k s w) h0) ?_
  refine ctxEditLoop_tree (nextA := Preorder.ctxNext) (fun g => Preorder.CtxState.map (Tree.map g) g) (fun g => List.map (Tree.map g))
    (fun s => s.live.Nodup) (fun g s => ?_) (fun s o s' hs h => ?_) (fun s c s' hs h g ys => ?_) f k _ ?_ _ g w hg _ ?_ (fun i => ?_)
  · exact Preorder.ctxNext_map (treeMap_hom g) s
  · exact Preorder.ctxAdvance_live s s' hs (streamNextE_ok h).1
  · obtain ⟨h1, h2⟩ := streamNextE_ok h
    rw [Preorder.ctxGet_ancestors _ _ h2]
    exact Preorder.ctxEdit_map _ (Preorder.ctxAdvance_live s s' hs h1) g ys
  · simpa [Preorder.CtxState.new, Preorder.CtxState.live, pend, Tree.preorder_map] using located_nodup (treeOf n)
  · intro p hp
    obtain ⟨q, hq, rfl⟩ := List.mem_map.1 hp
    rw [cell_of_mem_located _ q hq]
    rfl
  · obtain ⟨s, h1, h2⟩ := C10_preorder_context ((treeOf n).located.map Pos.path) (arityOk_paths n h)
    cases h1
    rw [h2, map_seen]
    have := congrArg (fun t => Tree.preorder t) (seen_located (treeOf n))
    simp only [Tree.preorder_map] at this
    rw [List.map_map]
    exact congrArg (fun l => Except.ok l[i]?) this

example := C55_preorder_context sampleTree sampleTree_arity (fun p w vs => (w + p.length, vs.map (· + w))) 0

/-- C55, preorder contexts, binary nodes. -/
theorem C55_preorder_context_binary [BinNode N V] (n : N) (f : List Nat → σ → List V → σ × List V) (w : σ) :
    ∃ s, Preorder.binAttachContext (Preorder.new n) = .ok s ∧ ∀ k,
      ctxEditLoop Preorder.binCtxNext Preorder.BinCtxState.edit f k s w =
        .ok ((((binTreeOf n).located.toTree.preorder.map Pos.path).take k).foldl
          (fun mw p => visitAlong BinTree.cell BinTree.setCell (f p) mw p) (binTreeOf n, w)).2 := by
  refine ⟨_, rfl, fun k => ?_⟩
  obtain ⟨g, hg⟩ := exists_fill2 (binTreeOf n)
  rw [← ctxEditLoop_hom (next' := Preorder.binCtxNext (N := BinTree V)) (edit' := Preorder.BinCtxState.edit)
    (Preorder.BinCtxState.map binTreeOf id) (Prod.map (Option.map binTreeOf) (Option.map binTreeOf)) (fun s => Preorder.binCtxNext_map binTreeOf_hom s) (fun s ys => by
      simp [Preorder.BinCtxState.map, Preorder.BinCtxState.edit])]
  have h0 : (Preorder.BinCtxState.new n []).map (binTreeOf (V := V)) id =
      (Preorder.BinCtxState.new ((binTreeOf n).located.map Pos.path) []).map (BinTree.map g) g := by
    simp [Preorder.BinCtxState.new, Preorder.BinCtxState.map, map_paths2 _ _ hg]
  refine Eq.trans (congrArg (fun s => ctxEditLoop _ _ f k s w) h0) ?_
  refine ctxEditLoop_binTree (nextA := Preorder.binCtxNext) (fun g => Preorder.BinCtxState.map (BinTree.map g) g) (fun g => Prod.map (Option.map (BinTree.map g)) (Option.map (BinTree.map g)))
    (fun s => s.live.Nodup) (fun g s => ?_) (fun s o s' hs h => ?_) (fun s c s' hs h g ys => ?_) f k _ ?_ _ g w hg _ ?_ (fun i => ?_)
  · exact Preorder.binCtxNext_map (binTreeMap_hom g) s
  · exact Preorder.binCtxAdvance_live s s' hs (streamNextE_ok h).1
  · obtain ⟨h1, h2⟩ := streamNextE_ok h
    rw [Preorder.binCtxGet_ancestors _ _ h2]
    exact Preorder.binCtxEdit_map _ (Preorder.binCtxAdvance_live s s' hs h1) g ys
  · simpa [Preorder.BinCtxState.new, Preorder.BinCtxState.live, slotVals, Preorder.pairVals, pend2, BinTree.toTree_map, Tree.preorder_map] using
      located2_nodup (binTreeOf n)
  · intro p hp
    obtain ⟨q, hq, rfl⟩ := List.mem_map.1 hp
    rw [cell_of_mem_located2 _ q hq]
    rfl
  · obtain ⟨s, h1, h2⟩ := C11_preorder_context_binary ((binTreeOf n).located.map Pos.path)
    cases h1
    rw [h2, map_seen]
    have := congrArg (fun t => Tree.preorder (BinTree.toTree t)) (seen_located2 (binTreeOf n))
    simp only [Tree.preorder_map, BinTree.toTree_map] at this
    rw [List.map_map]
    exact congrArg (fun l => Except.ok l[i]?) this

/-- C55, postorder contexts. -/
theorem C55_postorder_context [TreeNode N V] (n : N) (h : ArityOk n) (f : List Nat → σ → List V → σ × List V) (w : σ) :
    ∃ s, Postorder.ownAttachContext (Postorder.new n) = .ok s ∧ ∀ k,
      ctxEditLoop Postorder.ownCtxNext Postorder.OwnCtxState.edit f k s w =
        .ok ((((treeOf n).located.postorder.map Pos.path).take k).foldl
          (fun mw p => visitAlong Tree.cell Tree.setCell (f p) mw p) (treeOf n, w)).2 := by
  refine ⟨_, rfl, fun k => ?_⟩
  obtain ⟨g, hg⟩ := exists_fill (treeOf n)
  rw [← ctxEditLoop_hom (next' := Postorder.ownCtxNext (N := Tree V)) (edit' := Postorder.OwnCtxState.edit)
    (Postorder.OwnCtxState.map treeOf id) (List.map treeOf) (fun s => Postorder.ownCtxNext_map treeOf_hom s) (fun s ys => by
      simp [Postorder.OwnCtxState.map, Postorder.OwnCtxState.edit])]
  have h0 : (Postorder.OwnCtxState.new n []).map (treeOf (V := V)) id =
      (Postorder.OwnCtxState.new ((treeOf n).located.map Pos.path) []).map (Tree.map g) g := by
    simp [Postorder.OwnCtxState.new, Postorder.OwnCtxState.map, map_paths _ _ hg]
  refine Eq.trans (congrArg (fun s => ctxEditLoop _ _ f k s w) h0) ?_
  refine ctxEditLoop_tree (nextA := Postorder.ownCtxNext) (fun g => Postorder.OwnCtxState.map (Tree.map g) g) (fun g => List.map (Tree.map g))
    (fun s => s.live.Nodup) (fun g s => ?_) (fun s o s' hs h => ?_) (fun s c s' hs h g ys => ?_) f k _ ?_ _ g w hg _ ?_ (fun i => ?_)
  · exact Postorder.ownCtxNext_map (treeMap_hom g) s
  · exact Postorder.ownCtxAdvance_live s s' hs (streamNextE_ok h).1
  · obtain ⟨h1, h2⟩ := streamNextE_ok h
    rw [Postorder.ownCtxGet_ancestors _ _ h2]
    exact Postorder.ownCtxEdit_map _ (Postorder.ownCtxAdvance_live s s' hs h1) g ys
  · simpa [Postorder.OwnCtxState.new, Postorder.OwnCtxState.live, pend, Tree.preorder_map] using located_nodup (treeOf n)
  · intro p hp
    obtain ⟨q, hq, rfl⟩ := List.mem_map.1 hp
    rw [cell_of_mem_located _ q ((postorder_perm_preorder _).mem_iff.1 hq)]
    rfl
  · obtain ⟨s, h1, h2⟩ := C12_postorder_context_owned ((treeOf n).located.map Pos.path) (arityOk_paths n h)
    cases h1
    rw [h2, map_seen]
    have := congrArg (fun t => Tree.postorder t) (seen_located (treeOf n))
    simp only [Tree.postorder_map] at this
    rw [List.map_map]
    exact congrArg (fun l => Except.ok l[i]?) this

example := C55_postorder_context sampleTree sampleTree_arity (fun p w vs => (w + p.length, vs.map (· + w))) 0

/-- C55, postorder contexts, binary nodes. -/
theorem C55_postorder_context_binary [BinNode N V] (n : N) (f : List Nat → σ → List V → σ × List V) (w : σ) :
    ∃ s, Postorder.ownBinAttachContext (Postorder.new n) = .ok s ∧ ∀ k,
      ctxEditLoop Postorder.ownBinCtxNext Postorder.OwnBinCtxState.edit f k s w =
        .ok ((((binTreeOf n).located.toTree.postorder.map Pos.path).take k).foldl
          (fun mw p => visitAlong BinTree.cell BinTree.setCell (f p) mw p) (binTreeOf n, w)).2 := by
  refine ⟨_, rfl, fun k => ?_⟩
  obtain ⟨g, hg⟩ := exists_fill2 (binTreeOf n)
  rw [← ctxEditLoop_hom (next' := Postorder.ownBinCtxNext (N := BinTree V)) (edit' := Postorder.OwnBinCtxState.edit)
    (Postorder.OwnBinCtxState.map binTreeOf id) (Prod.map (Option.map binTreeOf) (Option.map binTreeOf)) (fun s => Postorder.ownBinCtxNext_map binTreeOf_hom s) (fun s ys => by
      simp [Postorder.OwnBinCtxState.map, Postorder.OwnBinCtxState.edit])]
  have h0 : (Postorder.OwnBinCtxState.new n []).map (binTreeOf (V := V)) id =
      (Postorder.OwnBinCtxState.new ((binTreeOf n).located.map Pos.path) []).map (BinTree.map g) g := by
    simp [Postorder.OwnBinCtxState.new, Postorder.OwnBinCtxState.map, map_paths2 _ _ hg]
  refine Eq.trans (congrArg (fun s => ctxEditLoop _ _ f k s w) h0) ?_
  refine ctxEditLoop_binTree (nextA := Postorder.ownBinCtxNext) (fun g => Postorder.OwnBinCtxState.map (BinTree.map g) g) (fun g => Prod.map (Option.map (BinTree.map g)) (Option.map (BinTree.map g)))
    (fun s => s.live.Nodup) (fun g s => ?_) (fun s o s' hs h => ?_) (fun s c s' hs h g ys => ?_) f k _ ?_ _ g w hg _ ?_ (fun i => ?_)
  · exact Postorder.ownBinCtxNext_map (binTreeMap_hom g) s
  · exact Postorder.ownBinCtxAdvance_live s s' hs (streamNextE_ok h).1
  · obtain ⟨h1, h2⟩ := streamNextE_ok h
    rw [Postorder.ownBinCtxGet_ancestors _ _ h2]
    exact Postorder.ownBinCtxEdit_map _ (Postorder.ownBinCtxAdvance_live s s' hs h1) g ys
  · simpa [Postorder.OwnBinCtxState.new, Postorder.OwnBinCtxState.live, slotVals, pend2, BinTree.toTree_map, Tree.preorder_map]
      using located2_nodup (binTreeOf n)
  · intro p hp
    obtain ⟨q, hq, rfl⟩ := List.mem_map.1 hp
    rw [cell_of_mem_located2 _ q ((postorder_perm_preorder _).mem_iff.1 hq)]
    rfl
  · obtain ⟨s, h1, h2⟩ := C12_postorder_context_binary_owned ((binTreeOf n).located.map Pos.path)
    cases h1
    rw [h2, map_seen]
    have := congrArg (fun t => Tree.postorder (BinTree.toTree t)) (seen_located2 (binTreeOf n))
    simp only [Tree.postorder_map, BinTree.toTree_map] at this
    rw [List.map_map]
    exact congrArg (fun l => Except.ok l[i]?) this

/-- C55, in-order contexts. -/
theorem C55_inorder_context [BinNode N V] (n : N) (f : List Nat → σ → List V → σ × List V) (w : σ) :
    ∃ s, Inorder.ownAttachContext (Inorder.new n) = .ok s ∧ ∀ k,
      ctxEditLoop Inorder.ownNext Inorder.OwnCtxState.edit f k s w =
        .ok ((((binTreeOf n).located.inorder.map Pos.path).take k).foldl
          (fun mw p => visitAlong BinTree.cell BinTree.setCell (f p) mw p) (binTreeOf n, w)).2 := by
  refine ⟨_, rfl, fun k => ?_⟩
  obtain ⟨g, hg⟩ := exists_fill2 (binTreeOf n)
  rw [← ctxEditLoop_hom (next' := Inorder.ownNext (N := BinTree V)) (edit' := Inorder.OwnCtxState.edit)
    (Inorder.OwnCtxState.map binTreeOf id) (Prod.map (Option.map binTreeOf) (Option.map binTreeOf)) (fun s => Inorder.ownNext_map binTreeOf_hom s) (fun s ys => by
      simp [Inorder.OwnCtxState.map, Inorder.OwnCtxState.edit])]
  have h0 : (Inorder.OwnCtxState.new n []).map (binTreeOf (V := V)) id =
      (Inorder.OwnCtxState.new ((binTreeOf n).located.map Pos.path) []).map (BinTree.map g) g := by
    simp [Inorder.OwnCtxState.new, Inorder.OwnCtxState.map, map_paths2 _ _ hg]
  refine Eq.trans (congrArg (fun s => ctxEditLoop _ _ f k s w) h0) ?_
  refine ctxEditLoop_binTree (nextA := Inorder.ownNext) (fun g => Inorder.OwnCtxState.map (BinTree.map g) g) (fun g => Prod.map (Option.map (BinTree.map g)) (Option.map (BinTree.map g)))
    (fun s => s.live.Nodup) (fun g s => ?_) (fun s o s' hs h => ?_) (fun s c s' hs h g ys => ?_) f k _ ?_ _ g w hg _ ?_ (fun i => ?_)
  · exact Inorder.ownNext_map (binTreeMap_hom g) s
  · exact Inorder.ownAdvance_live s s' hs (streamNextE_ok h).1
  · obtain ⟨h1, h2⟩ := streamNextE_ok h
    rw [Inorder.ownGet_ancestors _ _ h2]
    exact Inorder.ownEdit_map _ (Inorder.ownAdvance_live s s' hs h1) g ys
  · simpa [Inorder.OwnCtxState.new, Inorder.OwnCtxState.live, slotVals, BinTree.toTree_map, Tree.preorder_map] using
      located2_nodup (binTreeOf n)
  · intro p hp
    obtain ⟨q, hq, rfl⟩ := List.mem_map.1 hp
    rw [cell_of_mem_located2 _ q ((inorder_perm_preorder _).mem_iff.1 hq)]
    rfl
  · obtain ⟨s, h1, h2⟩ := C13_inorder_context_owned ((binTreeOf n).located.map Pos.path)
    cases h1
    rw [h2, map_seen]
    have := congrArg (fun t => BinTree.inorder t) (seen_located2 (binTreeOf n))
    simp only [BinTree.inorder_map] at this
    rw [List.map_map]
    exact congrArg (fun l => Except.ok l[i]?) this

/-- C55, breadth-first contexts: the values written go into the cache of ancestors when the traversal moves on to
another branch, and come back with their path segments when it comes back to the branch on the next level. -/
theorem C55_bfs_context [TreeNode N V] (n : N) (h : ArityLt n) (f : List Nat → σ → List V → σ × List V) (w : σ) :
    ∃ s, Bfs.attachContext (Bfs.new n) = .ok s ∧ ∀ k,
      ctxEditLoop Bfs.ctxNext Bfs.CtxState.edit f k s w =
        .ok ((((treeOf n).located.levelOrder.map Pos.path).take k).foldl
          (fun mw p => visitAlong Tree.cell Tree.setCell (f p) mw p) (treeOf n, w)).2 := by
  refine ⟨_, rfl, fun k => ?_⟩
  obtain ⟨g, hg⟩ := exists_fill (treeOf n)
  rw [← ctxEditLoop_hom (next' := Bfs.ctxNext (N := Tree V)) (edit' := Bfs.CtxState.edit)
    (Bfs.CtxState.mapG treeOf id) (List.map treeOf) (fun s => Bfs.ctxNext_map treeOf_hom s) (fun s ys => by
      simp [Bfs.CtxState.mapG, Bfs.CtxCache.map, Bfs.CtxState.edit])]
  have h0 : (Bfs.CtxState.new n []).mapG (treeOf (V := V)) id =
      (Bfs.CtxState.new ((treeOf n).located.map Pos.path) []).mapG (Tree.map g) g := by
    rw [Bfs.mapG_new treeOf_hom, Bfs.mapG_new (treeMap_hom g), map_paths _ _ hg]
  refine Eq.trans (congrArg (fun s => ctxEditLoop _ _ f k s w) h0) ?_
  refine ctxEditLoop_tree (nextA := Bfs.ctxNext) (fun g => Bfs.CtxState.mapG (Tree.map g) g) (fun g => List.map (Tree.map g))
    Bfs.CtxState.Good (fun g s => ?_) (fun s o s' hs h => ?_) (fun s c s' hs h g ys => ?_) f k _ ?_ _ g w hg _ ?_ (fun i => ?_)
  · exact Bfs.ctxNext_map (treeMap_hom g) s
  · exact Bfs.ctxAdvance_good s s' hs (streamNextE_ok h).1
  · obtain ⟨h1, h2⟩ := streamNextE_ok h
    rw [Bfs.ctxGet_ancestors _ _ h2]
    exact Bfs.ctxEdit_map _ (Bfs.ctxAdvance_good s s' hs h1).2 g ys
  · exact Bfs.good_new _ (arityLt_paths n h) (by simpa [Tree.preorder_map] using located_nodup (treeOf n))
  · intro p hp
    obtain ⟨q, hq, rfl⟩ := List.mem_map.1 hp
    rw [cell_of_mem_located _ q ((levelOrder_perm_preorder _).mem_iff.1 hq)]
    rfl
  · obtain ⟨s, h1, h2⟩ := C14_bfs_context ((treeOf n).located.map Pos.path) (arityLt_paths n h)
    cases h1
    rw [h2, map_seen]
    have := congrArg (fun t => Tree.levelOrder t) (seen_located (treeOf n))
    simp only [Tree.levelOrder_map] at this
    rw [List.map_map]
    exact congrArg (fun l => Except.ok l[i]?) this

example := C55_bfs_context sampleTree sampleTree_arityLt (fun p w vs => (w + p.length, vs.map (· + w))) 0

/-- C55, breadth-first contexts, binary nodes. -/
theorem C55_bfs_context_binary [BinNode N V] (n : N) (f : List Nat → σ → List V → σ × List V) (w : σ) :
    ∃ s, Bfs.binAttachContext (Bfs.new n) = .ok s ∧ ∀ k,
      ctxEditLoop Bfs.binCtxNext Bfs.CtxState.edit f k s w =
        .ok ((((binTreeOf n).located.toTree.levelOrder.map Pos.path).take k).foldl
          (fun mw p => visitAlong BinTree.cell BinTree.setCell (f p) mw p) (binTreeOf n, w)).2 := by
  refine ⟨_, rfl, fun k => ?_⟩
  obtain ⟨g, hg⟩ := exists_fill2 (binTreeOf n)
  rw [← ctxEditLoop_hom (next' := Bfs.binCtxNext (N := BinTree V)) (edit' := Bfs.CtxState.edit)
    (Bfs.CtxState.mapB binTreeOf id) (Prod.map (Option.map binTreeOf) (Option.map binTreeOf)) (fun s => Bfs.binCtxNext_map binTreeOf_hom s) (fun s ys => by
      simp [Bfs.CtxState.mapB, Bfs.CtxCache.map, Bfs.CtxState.edit])]
  have h0 : (Bfs.CtxState.binNew n []).mapB (binTreeOf (V := V)) id =
      (Bfs.CtxState.binNew ((binTreeOf n).located.map Pos.path) []).mapB (BinTree.map g) g := by
    rw [Bfs.mapB_new binTreeOf_hom, Bfs.mapB_new (binTreeMap_hom g), map_paths2 _ _ hg]
  refine Eq.trans (congrArg (fun s => ctxEditLoop _ _ f k s w) h0) ?_
  refine ctxEditLoop_binTree (nextA := Bfs.binCtxNext) (fun g => Bfs.CtxState.mapB (BinTree.map g) g) (fun g => Prod.map (Option.map (BinTree.map g)) (Option.map (BinTree.map g)))
    Bfs.CtxState.BinGood (fun g s => ?_) (fun s o s' hs h => ?_) (fun s c s' hs h g ys => ?_) f k _ ?_ _ g w hg _ ?_ (fun i => ?_)
  · exact Bfs.binCtxNext_map (binTreeMap_hom g) s
  · exact Bfs.binCtxAdvance_good s s' hs (streamNextE_ok h).1
  · obtain ⟨h1, h2⟩ := streamNextE_ok h
    rw [Bfs.ctxGet_ancestors _ _ h2]
    exact Bfs.binCtxEdit_map _ (Bfs.binCtxAdvance_good s s' hs h1).2 g ys
  · exact Bfs.binGood_new _ (by simpa [BinTree.toTree_map, Tree.preorder_map] using located2_nodup (binTreeOf n))
  · intro p hp
    obtain ⟨q, hq, rfl⟩ := List.mem_map.1 hp
    rw [cell_of_mem_located2 _ q ((levelOrder_perm_preorder _).mem_iff.1 hq)]
    rfl
  · obtain ⟨s, h1, h2⟩ := C14_bfs_context_binary ((binTreeOf n).located.map Pos.path)
    cases h1
    rw [h2, map_seen]
    have := congrArg (fun t => Tree.levelOrder (BinTree.toTree t)) (seen_located2 (binTreeOf n))
    simp only [Tree.levelOrder_map, BinTree.toTree_map] at this
    rw [List.map_map]
    exact congrArg (fun l => Except.ok l[i]?) this

/-- A body that notes the path and the values it sees and then adds one to every value. -/
def noteAddOneAt (p : List Nat) (w : List (List Nat × List Nat)) (xs : List Nat) : List (List Nat × List Nat) × List Nat :=
  (w ++ [(p, xs)], xs.map (· + 1))

example : (match Preorder.attachContext (Preorder.new sampleTree) with
    | .ok s => (ctxEditLoop Preorder.ctxNext Preorder.CtxState.edit noteAddOneAt 20 s []).toOption
    | .error _ => none) =
    some [([], [0]), ([0], [1, 1]), ([0, 0], [2, 2, 3]), ([0, 1], [3, 3, 4]), ([1], [4, 2]), ([1, 0], [5, 3, 5])] := by decide +kernel

example : (match Postorder.ownAttachContext (Postorder.new sampleTree) with
    | .ok s => (ctxEditLoop Postorder.ownCtxNext Postorder.OwnCtxState.edit noteAddOneAt 20 s []).toOption
    | .error _ => none) =
    some [([0, 0], [0, 1, 3]), ([0, 1], [1, 2, 4]), ([0], [2, 3]), ([1, 0], [3, 2, 5]), ([1], [4, 3]), ([], [5])] := by decide +kernel

example : (match Inorder.ownAttachContext (Inorder.new sampleBin) with
    | .ok s => (ctxEditLoop Inorder.ownNext Inorder.OwnCtxState.edit noteAddOneAt 20 s []).toOption
    | .error _ => none) =
    some [([0], [0, 1]), ([0, 1], [1, 2, 3]), ([], [2]), ([1, 0], [3, 2, 4]), ([1], [4, 3])] := by decide +kernel

example : (match Bfs.attachContext (Bfs.new sampleTree) with
    | .ok s => (ctxEditLoop Bfs.ctxNext Bfs.CtxState.edit noteAddOneAt 20 s []).toOption
    | .error _ => none) =
    some [([], [0]), ([0], [1, 1]), ([1], [2, 2]), ([0, 0], [3, 2, 3]), ([0, 1], [4, 3, 4]), ([1, 0], [5, 3, 5])] := by decide +kernel

example : (match Preorder.binAttachContext (Preorder.new sampleBin) with
    | .ok s => (ctxEditLoop Preorder.binCtxNext Preorder.BinCtxState.edit noteAddOneAt 20 s []).toOption
    | .error _ => none) =
    some [([], [0]), ([0], [1, 1]), ([0, 1], [2, 2, 3]), ([1], [3, 2]), ([1, 0], [4, 3, 4])] := by decide +kernel

example : (match Postorder.ownBinAttachContext (Postorder.new sampleBin) with
    | .ok s => (ctxEditLoop Postorder.ownBinCtxNext Postorder.OwnBinCtxState.edit noteAddOneAt 20 s []).toOption
    | .error _ => none) =
    some [([0, 1], [0, 1, 3]), ([0], [1, 2]), ([1, 0], [2, 2, 4]), ([1], [3, 3]), ([], [4])] := by decide +kernel

example : (match Bfs.binAttachContext (Bfs.new sampleBin) with
    | .ok s => (ctxEditLoop Bfs.binCtxNext Bfs.CtxState.edit noteAddOneAt 20 s []).toOption
    | .error _ => none) =
    some [([], [0]), ([0], [1, 1]), ([1], [2, 2]), ([0, 1], [3, 2, 3]), ([1, 0], [4, 3, 4])] := by decide +kernel

end TreeIter
