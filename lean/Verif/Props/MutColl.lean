import Verif.Lemmas.MutColl
import Verif.Lemmas.CollChain
import Verif.Props.MutPipe
import Verif.Lemmas.MutPath
import Verif.Props.Collection
import Verif.Props.CollectionPipeline

/-! # C68: collections by mutable reference are edited in place -/

universe u v w x y

namespace TreeIter

variable {V : Type u} {σ : Type v} {W : Type w}

/-! ## Helpers -/

theorem refs_each (ts : List (Tree V)) :
    (ts.mapIdx fun i t => t.addrs.map (i :: ·)).flatMap Tree.preorder = eachRefs (fun t => t.addrs.preorder) ts := by
  rw [flatMap_mapIdx, eachRefs]
  simp only [Tree.preorder_map]

theorem refs_each2 (ts : List (BinTree V)) :
    (ts.mapIdx fun i t => t.addrs.map (i :: ·)).flatMap (fun t => t.toTree.preorder) =
      eachRefs (fun t => t.addrs.toTree.preorder) ts := by
  rw [flatMap_mapIdx, eachRefs]
  simp only [BinTree.toTree_map, Tree.preorder_map]

theorem some_of_cells {A : Type u} {B : Type v} {l : List A} {f : A → Option B} {xs : List B} (h : l.map f = xs.map some) :
    ∀ a ∈ l, (f a).isSome := by
  intro a ha
  have : f a ∈ xs.map some := h ▸ List.mem_map_of_mem ha
  obtain ⟨x, -, hx⟩ := List.mem_map.1 this
  simp [← hx]

theorem cells_of_tree {A : Type u} {B : Type v} {T : Tree A} {f : A → Option B} {s : Tree B} (h : T.map f = s.map some) :
    T.preorder.map f = s.preorder.map some := by
  rw [← Tree.preorder_map, h, Tree.preorder_map]

theorem cells_of_bin {A : Type u} {B : Type v} {T : BinTree A} {f : A → Option B} {s : BinTree B}
    (h : T.map f = s.map some) : T.toTree.map f = s.toTree.map some := by
  rw [← BinTree.toTree_map, h, BinTree.toTree_map]

/-- Operations on each tree of a borrowed collection of trees. -/
theorem each_tree {R : Type x} {O : Type y} (ts : List (Tree V)) (F : List (Tree V) × σ → Nat → Tree (List Nat) → (List (Tree V) × σ) × O)
    (G : σ → Nat → Tree V → σ × R) (h1 : R → Tree V) (h2 : R → O)
    (hstep : ∀ (fill : (List Nat → V) → List (Tree V)) (ok : List Nat → Prop),
      (∀ g a, ok a → forestCell Tree.cell (fill g) a = some (g a)) →
      (∀ g x a, ok a → forestSet Tree.setCell (fill g) a x = fill (Function.update g a x)) →
      ∀ L i g w, L.preorder.Nodup → (∀ a ∈ L.preorder, ok a) →
        ∃ g', F (fill g, w) i L = ((fill g', (G w i (L.map g)).1), h2 (G w i (L.map g)).2) ∧
          L.map g' = h1 (G w i (L.map g)).2 ∧ ∀ a, a ∉ L.preorder → g' a = g a) (w : σ) :
    eachS (fun mw i L => kept (F mw i L)) (ts, w) 0 (ts.mapIdx fun i t => t.addrs.map (i :: ·)) =
      (((eachS (fun w i t => kept (G w i t)) w 0 ts).2.map h1, (eachS (fun w i t => kept (G w i t)) w 0 ts).1),
        (eachS (fun w i t => kept (G w i t)) w 0 ts).2.map h2) := by
  cases ts with
  | nil => rfl
  | cons t0 ts0 =>
    have hV : Nonempty V := ⟨t0.value⟩
    generalize t0 :: ts0 = ts at *
    obtain ⟨g0, hg0⟩ := (treeCells V).each.self ts hV
    have hread : ∀ g a, ((treeCells V).each.cell ts a).isSome → forestCell Tree.cell ((treeCells V).each.fill ts g) a = some (g a) := by
      intro g a ha
      obtain ⟨y, hy⟩ := Option.isSome_iff_exists.1 ha
      have := (treeCells V).each.read ts g a
      rw [hy] at this
      exact this
    have hview : ∀ g, (ts.mapIdx fun i t => t.addrs.map (i :: ·)).map (Tree.map g) = (treeCells V).each.fill ts g := by
      intro g
      refine List.ext_getElem? fun j => ?_
      simp only [Cells.each, List.getElem?_map, List.getElem?_mapIdx, Option.map_map]
      cases ts[j]? with
      | none => rfl
      | some t =>
        simp only [Option.map_some, Function.comp_apply, Tree.addrs, Tree.map_map]
        rfl
    obtain ⟨g', e1, e2, -⟩ := each_refs (V := V) Tree.preorder (fun g L => L.map g) ((treeCells V).each.fill ts)
      (fun a => ((treeCells V).each.cell ts a).isSome) F G h1 h2 (fun L g g' h => map_congr_mem L g g' h)
      (hstep ((treeCells V).each.fill ts) _ hread fun g x a ha => (treeCells V).each.write ts g x a ha)
      (ts.mapIdx fun i t => t.addrs.map (i :: ·)) g0 w 0
      (by rw [refs_each]; exact eachRefs_nodup _ ts fun t _ => addrs_nodup t)
      (by
        rw [refs_each]
        exact some_of_cells (eachRefs_cells (treeCells V) (fun t => t.addrs.preorder) (Tree.preorder) ts fun t _ => cells_of_tree (addrs_cells t)))
    rw [hview, hg0] at e1
    rw [hview, hview, hg0] at e2
    rw [e1, e2]

/-- Operations on each tree of a borrowed collection of binary trees. -/
theorem each_bin {R : Type x} {O : Type y} (ts : List (BinTree V)) (F : List (BinTree V) × σ → Nat → BinTree (List Nat) → (List (BinTree V) × σ) × O)
    (G : σ → Nat → BinTree V → σ × R) (h1 : R → BinTree V) (h2 : R → O)
    (hstep : ∀ (fill : (List Nat → V) → List (BinTree V)) (ok : List Nat → Prop),
      (∀ g a, ok a → forestCell BinTree.cell (fill g) a = some (g a)) →
      (∀ g x a, ok a → forestSet BinTree.setCell (fill g) a x = fill (Function.update g a x)) →
      ∀ L i g w, L.toTree.preorder.Nodup → (∀ a ∈ L.toTree.preorder, ok a) →
        ∃ g', F (fill g, w) i L = ((fill g', (G w i (L.map g)).1), h2 (G w i (L.map g)).2) ∧
          L.map g' = h1 (G w i (L.map g)).2 ∧ ∀ a, a ∉ L.toTree.preorder → g' a = g a) (w : σ) :
    eachS (fun mw i L => kept (F mw i L)) (ts, w) 0 (ts.mapIdx fun i t => t.addrs.map (i :: ·)) =
      (((eachS (fun w i t => kept (G w i t)) w 0 ts).2.map h1, (eachS (fun w i t => kept (G w i t)) w 0 ts).1),
        (eachS (fun w i t => kept (G w i t)) w 0 ts).2.map h2) := by
  cases ts with
  | nil => rfl
  | cons t0 ts0 =>
    have hV : Nonempty V := ⟨t0.value⟩
    generalize t0 :: ts0 = ts at *
    obtain ⟨g0, hg0⟩ := (binCells V).each.self ts hV
    have hread : ∀ g a, ((binCells V).each.cell ts a).isSome → forestCell BinTree.cell ((binCells V).each.fill ts g) a = some (g a) := by
      intro g a ha
      obtain ⟨y, hy⟩ := Option.isSome_iff_exists.1 ha
      have := (binCells V).each.read ts g a
      rw [hy] at this
      exact this
    have hview : ∀ g, (ts.mapIdx fun i t => t.addrs.map (i :: ·)).map (BinTree.map g) = (binCells V).each.fill ts g := by
      intro g
      refine List.ext_getElem? fun j => ?_
      simp only [Cells.each, List.getElem?_map, List.getElem?_mapIdx, Option.map_map]
      cases ts[j]? with
      | none => rfl
      | some t =>
        simp only [Option.map_some, Function.comp_apply, BinTree.addrs, BinTree.map_map]
        rfl
    obtain ⟨g', e1, e2, -⟩ := each_refs (V := V) (fun t => t.toTree.preorder) (fun g L => L.map g) ((binCells V).each.fill ts)
      (fun a => ((binCells V).each.cell ts a).isSome) F G h1 h2 (fun L g g' h => map_congr_mem2 L g g' h)
      (hstep ((binCells V).each.fill ts) _ hread fun g x a ha => (binCells V).each.write ts g x a ha)
      (ts.mapIdx fun i t => t.addrs.map (i :: ·)) g0 w 0
      (by rw [refs_each2]; exact eachRefs_nodup _ ts fun t _ => addrs_nodup2 t)
      (by
        rw [refs_each2]
        exact some_of_cells (eachRefs_cells (binCells V) (fun t => t.addrs.toTree.preorder) (fun t => t.toTree.preorder) ts fun t _ => cells_of_tree (cells_of_bin (addrs_cells2 t))))
    rw [hview, hg0] at e1
    rw [hview, hview, hg0] at e2
    rw [e1, e2]

/-! ## Loops -/

/-- What a loop of at most `k` rounds must have done to a collection, for the listing `order` of a tree: all trees keep
their shape, the first `k` values of the listings one after another are rewritten by the body in that order, the rest is
untouched, and the body's own state is threaded through. -/
def UpdatesEach {T : Type x} {Q : Type y} (shape : T → Q) (order : T → List V) (f : σ → V → σ × V) (w : σ) (k : Nat) (ts : List T)
    (r : List T × σ) : Prop :=
  r.1.map shape = ts.map shape ∧
  r.1.flatMap order = (mapAccum f w ((ts.flatMap order).take k)).1 ++ (ts.flatMap order).drop k ∧
  r.2 = (mapAccum f w ((ts.flatMap order).take k)).2

/-- C68, `dfs_preorder_each_iter_mut`. -/
theorem C68_preorder (ts : List (Tree V)) (f : σ → V → σ × V) (w : σ) (k : Nat) :
    UpdatesEach Tree.shape Tree.preorder f w k ts
      (forEachMut (Coll.next Preorder.new Preorder.next) (forestCell Tree.cell) (forestSet Tree.setCell) f k
        (Coll.new (borrowEach ts)) ts w) := by
  obtain ⟨ts', h1, h2, -, h4⟩ := (treeCells V).loopEach (Coll.next Preorder.new Preorder.next) (Coll.new (borrowEach ts)) ts f w k
    (fun t => t.addrs.preorder) Tree.preorder (fun t _ => addrs_nodup t)
    (fun t => by
      show t.addrs.preorder.map t.cell = _
      rw [← Tree.preorder_map, addrs_cells, Tree.preorder_map])
    (fun t g => by show (fun t => t.addrs.preorder) (t.fill g) = _; simp only [addrs_fill])
    (fun i => by rw [C25_preorder, flatMap_borrowEach Tree.preorder]; simp only [Tree.preorder_map, eachRefs])
  have h1' : forEachMut (Coll.next Preorder.new Preorder.next) (forestCell Tree.cell) (forestSet Tree.setCell) f k
      (Coll.new (borrowEach ts)) ts w = _ := h1
  rw [h1']
  exact ⟨(treeCells V).each_shape Tree.shape shape_fill h4, h2, rfl⟩

/-- C68, `dfs_postorder_each_iter_mut`. -/
theorem C68_postorder (ts : List (Tree V)) (f : σ → V → σ × V) (w : σ) (k : Nat) :
    UpdatesEach Tree.shape Tree.postorder f w k ts
      (forEachMut (Coll.next Postorder.new Postorder.next) (forestCell Tree.cell) (forestSet Tree.setCell) f k
        (Coll.new (borrowEach ts)) ts w) := by
  obtain ⟨ts', h1, h2, -, h4⟩ := (treeCells V).loopEach (Coll.next Postorder.new Postorder.next) (Coll.new (borrowEach ts)) ts f w k
    (fun t => t.addrs.postorder) Tree.postorder (fun t _ => (postorder_perm_preorder t.addrs).nodup_iff.2 (addrs_nodup t))
    (fun t => by
      show t.addrs.postorder.map t.cell = _
      rw [← Tree.postorder_map, addrs_cells, Tree.postorder_map])
    (fun t g => by show (fun t => t.addrs.postorder) (t.fill g) = _; simp only [addrs_fill])
    (fun i => by rw [C25_postorder, flatMap_borrowEach Tree.postorder]; simp only [Tree.postorder_map, eachRefs])
  have h1' : forEachMut (Coll.next Postorder.new Postorder.next) (forestCell Tree.cell) (forestSet Tree.setCell) f k
      (Coll.new (borrowEach ts)) ts w = _ := h1
  rw [h1']
  exact ⟨(treeCells V).each_shape Tree.shape shape_fill h4, h2, rfl⟩

/-- C68, `bfs_each_iter_mut`. -/
theorem C68_bfs (ts : List (Tree V)) (f : σ → V → σ × V) (w : σ) (k : Nat) :
    UpdatesEach Tree.shape Tree.levelOrder f w k ts
      (forEachMut (Coll.next Bfs.new Bfs.next) (forestCell Tree.cell) (forestSet Tree.setCell) f k
        (Coll.new (borrowEach ts)) ts w) := by
  obtain ⟨ts', h1, h2, -, h4⟩ := (treeCells V).loopEach (Coll.next Bfs.new Bfs.next) (Coll.new (borrowEach ts)) ts f w k
    (fun t => t.addrs.levelOrder) Tree.levelOrder (fun t _ => (levelOrder_perm_preorder t.addrs).nodup_iff.2 (addrs_nodup t))
    (fun t => by
      show t.addrs.levelOrder.map t.cell = _
      rw [← Tree.levelOrder_map, addrs_cells, Tree.levelOrder_map])
    (fun t g => by show (fun t => t.addrs.levelOrder) (t.fill g) = _; simp only [addrs_fill])
    (fun i => by rw [C25_bfs, flatMap_borrowEach Tree.levelOrder]; simp only [Tree.levelOrder_map, eachRefs])
  have h1' : forEachMut (Coll.next Bfs.new Bfs.next) (forestCell Tree.cell) (forestSet Tree.setCell) f k
      (Coll.new (borrowEach ts)) ts w = _ := h1
  rw [h1']
  exact ⟨(treeCells V).each_shape Tree.shape shape_fill h4, h2, rfl⟩

/-- C68, `dfs_inorder_each_iter_mut`. -/
theorem C68_inorder (ts : List (BinTree V)) (f : σ → V → σ × V) (w : σ) (k : Nat) :
    UpdatesEach BinTree.shape BinTree.inorder f w k ts
      (forEachMut (Coll.next Inorder.new Inorder.next) (forestCell BinTree.cell) (forestSet BinTree.setCell) f k
        (Coll.new (borrowEach2 ts)) ts w) := by
  obtain ⟨ts', h1, h2, -, h4⟩ := (binCells V).loopEach (Coll.next Inorder.new Inorder.next) (Coll.new (borrowEach2 ts)) ts f w k
    (fun t => t.addrs.inorder) BinTree.inorder (fun t _ => (inorder_perm_preorder t.addrs).nodup_iff.2 (addrs_nodup2 t))
    (fun t => by
      show t.addrs.inorder.map t.cell = _
      rw [← BinTree.inorder_map, addrs_cells2, BinTree.inorder_map])
    (fun t g => by show (fun t => t.addrs.inorder) (t.fill g) = _; simp only [addrs_fill2])
    (fun i => by rw [C25_inorder, flatMap_borrowEach2 BinTree.inorder]; simp only [BinTree.inorder_map, eachRefs])
  have h1' : forEachMut (Coll.next Inorder.new Inorder.next) (forestCell BinTree.cell) (forestSet BinTree.setCell) f k
      (Coll.new (borrowEach2 ts)) ts w = _ := h1
  rw [h1']
  exact ⟨(binCells V).each_shape BinTree.shape shape_fill2 h4, h2, rfl⟩

/-- C68, `dfs_preorder_each_iter_mut` on binary trees. -/
theorem C68_binary_preorder (ts : List (BinTree V)) (f : σ → V → σ × V) (w : σ) (k : Nat) :
    UpdatesEach BinTree.shape (fun t => t.toTree.preorder) f w k ts
      (forEachMut (Coll.next Preorder.new Preorder.next) (forestCell BinTree.cell) (forestSet BinTree.setCell) f k
        (Coll.new (borrowEach2 ts)) ts w) := by
  obtain ⟨ts', h1, h2, -, h4⟩ := (binCells V).loopEach (Coll.next Preorder.new Preorder.next) (Coll.new (borrowEach2 ts)) ts f w k
    (fun t => t.addrs.toTree.preorder) (fun t => t.toTree.preorder) (fun t _ => addrs_nodup2 t)
    (fun t => by
      show t.addrs.toTree.preorder.map t.cell = _
      rw [← Tree.preorder_map, cells_of_bin (addrs_cells2 t), Tree.preorder_map])
    (fun t g => by show (fun t => t.addrs.toTree.preorder) (t.fill g) = _; simp only [addrs_fill2])
    (fun i => by rw [C25_preorder]; simp only [treeOf_eq_toTree]; rw [flatMap_borrowEach2 fun t => t.toTree.preorder]; simp only [BinTree.toTree_map, Tree.preorder_map, eachRefs])
  have h1' : forEachMut (Coll.next Preorder.new Preorder.next) (forestCell BinTree.cell) (forestSet BinTree.setCell) f k
      (Coll.new (borrowEach2 ts)) ts w = _ := h1
  rw [h1']
  exact ⟨(binCells V).each_shape BinTree.shape shape_fill2 h4, h2, rfl⟩

/-- C68, `dfs_postorder_each_iter_mut` on binary trees. -/
theorem C68_binary_postorder (ts : List (BinTree V)) (f : σ → V → σ × V) (w : σ) (k : Nat) :
    UpdatesEach BinTree.shape (fun t => t.toTree.postorder) f w k ts
      (forEachMut (Coll.next Postorder.new Postorder.next) (forestCell BinTree.cell) (forestSet BinTree.setCell) f k
        (Coll.new (borrowEach2 ts)) ts w) := by
  obtain ⟨ts', h1, h2, -, h4⟩ := (binCells V).loopEach (Coll.next Postorder.new Postorder.next) (Coll.new (borrowEach2 ts)) ts f w k
    (fun t => t.addrs.toTree.postorder) (fun t => t.toTree.postorder) (fun t _ => (postorder_perm_preorder t.addrs.toTree).nodup_iff.2 (addrs_nodup2 t))
    (fun t => by
      show t.addrs.toTree.postorder.map t.cell = _
      rw [← Tree.postorder_map, cells_of_bin (addrs_cells2 t), Tree.postorder_map])
    (fun t g => by show (fun t => t.addrs.toTree.postorder) (t.fill g) = _; simp only [addrs_fill2])
    (fun i => by rw [C25_postorder]; simp only [treeOf_eq_toTree]; rw [flatMap_borrowEach2 fun t => t.toTree.postorder]; simp only [BinTree.toTree_map, Tree.postorder_map, eachRefs])
  have h1' : forEachMut (Coll.next Postorder.new Postorder.next) (forestCell BinTree.cell) (forestSet BinTree.setCell) f k
      (Coll.new (borrowEach2 ts)) ts w = _ := h1
  rw [h1']
  exact ⟨(binCells V).each_shape BinTree.shape shape_fill2 h4, h2, rfl⟩

/-- C68, `bfs_each_iter_mut` on binary trees. -/
theorem C68_binary_bfs (ts : List (BinTree V)) (f : σ → V → σ × V) (w : σ) (k : Nat) :
    UpdatesEach BinTree.shape (fun t => t.toTree.levelOrder) f w k ts
      (forEachMut (Coll.next Bfs.new Bfs.next) (forestCell BinTree.cell) (forestSet BinTree.setCell) f k
        (Coll.new (borrowEach2 ts)) ts w) := by
  obtain ⟨ts', h1, h2, -, h4⟩ := (binCells V).loopEach (Coll.next Bfs.new Bfs.next) (Coll.new (borrowEach2 ts)) ts f w k
    (fun t => t.addrs.toTree.levelOrder) (fun t => t.toTree.levelOrder) (fun t _ => (levelOrder_perm_preorder t.addrs.toTree).nodup_iff.2 (addrs_nodup2 t))
    (fun t => by
      show t.addrs.toTree.levelOrder.map t.cell = _
      rw [← Tree.levelOrder_map, cells_of_bin (addrs_cells2 t), Tree.levelOrder_map])
    (fun t g => by show (fun t => t.addrs.toTree.levelOrder) (t.fill g) = _; simp only [addrs_fill2])
    (fun i => by rw [C25_bfs]; simp only [treeOf_eq_toTree]; rw [flatMap_borrowEach2 fun t => t.toTree.levelOrder]; simp only [BinTree.toTree_map, Tree.levelOrder_map, eachRefs])
  have h1' : forEachMut (Coll.next Bfs.new Bfs.next) (forestCell BinTree.cell) (forestSet BinTree.setCell) f k
      (Coll.new (borrowEach2 ts)) ts w = _ := h1
  rw [h1']
  exact ⟨(binCells V).each_shape BinTree.shape shape_fill2 h4, h2, rfl⟩

/-- Numbering through the trees, stopped in the second and in the third one. -/
example : (forEachMut (Coll.next Preorder.new Preorder.next) (forestCell Tree.cell) (forestSet Tree.setCell) numbering 7
      (Coll.new (borrowEach threeTrees)) threeTrees 0) =
      ([.node 0 [.node 11 [.node 23 [], .node 34 []], .node 42 [.node 55 []]], .node 67 [.node 8 []], .node 9 []], 7) ∧
    (forEachMut (Coll.next Postorder.new Postorder.next) (forestCell Tree.cell) (forestSet Tree.setCell) numbering 9
      (Coll.new (borrowEach threeTrees)) threeTrees 0).1.flatMap Tree.postorder = [3, 14, 21, 35, 42, 50, 68, 77, 89] ∧
    (forEachMut (Coll.next Bfs.new Bfs.next) (forestCell Tree.cell) (forestSet Tree.setCell) numbering 8
      (Coll.new (borrowEach threeTrees)) threeTrees 0).1.flatMap Tree.levelOrder = [0, 11, 22, 33, 44, 55, 67, 78, 9] := by
  decide +kernel

example : (forEachMut (Coll.next Inorder.new Inorder.next) (forestCell BinTree.cell) (forestSet BinTree.setCell) numbering 7
      (Coll.new (borrowEach2 threeBins)) threeBins 0).1.flatMap BinTree.inorder = [1, 13, 20, 34, 42, 57, 68, 9] ∧
    (forEachMut (Coll.next Preorder.new Preorder.next) (forestCell BinTree.cell) (forestSet BinTree.setCell) numbering 20
      (Coll.new (borrowEach2 threeBins)) threeBins 0).2 = 8 := by decide +kernel

/-! ## Mapping and folding -/

theorem borrowEach_arity (ts : List (Tree V)) (ht : ∀ t ∈ ts, ArityOk t) : ∀ n ∈ borrowEach ts, ArityOk n := by
  intro n hn
  rw [borrowEach, List.mem_mapIdx] at hn
  obtain ⟨i, hi, rfl⟩ := hn
  exact arityOk_mutRef _ (ht _ (List.getElem_mem hi)) _

/-- C68, `map_each_mut`: the closure is called on the values of the trees one tree after another, each in preorder; the
trees are left with what it wrote, in place, and the iterator yields the trees of what it returned. -/
theorem C68_map (ts : List (Tree V)) (body : σ → V → σ × V × W) (d : W) (k : Nat) (w : σ) :
    ∃ r, Api.mapEach (mapRef (forestCell Tree.cell) (forestSet Tree.setCell) d body) (borrowEach ts) k (ts, w) =
        .ok (seen k ((eachS (fun w _ t => kept (Tree.mapS body w t)) w 0 ts).2.map (Tree.map Prod.snd)), r) ∧
      (ts.length < k →
        r = (((eachS (fun w _ t => kept (Tree.mapS body w t)) w 0 ts).2.map (Tree.map Prod.fst),
          (eachS (fun w _ t => kept (Tree.mapS body w t)) w 0 ts).1), ())) := by
  obtain ⟨r, h1, h2⟩ := C37_map (mapRef (forestCell Tree.cell) (forestSet Tree.setCell) d body) (borrowEach ts) k (ts, w)
  have e := each_tree ts (fun mw _ L => Tree.mapS (mapRef (forestCell Tree.cell) (forestSet Tree.setCell) d body) mw L)
    (fun w _ t => Tree.mapS body w t) (Tree.map Prod.fst) (Tree.map Prod.snd)
    (fun fill ok hr hw L _ g w hn ho => mapRef_tree _ _ d body fill ok hr hw L g w hn ho) w
  rw [borrowEach_trees, e] at h1 h2
  exact ⟨r, h1, fun hk => h2 (by
    rw [List.length_map]
    exact Nat.lt_of_le_of_lt (Nat.le_of_eq (eachS_kept_length (fun w _ t => Tree.mapS body w t) ts w 0)) hk)⟩

/-- C68, `map_each_mut` on binary trees: the closure is called on the values of the trees one tree after another, each in preorder; the
trees are left with what it wrote, in place, and the iterator yields the trees of what it returned. -/
theorem C68_binary_map (ts : List (BinTree V)) (body : σ → V → σ × V × W) (d : W) (k : Nat) (w : σ) :
    ∃ r, Api.binMapEach (mapRef (forestCell BinTree.cell) (forestSet BinTree.setCell) d body) (borrowEach2 ts) k (ts, w) =
        .ok (seen k ((eachS (fun w _ t => kept (BinTree.mapS body w t)) w 0 ts).2.map (BinTree.map Prod.snd)), r) ∧
      (ts.length < k →
        r = (((eachS (fun w _ t => kept (BinTree.mapS body w t)) w 0 ts).2.map (BinTree.map Prod.fst),
          (eachS (fun w _ t => kept (BinTree.mapS body w t)) w 0 ts).1), ())) := by
  obtain ⟨r, h1, h2⟩ := C37_binary_map (mapRef (forestCell BinTree.cell) (forestSet BinTree.setCell) d body) (borrowEach2 ts) k (ts, w)
  have e := each_bin ts (fun mw _ L => BinTree.mapS (mapRef (forestCell BinTree.cell) (forestSet BinTree.setCell) d body) mw L)
    (fun w _ t => BinTree.mapS body w t) (BinTree.map Prod.fst) (BinTree.map Prod.snd)
    (fun fill ok hr hw L _ g w hn ho => mapRef_bin _ _ d body fill ok hr hw L g w hn ho) w
  rw [borrowEach2_trees, e] at h1 h2
  exact ⟨r, h1, fun hk => h2 (by
    rw [List.length_map]
    exact Nat.lt_of_le_of_lt (Nat.le_of_eq (eachS_kept_length (fun w _ t => BinTree.mapS body w t) ts w 0)) hk)⟩

/-- C68, `fold_each_mut`: the closure is called bottom-up, one tree after another, on the value of each node with the results of its
children; the trees are left with what it wrote. -/
theorem C68_fold (ts : List (Tree V)) (body : σ → List W → V → σ × V × W) (d : W) (k : Nat) (w : σ) :
    ∃ r, Api.foldEach (foldRef (forestCell Tree.cell) (forestSet Tree.setCell) d body) (borrowEach ts) k (ts, w) =
        .ok (seen k ((eachS (fun w _ t => kept (Tree.foldS (Tree.rebuild body) w t)) w 0 ts).2.map Prod.snd), r) ∧
      (ts.length < k →
        r = ((), ((eachS (fun w _ t => kept (Tree.foldS (Tree.rebuild body) w t)) w 0 ts).2.map Prod.fst,
          (eachS (fun w _ t => kept (Tree.foldS (Tree.rebuild body) w t)) w 0 ts).1))) := by
  obtain ⟨r, h1, h2⟩ := C37_fold (foldRef (forestCell Tree.cell) (forestSet Tree.setCell) d body) (borrowEach ts) k (ts, w)
  have e := each_tree ts (fun mw _ L => Tree.foldS (foldRef (forestCell Tree.cell) (forestSet Tree.setCell) d body) mw L)
    (fun w _ t => Tree.foldS (Tree.rebuild body) w t) Prod.fst Prod.snd
    (fun fill ok hr hw L _ g w hn ho => by
      have h := foldRefPath_tree _ _ d (fun w rs _ x => body w rs x) fill ok hr hw L g w [] hn ho
      unfold foldRefPath Tree.rebuildPath at h
      rwa [foldPathS_noPath, foldPathS_noPath] at h) w
  rw [borrowEach_trees, e] at h1 h2
  exact ⟨r, h1, fun hk => h2 (by
    rw [List.length_map]
    exact Nat.lt_of_le_of_lt (Nat.le_of_eq (eachS_kept_length (fun w _ t => Tree.foldS (Tree.rebuild body) w t) ts w 0)) hk)⟩

/-- C68, `fold_each_mut` on binary trees: the closure is called bottom-up, one tree after another, on the value of each node with the results of its
children; the trees are left with what it wrote. -/
theorem C68_binary_fold (ts : List (BinTree V)) (body : σ → Option W × Option W → V → σ × V × W) (d : W) (k : Nat) (w : σ) :
    ∃ r, Api.binFoldEach (foldRef (forestCell BinTree.cell) (forestSet BinTree.setCell) d body) (borrowEach2 ts) k (ts, w) =
        .ok (seen k ((eachS (fun w _ t => kept (BinTree.foldS (BinTree.rebuild body) w t)) w 0 ts).2.map Prod.snd), r) ∧
      (ts.length < k →
        r = ((), ((eachS (fun w _ t => kept (BinTree.foldS (BinTree.rebuild body) w t)) w 0 ts).2.map Prod.fst,
          (eachS (fun w _ t => kept (BinTree.foldS (BinTree.rebuild body) w t)) w 0 ts).1))) := by
  obtain ⟨r, h1, h2⟩ := C37_binary_fold (foldRef (forestCell BinTree.cell) (forestSet BinTree.setCell) d body) (borrowEach2 ts) k (ts, w)
  have e := each_bin ts (fun mw _ L => BinTree.foldS (foldRef (forestCell BinTree.cell) (forestSet BinTree.setCell) d body) mw L)
    (fun w _ t => BinTree.foldS (BinTree.rebuild body) w t) Prod.fst Prod.snd
    (fun fill ok hr hw L _ g w hn ho => by
      have h := foldRefPath_bin _ _ d (fun w rs _ x => body w rs x) fill ok hr hw L g w [] hn ho
      unfold foldRefPath BinTree.rebuildPath at h
      rwa [fold_noPath, fold_noPath] at h) w
  rw [borrowEach2_trees, e] at h1 h2
  exact ⟨r, h1, fun hk => h2 (by
    rw [List.length_map]
    exact Nat.lt_of_le_of_lt (Nat.le_of_eq (eachS_kept_length (fun w _ t => BinTree.foldS (BinTree.rebuild body) w t) ts w 0)) hk)⟩

/-- C68, `fold_path_each_mut`: the closure is called bottom-up, one tree after another, on the value of each node with the results of its
children, and with the number of the tree and the path in it; the trees are left with what it wrote. -/
theorem C68_foldPath (ts : List (Tree V)) (ht : ∀ t ∈ ts, ArityOk t) (body : σ → List W → List Nat → V → σ × V × W) (d : W) (k : Nat) (w : σ) :
    ∃ r, Api.foldPathEach (foldRefPath (forestCell Tree.cell) (forestSet Tree.setCell) d body) (borrowEach ts) k (ts, w) =
        .ok (seen k ((eachS (fun w i t => kept (Tree.foldPathS (Tree.rebuildPath body) w [i] t)) w 0 ts).2.map Prod.snd), r) ∧
      (ts.length < k →
        r = ((), ((eachS (fun w i t => kept (Tree.foldPathS (Tree.rebuildPath body) w [i] t)) w 0 ts).2.map Prod.fst,
          (eachS (fun w i t => kept (Tree.foldPathS (Tree.rebuildPath body) w [i] t)) w 0 ts).1))) := by
  obtain ⟨r, h1, h2⟩ := C38_foldPath (foldRefPath (forestCell Tree.cell) (forestSet Tree.setCell) d body) (borrowEach ts) (borrowEach_arity ts ht) k (ts, w)
  have e := each_tree ts (fun mw i L => Tree.foldPathS (foldRefPath (forestCell Tree.cell) (forestSet Tree.setCell) d body) mw [i] L)
    (fun w i t => Tree.foldPathS (Tree.rebuildPath body) w [i] t) Prod.fst Prod.snd
    (fun fill ok hr hw L i g w hn ho => foldRefPath_tree _ _ d body fill ok hr hw L g w [i] hn ho) w
  rw [borrowEach_trees, e] at h1 h2
  exact ⟨r, h1, fun hk => h2 (by
    rw [List.length_map]
    exact Nat.lt_of_le_of_lt (Nat.le_of_eq (eachS_kept_length (fun w i t => Tree.foldPathS (Tree.rebuildPath body) w [i] t) ts w 0)) hk)⟩

/-- C68, `fold_path_each_mut` on binary trees: the closure is called bottom-up, one tree after another, on the value of each node with the results of its
children, and with the number of the tree and the path in it; the trees are left with what it wrote. -/
theorem C68_binary_foldPath (ts : List (BinTree V)) (body : σ → Option W × Option W → List Nat → V → σ × V × W) (d : W) (k : Nat) (w : σ) :
    ∃ r, Api.binFoldPathEach (foldRefPath (forestCell BinTree.cell) (forestSet BinTree.setCell) d body) (borrowEach2 ts) k (ts, w) =
        .ok (seen k ((eachS (fun w i t => kept (BinTree.foldPathS (BinTree.rebuildPath body) w [i] t)) w 0 ts).2.map Prod.snd), r) ∧
      (ts.length < k →
        r = ((), ((eachS (fun w i t => kept (BinTree.foldPathS (BinTree.rebuildPath body) w [i] t)) w 0 ts).2.map Prod.fst,
          (eachS (fun w i t => kept (BinTree.foldPathS (BinTree.rebuildPath body) w [i] t)) w 0 ts).1))) := by
  obtain ⟨r, h1, h2⟩ := C38_binary_foldPath (foldRefPath (forestCell BinTree.cell) (forestSet BinTree.setCell) d body) (borrowEach2 ts) k (ts, w)
  have e := each_bin ts (fun mw i L => BinTree.foldPathS (foldRefPath (forestCell BinTree.cell) (forestSet BinTree.setCell) d body) mw [i] L)
    (fun w i t => BinTree.foldPathS (BinTree.rebuildPath body) w [i] t) Prod.fst Prod.snd
    (fun fill ok hr hw L i g w hn ho => foldRefPath_bin _ _ d body fill ok hr hw L g w [i] hn ho) w
  rw [borrowEach2_trees, e] at h1 h2
  exact ⟨r, h1, fun hk => h2 (by
    rw [List.length_map]
    exact Nat.lt_of_le_of_lt (Nat.le_of_eq (eachS_kept_length (fun w i t => BinTree.foldPathS (BinTree.rebuildPath body) w [i] t) ts w 0)) hk)⟩

example := C68_foldPath threeTrees threeTrees_arity (fun w (os : List Nat) p v => (w + p.length, v + 10, os.sum + v)) 0 5 0

/-- The old values are handed out, the counters stay behind. -/
example : (Api.mapEach (mapRef (forestCell Tree.cell) (forestSet Tree.setCell) 99 fun k v => (k + 1, k, 10 * v))
    (borrowEach threeTrees) 4 (threeTrees, 0)).toOption =
    some ([some (.node 0 [.node 10 [.node 30 [], .node 40 []], .node 20 [.node 50 []]]),
        some (.node 70 [.node 80 []]), some (.node 90 []), none],
      ([.node 0 [.node 1 [.node 2 [], .node 3 []], .node 4 [.node 5 []]], .node 6 [.node 7 []], .node 8 []], 9), ()) := by
  decide +kernel

example : (Api.foldEach (foldRef (forestCell Tree.cell) (forestSet Tree.setCell) 99 fun k os v => (k + 1, k, os.sum + v))
    (borrowEach threeTrees) 4 (threeTrees, 0)).toOption =
    some ([some 15, some 15, some 9, none], (),
      ([.node 5 [.node 2 [.node 0 [], .node 1 []], .node 4 [.node 3 []]], .node 7 [.node 6 []], .node 8 []], 9)) := by
  decide +kernel

example : (Api.binFoldPathEach (foldRefPath (forestCell BinTree.cell) (forestSet BinTree.setCell) 99
      fun (k : Nat) (_ : Option Nat × Option Nat) p _ => (k + 1, k, p.length)) (borrowEach2 threeBins) 4 (threeBins, 0)).toOption =
    some ([some 1, some 1, some 1, none], (),
      ([.node 4 (some (.node 1 none (some (.node 0 none none)))) (some (.node 3 (some (.node 2 none none)) none)),
        .node 6 none (some (.node 5 none none)), .node 7 none none], 8)) := by decide +kernel

/-! ## Pruning -/

/-- The trees of references `rs` into the collection `ts` refer to the trees `ss`, and a loop over them with
`dfs_preorder_each`, stopped after `k` rounds, edits just the cells they refer to, in their order. -/
def RefersToEach (ts ss : List (Tree V)) (rs : List (Tree (List Nat))) : Prop :=
  rs.map (Tree.map (forestCell Tree.cell ts)) = ss.map (Tree.map some) ∧
  ∀ {τ : Type x} (body : τ → V → τ × V) (v : τ) (k : Nat), ∃ ts',
    forEachMut (Coll.next Preorder.new Preorder.next) (forestCell Tree.cell) (forestSet Tree.setCell) body k (Coll.new rs) ts v =
        (ts', (mapAccum body v ((ss.flatMap Tree.preorder).take k)).2) ∧
      ts'.map Tree.shape = ts.map Tree.shape ∧
      (rs.flatMap Tree.preorder).map (forestCell Tree.cell ts') =
        ((mapAccum body v ((ss.flatMap Tree.preorder).take k)).1 ++ (ss.flatMap Tree.preorder).drop k).map some ∧
      ∀ a, a ∉ rs.flatMap Tree.preorder → forestCell Tree.cell ts' a = forestCell Tree.cell ts a

/-- The same for binary trees, with a loop over `dfs_inorder_each`. -/
def RefersToEach2 (ts ss : List (BinTree V)) (rs : List (BinTree (List Nat))) : Prop :=
  rs.map (BinTree.map (forestCell BinTree.cell ts)) = ss.map (BinTree.map some) ∧
  ∀ {τ : Type x} (body : τ → V → τ × V) (v : τ) (k : Nat), ∃ ts',
    forEachMut (Coll.next Inorder.new Inorder.next) (forestCell BinTree.cell) (forestSet BinTree.setCell) body k (Coll.new rs) ts v =
        (ts', (mapAccum body v ((ss.flatMap BinTree.inorder).take k)).2) ∧
      ts'.map BinTree.shape = ts.map BinTree.shape ∧
      (rs.flatMap BinTree.inorder).map (forestCell BinTree.cell ts') =
        ((mapAccum body v ((ss.flatMap BinTree.inorder).take k)).1 ++ (ss.flatMap BinTree.inorder).drop k).map some ∧
      ∀ a, a ∉ rs.flatMap BinTree.inorder → forestCell BinTree.cell ts' a = forestCell BinTree.cell ts a

theorem flatMap_cells {A : Type u} {B : Type v} {C : Type w} {D : Type x} (l : List A) (l' : List B) (f : A → List C)
    (g : B → List D) (h : C → Option D) (hl : l.map (fun a => (f a).map h) = l'.map fun b => (g b).map some) :
    (l.flatMap f).map h = (l'.flatMap g).map some := by
  rw [List.map_flatMap, List.map_flatMap, List.flatMap_def, List.flatMap_def, hl]

/-- References whose listing is a sublist of all addresses of the collection. -/
theorem refersToEach_of_sublist (ts ss : List (Tree V)) (rs : List (Tree (List Nat)))
    (hc : rs.map (Tree.map (forestCell Tree.cell ts)) = ss.map (Tree.map some))
    (hs : (rs.flatMap Tree.preorder).Sublist (eachRefs (fun t => t.addrs.preorder) ts)) :
    RefersToEach.{u, x} ts ss rs := by
  refine ⟨hc, fun body v k => ?_⟩
  have hx : (rs.flatMap Tree.preorder).map (forestCell Tree.cell ts) = (ss.flatMap Tree.preorder).map some := by
    refine flatMap_cells _ _ _ _ _ ?_
    have h := congrArg (List.map Tree.preorder) hc
    simpa [List.map_map, Function.comp_def, Tree.preorder_map] using h
  obtain ⟨ts', h1, h2, h3, h4⟩ := (treeCells V).each.loop (Coll.next Preorder.new Preorder.next) (Coll.new rs) ts body v k
    (rs.flatMap Tree.preorder) (ss.flatMap Tree.preorder) hx
    ((eachRefs_nodup _ ts fun t _ => addrs_nodup t).sublist hs) (fun i => by rw [C25_preorder]; simp only [treeOf_tree])
  exact ⟨ts', h1, (treeCells V).each_shape Tree.shape shape_fill h4, h2, h3⟩

theorem refersToEach2_of_sublist (ts ss : List (BinTree V)) (rs : List (BinTree (List Nat)))
    (hc : rs.map (BinTree.map (forestCell BinTree.cell ts)) = ss.map (BinTree.map some))
    (hs : (rs.flatMap fun t => t.toTree.preorder).Sublist (eachRefs (fun t => t.addrs.toTree.preorder) ts)) :
    RefersToEach2.{u, x} ts ss rs := by
  refine ⟨hc, fun body v k => ?_⟩
  have hx : (rs.flatMap BinTree.inorder).map (forestCell BinTree.cell ts) = (ss.flatMap BinTree.inorder).map some := by
    refine flatMap_cells _ _ _ _ _ ?_
    have h := congrArg (List.map BinTree.inorder) hc
    simpa [List.map_map, Function.comp_def, BinTree.inorder_map] using h
  have hp : (rs.flatMap BinTree.inorder).Perm (rs.flatMap fun t => t.toTree.preorder) := by
    clear hc hs hx
    induction rs with
    | nil => exact List.Perm.refl _
    | cons r rs ih => exact (inorder_perm_preorder r).append ih
  obtain ⟨ts', h1, h2, h3, h4⟩ := (binCells V).each.loop (Coll.next Inorder.new Inorder.next) (Coll.new rs) ts body v k
    (rs.flatMap BinTree.inorder) (ss.flatMap BinTree.inorder) hx
    (hp.nodup_iff.2 ((eachRefs_nodup _ ts fun t _ => addrs_nodup2 t).sublist hs))
    (fun i => by rw [C25_inorder]; simp only [binTreeOf_binTree])
  exact ⟨ts', h1, (binCells V).each_shape BinTree.shape shape_fill2 h4, h2, h3⟩

/-- The positions in a collection: the path starts with the number of the tree. -/
def eachPos (ts : List (Tree V)) : List (Tree (Pos V)) := ts.mapIdx fun i t => t.withPos [i] []

def eachPos2 (ts : List (BinTree V)) : List (BinTree (Pos V)) := ts.mapIdx fun i t => t.withPos [i] []

theorem eachPos_paths (ts : List (Tree V)) : (borrowEach ts).map treeOf = (eachPos ts).map (Tree.map Pos.path) := by
  refine List.ext_getElem? fun j => ?_
  simp only [borrowEach, eachPos, List.getElem?_map, List.getElem?_mapIdx, Option.map_map]
  cases ts[j]? with
  | none => rfl
  | some t => simp [treeOf_mutRef_aux t [j] []]

theorem eachPos2_paths (ts : List (BinTree V)) : (borrowEach2 ts).map binTreeOf = (eachPos2 ts).map (BinTree.map Pos.path) := by
  refine List.ext_getElem? fun j => ?_
  simp only [borrowEach2, eachPos2, List.getElem?_map, List.getElem?_mapIdx, Option.map_map]
  cases ts[j]? with
  | none => rfl
  | some t => simp [binTreeOf_mutRef_aux t [j] []]

theorem eachPos_items (ts : List (Tree V)) : (eachPos ts).map (Tree.map Pos.item) = ts := by
  refine List.ext_getElem? fun j => ?_
  simp only [eachPos, List.getElem?_map, List.getElem?_mapIdx, Option.map_map]
  cases ts[j]? with
  | none => rfl
  | some t => simp [map_item_withPos]

theorem eachPos2_items (ts : List (BinTree V)) : (eachPos2 ts).map (BinTree.map Pos.item) = ts := by
  refine List.ext_getElem? fun j => ?_
  simp only [eachPos2, List.getElem?_map, List.getElem?_mapIdx, Option.map_map]
  cases ts[j]? with
  | none => rfl
  | some t => simp [map_item_withPos2]

theorem eachPos_cell (ts : List (Tree V)) : ∀ l ∈ eachPos ts, ∀ q ∈ l.preorder,
    forestCell Tree.cell ts q.path = some q.item := by
  intro l hl q hq
  rw [eachPos, List.mem_mapIdx] at hl
  obtain ⟨i, hi, rfl⟩ := hl
  obtain ⟨p, h1, h2⟩ := cell_of_mem_withPos _ _ _ q hq
  rw [h1]
  simp only [List.cons_append, List.nil_append, forestCell, List.getElem?_eq_getElem hi, Option.bind_some, h2]

theorem eachPos2_cell (ts : List (BinTree V)) : ∀ l ∈ eachPos2 ts, ∀ q ∈ l.toTree.preorder,
    forestCell BinTree.cell ts q.path = some q.item := by
  intro l hl q hq
  rw [eachPos2, List.mem_mapIdx] at hl
  obtain ⟨i, hi, rfl⟩ := hl
  obtain ⟨p, h1, h2⟩ := cell_of_mem_withPos2 _ _ _ q hq
  rw [h1]
  simp only [List.cons_append, List.nil_append, forestCell, List.getElem?_eq_getElem hi, Option.bind_some, h2]

/-- What is left of the positions refers to the values that are left. -/
theorem refersToEach_of_pos (ts : List (Tree V)) (Q : List (Tree (Pos V)))
    (hQ : (Q.flatMap Tree.preorder).Sublist ((eachPos ts).flatMap Tree.preorder)) :
    RefersToEach.{u, x} ts (Q.map (Tree.map Pos.item)) (Q.map (Tree.map Pos.path)) := by
  refine refersToEach_of_sublist ts _ _ ?_ ?_
  · rw [List.map_map, List.map_map]
    refine List.map_congr_left fun q hq => ?_
    rw [Function.comp_apply, Function.comp_apply, Tree.map_map, Tree.map_map]
    refine map_congr_mem q _ _ fun p hp => ?_
    obtain ⟨l, hl, hp⟩ := List.mem_flatMap.1 (hQ.subset (List.mem_flatMap.2 ⟨q, hq, hp⟩))
    exact eachPos_cell ts l hl p hp
  · rw [← refs_each, ← borrowEach_trees, eachPos_paths]
    have h := hQ.map Pos.path
    simpa only [List.map_flatMap, List.flatMap_map, Tree.preorder_map] using h

theorem refersToEach2_of_pos (ts : List (BinTree V)) (Q : List (BinTree (Pos V)))
    (hQ : (Q.flatMap fun t => t.toTree.preorder).Sublist ((eachPos2 ts).flatMap fun t => t.toTree.preorder)) :
    RefersToEach2.{u, x} ts (Q.map (BinTree.map Pos.item)) (Q.map (BinTree.map Pos.path)) := by
  refine refersToEach2_of_sublist ts _ _ ?_ ?_
  · rw [List.map_map, List.map_map]
    refine List.map_congr_left fun q hq => ?_
    rw [Function.comp_apply, Function.comp_apply, BinTree.map_map, BinTree.map_map]
    refine map_congr_mem2 q _ _ fun p hp => ?_
    obtain ⟨l, hl, hp⟩ := List.mem_flatMap.1 (hQ.subset (List.mem_flatMap.2 ⟨q, hq, hp⟩))
    exact eachPos2_cell ts l hl p hp
  · rw [← refs_each2, ← borrowEach2_trees, eachPos2_paths]
    have h := hQ.map Pos.path
    simpa only [List.map_flatMap, List.flatMap_map, BinTree.toTree_map, Tree.preorder_map] using h

/-- The same operation on differently labelled trees. -/
theorem eachS_along {A : Type u} {A' : Type w} {B : Type x} {B' : Type y} (F : σ → Nat → A' → σ × Option B')
    (H : σ → Nat → A → σ × Option B) (h : A → A') (h' : B → B') (as : List A) :
    ∀ (w : σ) (i : Nat), (∀ j a, as[j]? = some a → ∀ w, F w (i + j) (h a) = ((H w (i + j) a).1, (H w (i + j) a).2.map h')) →
      eachS F w i (as.map h) = ((eachS H w i as).1, (eachS H w i as).2.map h') := by
  induction as with
  | nil => intros; rfl
  | cons a as ih =>
    intro w i hF
    have h0 := hF 0 a rfl w
    rw [Nat.add_zero] at h0
    have h1 := ih (H w i a).1 (i + 1) fun j b hb w => by
      have := hF (j + 1) b (by simpa using hb) w
      rwa [Nat.add_comm j 1, ← Nat.add_assoc] at this
    simp only [List.map_cons, eachS, h0, h1, List.map_append, Option.toList_map]

theorem eachS_sublist {A B : Type u} {C : Type w} (H : σ → Nat → A → σ × Option B) (f : A → List C) (g : B → List C) (as : List A) :
    ∀ (w : σ) (i : Nat), (∀ a w i, ∀ b ∈ (H w i a).2, (g b).Sublist (f a)) →
      ((eachS H w i as).2.flatMap g).Sublist (as.flatMap f) := by
  induction as with
  | nil => intros; exact List.Sublist.refl _
  | cons a as ih =>
    intro w i hH
    rw [eachS, List.flatMap_append, List.flatMap_cons]
    refine List.Sublist.append ?_ (ih _ _ hH)
    have := hH a w i
    cases hb : (H w i a).2 with
    | none => simp
    | some b => simpa using this b (by simp [hb])

/-- C68, `prune_each_mut`: the predicate sees the values in the trees; the
results are made of references to exactly the nodes that are kept, and editing through them changes nothing else. -/
theorem C68_prune (ts : List (Tree V)) (f : σ → V → σ × Bool) (d : Bool) (k : Nat) (w : σ) :
    ∃ rs r, Api.pruneEach (pruneRef (forestCell Tree.cell) ts d f) (borrowEach ts) k w = .ok (seen k rs, r) ∧
      RefersToEach.{u, x} ts (eachS (fun w _ t => t.pruneS f w) w 0 ts).2 rs ∧
      (rs.length < k → r = ((eachS (fun w _ t => t.pruneS f w) w 0 ts).1, ())) := by
  obtain ⟨r, h1, h2⟩ := C37_prune (pruneRef (forestCell Tree.cell) ts d f) (borrowEach ts) k w
  have e1 := eachS_along (fun w _ t => Tree.pruneS (pruneRef (forestCell Tree.cell) ts d f) w t) (fun w _ q => q.pruneS (fun w (p : Pos V) => f w p.item) w) (Tree.map Pos.path) (Tree.map Pos.path) (eachPos ts) w 0
    (fun j q hq w => pruneS_map _ (fun w (p : Pos V) => f w p.item) Pos.path q w fun p hp w => by
      simp only [pruneRef, eachPos_cell ts q (List.mem_of_getElem? hq) p hp])
  have e2 := eachS_along (fun w _ t => t.pruneS f w) (fun w _ q => q.pruneS (fun w (p : Pos V) => f w p.item) w) (Tree.map Pos.item) (Tree.map Pos.item) (eachPos ts) w 0
    (fun j q hq w => pruneS_map f (fun w (p : Pos V) => f w p.item) Pos.item q w fun p hp w => rfl)
  rw [eachPos_items] at e2
  rw [eachPos_paths, e1] at h1 h2
  refine ⟨_, r, h1, ?_, ?_⟩
  · rw [e2]
    exact refersToEach_of_pos ts _ (eachS_sublist _ Tree.preorder Tree.preorder _ _ _ fun q w _ b hb =>
      pruneS_sublist _ q w b hb)
  · rw [e2]
    exact h2

/-- C68, `prune_each_mut` on binary trees: the predicate sees the values in the trees; the
results are made of references to exactly the nodes that are kept, and editing through them changes nothing else. -/
theorem C68_binary_prune (ts : List (BinTree V)) (f : σ → V → σ × Bool) (d : Bool) (k : Nat) (w : σ) :
    ∃ rs r, Api.binPruneEach (pruneRef (forestCell BinTree.cell) ts d f) (borrowEach2 ts) k w = .ok (seen k rs, r) ∧
      RefersToEach2.{u, x} ts (eachS (fun w _ t => t.pruneS f w) w 0 ts).2 rs ∧
      (rs.length < k → r = ((eachS (fun w _ t => t.pruneS f w) w 0 ts).1, ())) := by
  obtain ⟨r, h1, h2⟩ := C37_binary_prune (pruneRef (forestCell BinTree.cell) ts d f) (borrowEach2 ts) k w
  have e1 := eachS_along (fun w _ t => BinTree.pruneS (pruneRef (forestCell BinTree.cell) ts d f) w t) (fun w _ q => q.pruneS (fun w (p : Pos V) => f w p.item) w) (BinTree.map Pos.path) (BinTree.map Pos.path) (eachPos2 ts) w 0
    (fun j q hq w => pruneS_map2 _ (fun w (p : Pos V) => f w p.item) Pos.path q w fun p hp w => by
      simp only [pruneRef, eachPos2_cell ts q (List.mem_of_getElem? hq) p hp])
  have e2 := eachS_along (fun w _ t => t.pruneS f w) (fun w _ q => q.pruneS (fun w (p : Pos V) => f w p.item) w) (BinTree.map Pos.item) (BinTree.map Pos.item) (eachPos2 ts) w 0
    (fun j q hq w => pruneS_map2 f (fun w (p : Pos V) => f w p.item) Pos.item q w fun p hp w => rfl)
  rw [eachPos2_items] at e2
  rw [eachPos2_paths, e1] at h1 h2
  refine ⟨_, r, h1, ?_, ?_⟩
  · rw [e2]
    exact refersToEach2_of_pos ts _ (eachS_sublist _ (fun t => t.toTree.preorder) (fun t => t.toTree.preorder) _ _ _ fun q w _ b hb =>
      pruneS_sublist2 _ q w b hb)
  · rw [e2]
    exact h2

/-- C68, `prune_path_each_mut`: the predicate sees the values in the trees, with the number of the tree and the path in it; the
results are made of references to exactly the nodes that are kept, and editing through them changes nothing else. -/
theorem C68_prunePath (ts : List (Tree V)) (ht : ∀ t ∈ ts, ArityOk t) (f : σ → List Nat → V → σ × Bool) (d : Bool) (k : Nat) (w : σ) :
    ∃ rs r, Api.prunePathEach (pruneRefPath (forestCell Tree.cell) ts d f) (borrowEach ts) k w = .ok (seen k rs, r) ∧
      RefersToEach.{u, x} ts (eachS (fun w i t => t.prunePathS f w [i]) w 0 ts).2 rs ∧
      (rs.length < k → r = ((eachS (fun w i t => t.prunePathS f w [i]) w 0 ts).1, ())) := by
  obtain ⟨r, h1, h2⟩ := C38_prunePath (pruneRefPath (forestCell Tree.cell) ts d f) (borrowEach ts) (borrowEach_arity ts ht) k w
  have e1 := eachS_along (fun w i t => Tree.prunePathS (pruneRefPath (forestCell Tree.cell) ts d f) w [i] t) (fun w _ q => q.pruneS (fun w (p : Pos V) => f w p.path p.item) w) (Tree.map Pos.path) (Tree.map Pos.path) (eachPos ts) w 0
    (fun j q hq w => by
      have hc := eachPos_cell ts q (List.mem_of_getElem? hq)
      simp only [eachPos, List.getElem?_mapIdx, Option.map_eq_some_iff] at hq
      obtain ⟨t, -, rfl⟩ := hq
      rw [Nat.zero_add, prunePathS_withPos]
      have h3 := pruneS_map (fun w (q : Pos V) => pruneRefPath (forestCell Tree.cell) ts d f w q.path q.path) (fun w (p : Pos V) => f w p.path p.item) id
        (t.withPos [j] []) w fun p hp w => by simp only [pruneRefPath, pruneRef, id, hc p hp]
      rw [show (t.withPos [j] []).map id = t.withPos [j] [] from Tree.map_id _] at h3
      rw [h3]
      simp only [Prod.mk.injEq, true_and, Option.map_map]
      congr 1
      funext r
      rw [Function.comp_apply, show r.map id = r from Tree.map_id _])
  have e2 := eachS_along (fun w i t => t.prunePathS f w [i]) (fun w _ q => q.pruneS (fun w (p : Pos V) => f w p.path p.item) w) (Tree.map Pos.item) (Tree.map Pos.item) (eachPos ts) w 0
    (fun j q hq w => by
      simp only [eachPos, List.getElem?_mapIdx, Option.map_eq_some_iff] at hq
      obtain ⟨t, -, rfl⟩ := hq
      rw [Nat.zero_add, prunePathS_withPos])
  rw [eachPos_items] at e2
  rw [eachPos_paths, e1] at h1 h2
  refine ⟨_, r, h1, ?_, ?_⟩
  · rw [e2]
    exact refersToEach_of_pos ts _ (eachS_sublist _ Tree.preorder Tree.preorder _ _ _ fun q w _ b hb =>
      pruneS_sublist _ q w b hb)
  · rw [e2]
    exact h2

/-- C68, `prune_path_each_mut` on binary trees: the predicate sees the values in the trees, with the number of the tree and the path in it; the
results are made of references to exactly the nodes that are kept, and editing through them changes nothing else. -/
theorem C68_binary_prunePath (ts : List (BinTree V)) (f : σ → List Nat → V → σ × Bool) (d : Bool) (k : Nat) (w : σ) :
    ∃ rs r, Api.binPrunePathEach (pruneRefPath (forestCell BinTree.cell) ts d f) (borrowEach2 ts) k w = .ok (seen k rs, r) ∧
      RefersToEach2.{u, x} ts (eachS (fun w i t => t.prunePathS f w [i]) w 0 ts).2 rs ∧
      (rs.length < k → r = ((eachS (fun w i t => t.prunePathS f w [i]) w 0 ts).1, ())) := by
  obtain ⟨r, h1, h2⟩ := C38_binary_prunePath (pruneRefPath (forestCell BinTree.cell) ts d f) (borrowEach2 ts) k w
  have e1 := eachS_along (fun w i t => BinTree.prunePathS (pruneRefPath (forestCell BinTree.cell) ts d f) w [i] t) (fun w _ q => q.pruneS (fun w (p : Pos V) => f w p.path p.item) w) (BinTree.map Pos.path) (BinTree.map Pos.path) (eachPos2 ts) w 0
    (fun j q hq w => by
      have hc := eachPos2_cell ts q (List.mem_of_getElem? hq)
      simp only [eachPos2, List.getElem?_mapIdx, Option.map_eq_some_iff] at hq
      obtain ⟨t, -, rfl⟩ := hq
      rw [Nat.zero_add, prunePathS_withPos2]
      have h3 := pruneS_map2 (fun w (q : Pos V) => pruneRefPath (forestCell BinTree.cell) ts d f w q.path q.path) (fun w (p : Pos V) => f w p.path p.item) id
        (t.withPos [j] []) w fun p hp w => by simp only [pruneRefPath, pruneRef, id, hc p hp]
      rw [show (t.withPos [j] []).map id = t.withPos [j] [] from BinTree.map_id _] at h3
      rw [h3]
      simp only [Prod.mk.injEq, true_and, Option.map_map]
      congr 1
      funext r
      rw [Function.comp_apply, show r.map id = r from BinTree.map_id _])
  have e2 := eachS_along (fun w i t => t.prunePathS f w [i]) (fun w _ q => q.pruneS (fun w (p : Pos V) => f w p.path p.item) w) (BinTree.map Pos.item) (BinTree.map Pos.item) (eachPos2 ts) w 0
    (fun j q hq w => by
      simp only [eachPos2, List.getElem?_mapIdx, Option.map_eq_some_iff] at hq
      obtain ⟨t, -, rfl⟩ := hq
      rw [Nat.zero_add, prunePathS_withPos2])
  rw [eachPos2_items] at e2
  rw [eachPos2_paths, e1] at h1 h2
  refine ⟨_, r, h1, ?_, ?_⟩
  · rw [e2]
    exact refersToEach2_of_pos ts _ (eachS_sublist _ (fun t => t.toTree.preorder) (fun t => t.toTree.preorder) _ _ _ fun q w _ b hb =>
      pruneS_sublist2 _ q w b hb)
  · rw [e2]
    exact h2

/-- C68, `prune_depth_each_mut`. -/
theorem C68_pruneDepth (ts : List (Tree V)) (n k : Nat) :
    ∃ rs r, Api.pruneDepthEach n (borrowEach ts) k = .ok (seen k rs, r) ∧
      RefersToEach.{u, x} ts (ts.map fun t => t.truncate n) rs := by
  obtain ⟨r, h⟩ := C37_pruneDepth n (borrowEach ts) k
  have e1 : ((borrowEach ts).map fun m => (treeOf m).truncate n) =
      ((eachPos ts).map fun q => q.truncate n).map (Tree.map Pos.path) := by
    have h := congrArg (List.map fun t => Tree.truncate n t) (eachPos_paths ts)
    rw [List.map_map, List.map_map] at h
    rw [List.map_map]
    refine h.trans (List.map_congr_left fun q _ => ?_)
    exact truncate_map Pos.path q n
  have e2 : (ts.map fun t => t.truncate n) = ((eachPos ts).map fun q => q.truncate n).map (Tree.map Pos.item) := by
    have h := congrArg (List.map fun t => Tree.truncate n t) (eachPos_items ts)
    rw [List.map_map] at h
    rw [List.map_map]
    refine h.symm.trans (List.map_congr_left fun q _ => ?_)
    exact truncate_map Pos.item q n
  rw [e1] at h
  refine ⟨_, r, h, ?_⟩
  rw [e2]
  refine refersToEach_of_pos ts _ ?_
  have key : ∀ l : List (Tree (Pos V)), ((l.map fun q => q.truncate n).flatMap Tree.preorder).Sublist (l.flatMap Tree.preorder) := by
    intro l
    induction l with
    | nil => exact List.Sublist.refl _
    | cons q l ih => exact (truncate_sublist q n).append ih
  exact key _

/-- C68, `prune_depth_each_mut` on binary trees. -/
theorem C68_binary_pruneDepth (ts : List (BinTree V)) (n k : Nat) :
    ∃ rs r, Api.binPruneDepthEach n (borrowEach2 ts) k = .ok (seen k rs, r) ∧
      RefersToEach2.{u, x} ts (ts.map fun t => t.truncate n) rs := by
  obtain ⟨r, h⟩ := C37_binary_pruneDepth n (borrowEach2 ts) k
  have e1 : ((borrowEach2 ts).map fun m => (binTreeOf m).truncate n) =
      ((eachPos2 ts).map fun q => q.truncate n).map (BinTree.map Pos.path) := by
    have h := congrArg (List.map fun t => BinTree.truncate n t) (eachPos2_paths ts)
    rw [List.map_map, List.map_map] at h
    rw [List.map_map]
    refine h.trans (List.map_congr_left fun q _ => ?_)
    exact truncate_map2 Pos.path q n
  have e2 : (ts.map fun t => t.truncate n) = ((eachPos2 ts).map fun q => q.truncate n).map (BinTree.map Pos.item) := by
    have h := congrArg (List.map fun t => BinTree.truncate n t) (eachPos2_items ts)
    rw [List.map_map] at h
    rw [List.map_map]
    refine h.symm.trans (List.map_congr_left fun q _ => ?_)
    exact truncate_map2 Pos.item q n
  rw [e1] at h
  refine ⟨_, r, h, ?_⟩
  rw [e2]
  refine refersToEach2_of_pos ts _ ?_
  have key : ∀ l : List (BinTree (Pos V)), ((l.map fun q => q.truncate n).flatMap (fun t => t.toTree.preorder)).Sublist (l.flatMap (fun t => t.toTree.preorder)) := by
    intro l
    induction l with
    | nil => exact List.Sublist.refl _
    | cons q l ih => exact (truncate_sublist2 q n).append ih
  exact key _

example := C68_prunePath threeTrees threeTrees_arity (fun w p v => (w + v, p == [0, 1])) false 5 0

/-- Pruning away the node `1` and the second tree, and adding `10` to what is left. -/
example : ∃ rs, (Api.pruneEach (pruneRef (forestCell Tree.cell) threeTrees true fun log v => (log ++ [v], v == 1 || v == 7))
      (borrowEach threeTrees) 3 []).toOption = some (rs.map some ++ [none], [0, 1, 2, 5, 7, 9], ()) ∧
    forEachMut (Coll.next Preorder.new Preorder.next) (forestCell Tree.cell) (forestSet Tree.setCell)
        (fun k v => (k + 1, v + 10)) 9 (Coll.new rs) threeTrees 0 =
      ([.node 10 [.node 1 [.node 3 [], .node 4 []], .node 12 [.node 15 []]], .node 7 [.node 8 []], .node 19 []], 4) :=
  ⟨[.node [0] [.node [0, 1] [.node [0, 1, 0] []]], .node [2] []], by decide +kernel, by decide +kernel⟩

example : ∃ rs, ((Api.binPruneDepthEach 0 (borrowEach2 threeBins) 4).toOption.map Prod.fst) = some (rs.map some ++ [none]) ∧
    (forEachMut (Coll.next Inorder.new Inorder.next) (forestCell BinTree.cell) (forestSet BinTree.setCell)
        (fun k v => (k + 1, v + 10)) 9 (Coll.new rs) threeBins 0).1.map BinTree.value = [10, 17, 19] :=
  ⟨[.node [0] none none, .node [1] none none, .node [2] none none], by decide +kernel, by decide +kernel⟩

end TreeIter
