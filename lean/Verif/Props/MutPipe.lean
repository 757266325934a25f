import Verif.Lemmas.MutPipe
import Verif.Props.MutRef
import Verif.Props.Pipeline

/-! # C51: whole-tree operations by mutable reference edit the borrowed tree in place -/

universe u v w x

namespace TreeIter

variable {V : Type u} {σ : Type v} {W : Type w} {τ : Type x}

/-! ## Helpers -/

/-- The addresses of a borrowed tree: distinct, each with a cell, and the memory as a function of them. -/
theorem borrowed_tree (t : Tree V) :
    (t.located.map Pos.path).preorder.Nodup ∧ (∀ a ∈ (t.located.map Pos.path).preorder, (t.cell a).isSome) ∧
      (∀ g : List Nat → V, ∀ a, (t.cell a).isSome → (t.fill g).cell a = some (g a)) ∧
      (∀ (g : List Nat → V) x a, (t.cell a).isSome → (t.fill g).setCell a x = t.fill (Function.update g a x)) ∧
      ∀ g : List Nat → V, (t.located.map Pos.path).map g = t.fill g := by
  refine ⟨?_, ?_, ?_, fun g x a ha => setCell_fill t g x a ha, fun g => by rw [Tree.map_map]; rfl⟩
  · rw [Tree.preorder_map]
    exact located_nodup t
  · intro a ha
    rw [Tree.preorder_map] at ha
    obtain ⟨p, hp, rfl⟩ := List.mem_map.1 ha
    simp [cell_of_mem_located t p hp]
  · intro g a ha
    rw [cell_fill]
    obtain ⟨y, hy⟩ := Option.isSome_iff_exists.1 ha
    simp [hy]

/-- The same for binary trees. -/
theorem borrowed_bin (t : BinTree V) :
    (t.located.map Pos.path).toTree.preorder.Nodup ∧
      (∀ a ∈ (t.located.map Pos.path).toTree.preorder, (t.cell a).isSome) ∧
      (∀ g : List Nat → V, ∀ a, (t.cell a).isSome → (t.fill g).cell a = some (g a)) ∧
      (∀ (g : List Nat → V) x a, (t.cell a).isSome → (t.fill g).setCell a x = t.fill (Function.update g a x)) ∧
      ∀ g : List Nat → V, (t.located.map Pos.path).map g = t.fill g := by
  refine ⟨?_, ?_, ?_, fun g x a ha => setCell_fill2 t g x a ha, fun g => by rw [BinTree.map_map]; rfl⟩
  · rw [BinTree.toTree_map, Tree.preorder_map]
    exact located2_nodup t
  · intro a ha
    rw [BinTree.toTree_map, Tree.preorder_map] at ha
    obtain ⟨p, hp, rfl⟩ := List.mem_map.1 ha
    simp [cell_of_mem_located2 t p hp]
  · intro g a ha
    rw [cell_fill2]
    obtain ⟨y, hy⟩ := Option.isSome_iff_exists.1 ha
    simp [hy]

theorem arityOk_mutRef (t : Tree V) (ht : ArityOk t) (p : List Nat) : ArityOk (MutRef.mk p t) := by
  induction t using Tree.ind generalizing p with
  | h a cs ih =>
    rw [arityOk_iff] at ht ⊢
    simp only [kids, split, Tree.children, List.length_mapIdx] at ht ⊢
    refine ⟨ht.1, fun c hc => ?_⟩
    rw [List.mem_mapIdx] at hc
    obtain ⟨i, hi, rfl⟩ := hc
    exact ih _ (List.getElem_mem hi) (ht.2 _ (List.getElem_mem hi)) _

/-! ## Mapping -/

/-- C51, `map_mut`: the closure is called on the values of the tree in preorder; the borrowed tree is left with what it
wrote, in place, and the returned tree holds what it returned. -/
theorem C51_map (t : Tree V) (body : σ → V → σ × V × W) (d : W) (w : σ) :
    Api.map (mapRef Tree.cell Tree.setCell d body) (MutRef.mk [] t) (t, w) =
      .ok ((t.mapS body w).2.map Prod.snd, ((t.mapS body w).2.map Prod.fst, (t.mapS body w).1)) := by
  obtain ⟨h1, h2, h3, h4, h5⟩ := borrowed_tree t
  obtain ⟨g0, hg0⟩ := exists_fill t
  obtain ⟨g', e1, e2, _⟩ := mapRef_tree Tree.cell Tree.setCell d body t.fill (fun a => (t.cell a).isSome) h3 h4
    (t.located.map Pos.path) g0 w h1 h2
  rw [h5, hg0] at e1
  rw [h5, h5, hg0] at e2
  rw [C28_general, treeOf_mutRef, e1, e2]

/-- C51, `map_mut` on binary trees. -/
theorem C51_map_binary (t : BinTree V) (body : σ → V → σ × V × W) (d : W) (w : σ) :
    Api.binMap (mapRef BinTree.cell BinTree.setCell d body) (MutRef2.mk [] t) (t, w) =
      .ok ((t.mapS body w).2.map Prod.snd, ((t.mapS body w).2.map Prod.fst, (t.mapS body w).1)) := by
  obtain ⟨h1, h2, h3, h4, h5⟩ := borrowed_bin t
  obtain ⟨g0, hg0⟩ := exists_fill2 t
  obtain ⟨g', e1, e2, _⟩ := mapRef_bin BinTree.cell BinTree.setCell d body t.fill (fun a => (t.cell a).isSome) h3 h4
    (t.located.map Pos.path) g0 w h1 h2
  rw [h5, hg0] at e1
  rw [h5, h5, hg0] at e2
  rw [C28_binary, binTreeOf_mutRef, e1, e2]

/-- Numbering the nodes by `map_mut`: the old values are handed out, the counters stay behind. -/
example : (Api.map (mapRef Tree.cell Tree.setCell 99 fun k v => (k + 1, k, 10 * v)) (MutRef.mk [] sampleTree)
    (sampleTree, 0)).toOption =
    some (.node 0 [.node 10 [.node 30 [], .node 40 []], .node 20 [.node 50 []]],
      .node 0 [.node 1 [.node 2 [], .node 3 []], .node 4 [.node 5 []]], 6) := by decide +kernel

example : (Api.binMap (mapRef BinTree.cell BinTree.setCell 99 fun k v => (k + 1, k, 10 * v)) (MutRef2.mk [] sampleBin)
    (sampleBin, 0)).toOption =
    some (.node 0 (some (.node 10 none (some (.node 30 none none)))) (some (.node 20 (some (.node 40 none none)) none)),
      .node 0 (some (.node 1 none (some (.node 2 none none)))) (some (.node 3 (some (.node 4 none none)) none)), 5) := by
  decide +kernel

/-! ## Folding -/

/-- C51, `fold_path_mut`: the closure is called bottom-up, on the path and the value of each node with the results of
its children; the borrowed tree is left with what it wrote. -/
theorem C51_fold_path (t : Tree V) (ht : ArityOk t) (body : σ → List W → List Nat → V → σ × V × W) (d : W) (w : σ) :
    Api.foldPath (foldRefPath Tree.cell Tree.setCell d body) (MutRef.mk [] t) (t, w) =
      .ok ((t.foldPathS (Tree.rebuildPath body) w []).2.2,
        ((t.foldPathS (Tree.rebuildPath body) w []).2.1, (t.foldPathS (Tree.rebuildPath body) w []).1), ()) := by
  obtain ⟨h1, h2, h3, h4, h5⟩ := borrowed_tree t
  obtain ⟨g0, hg0⟩ := exists_fill t
  obtain ⟨g', e1, e2, _⟩ := foldRefPath_tree Tree.cell Tree.setCell d body t.fill (fun a => (t.cell a).isSome) h3 h4
    (t.located.map Pos.path) g0 w [] h1 h2
  rw [h5, hg0] at e1
  rw [h5, h5, hg0] at e2
  rw [C35_general _ _ (arityOk_mutRef t ht []), treeOf_mutRef, e1, e2]

example := C51_fold_path sampleTree sampleTree_arity (fun w os p v => (w + p.length, v + 10, os.sum + v)) 0 0

/-- C51, `fold_mut`. -/
theorem C51_fold (t : Tree V) (body : σ → List W → V → σ × V × W) (d : W) (w : σ) :
    Api.fold (foldRef Tree.cell Tree.setCell d body) (MutRef.mk [] t) (t, w) =
      .ok ((t.foldS (Tree.rebuild body) w).2.2,
        ((t.foldS (Tree.rebuild body) w).2.1, (t.foldS (Tree.rebuild body) w).1), ()) := by
  obtain ⟨h1, h2, h3, h4, h5⟩ := borrowed_tree t
  obtain ⟨g0, hg0⟩ := exists_fill t
  obtain ⟨g', e1, e2, _⟩ := foldRefPath_tree Tree.cell Tree.setCell d (fun w rs _ x => body w rs x) t.fill
    (fun a => (t.cell a).isSome) h3 h4 (t.located.map Pos.path) g0 w [] h1 h2
  rw [h5, hg0] at e1
  rw [h5, h5, hg0] at e2
  have n1 := foldPathS_noPath (foldRef Tree.cell Tree.setCell d body) (t.located.map Pos.path) (t, w) []
  have n2 := foldPathS_noPath (Tree.rebuild body) t w []
  unfold foldRefPath at e1
  unfold Tree.rebuildPath at e1 e2
  rw [n1, n2] at e1
  rw [n2] at e2
  rw [C34_general, treeOf_mutRef, e1, e2]

/-- C51, `fold_path_mut` on binary trees. -/
theorem C51_fold_path_binary (t : BinTree V) (body : σ → Option W × Option W → List Nat → V → σ × V × W) (d : W)
    (w : σ) :
    Api.binFoldPath (foldRefPath BinTree.cell BinTree.setCell d body) (MutRef2.mk [] t) (t, w) =
      .ok ((t.foldPathS (BinTree.rebuildPath body) w []).2.2,
        ((t.foldPathS (BinTree.rebuildPath body) w []).2.1, (t.foldPathS (BinTree.rebuildPath body) w []).1), ()) := by
  obtain ⟨h1, h2, h3, h4, h5⟩ := borrowed_bin t
  obtain ⟨g0, hg0⟩ := exists_fill2 t
  obtain ⟨g', e1, e2, _⟩ := foldRefPath_bin BinTree.cell BinTree.setCell d body t.fill (fun a => (t.cell a).isSome)
    h3 h4 (t.located.map Pos.path) g0 w [] h1 h2
  rw [h5, hg0] at e1
  rw [h5, h5, hg0] at e2
  rw [C35_binary, binTreeOf_mutRef, e1, e2]

/-- C51, `fold_mut` on binary trees. -/
theorem C51_fold_binary (t : BinTree V) (body : σ → Option W × Option W → V → σ × V × W) (d : W) (w : σ) :
    Api.binFold (foldRef BinTree.cell BinTree.setCell d body) (MutRef2.mk [] t) (t, w) =
      .ok ((t.foldS (BinTree.rebuild body) w).2.2,
        ((t.foldS (BinTree.rebuild body) w).2.1, (t.foldS (BinTree.rebuild body) w).1), ()) := by
  obtain ⟨h1, h2, h3, h4, h5⟩ := borrowed_bin t
  obtain ⟨g0, hg0⟩ := exists_fill2 t
  obtain ⟨g', e1, e2, _⟩ := foldRefPath_bin BinTree.cell BinTree.setCell d (fun w rs _ x => body w rs x) t.fill
    (fun a => (t.cell a).isSome) h3 h4 (t.located.map Pos.path) g0 w [] h1 h2
  rw [h5, hg0] at e1
  rw [h5, h5, hg0] at e2
  have n1 := fold_noPath (foldRef BinTree.cell BinTree.setCell d body) (t.located.map Pos.path) (t, w) []
  have n2 := fold_noPath (BinTree.rebuild body) t w []
  unfold foldRefPath at e1
  unfold BinTree.rebuildPath at e1 e2
  rw [n1, n2] at e1
  rw [n2] at e2
  rw [C34_binary, binTreeOf_mutRef, e1, e2]

/-- Replacing every value by the sum of its subtree. -/
example : (Api.fold (foldRef Tree.cell Tree.setCell 0 fun log rs v => (log ++ [v], rs.sum + v, rs.sum + v))
    (MutRef.mk [] sampleTree) (sampleTree, [])).toOption =
    some (15, (.node 15 [.node 8 [.node 3 [], .node 4 []], .node 7 [.node 5 []]], [3, 4, 1, 5, 2, 0]), ()) := by
  decide +kernel

example : (Api.foldPath (foldRefPath Tree.cell Tree.setCell 0 fun log (_ : List Nat) p v =>
    (log ++ [p], p.length, v)) (MutRef.mk [] sampleTree) (sampleTree, [])).toOption =
    some (0, (.node 0 [.node 1 [.node 2 [], .node 2 []], .node 1 [.node 2 []]],
      [[0, 0], [0, 1], [0], [1, 0], [1], []]), ()) := by decide +kernel

example : (Api.binFold (foldRef BinTree.cell BinTree.setCell 0 fun (_ : Unit) (rs : Option Nat × Option Nat) v =>
    ((), rs.1.getD 0 + rs.2.getD 0 + v, rs.1.getD 0 + rs.2.getD 0 + v)) (MutRef2.mk [] sampleBin)
    (sampleBin, ())).toOption =
    some (10, (.node 10 (some (.node 4 none (some (.node 3 none none))))
      (some (.node 6 (some (.node 4 none none)) none)), ()), ()) := by decide +kernel

/-! ## Pruning -/

/-- A tree of references `r` into `t` refers to the tree `s`, and a loop over it with `dfs_preorder()`, stopped after `k`
rounds, edits just the cells it refers to, in its preorder. -/
def RefersTo (t s : Tree V) (r : Tree (List Nat)) : Prop :=
  r.map t.cell = s.map some ∧
  ∀ {τ : Type x} (body : τ → V → τ × V) (v : τ) (k : Nat), ∃ t',
    forEachMut Preorder.next Tree.cell Tree.setCell body k (Preorder.new r) t v =
        (t', (mapAccum body v (s.preorder.take k)).2) ∧
      t'.shape = t.shape ∧
      r.preorder.map t'.cell = ((mapAccum body v (s.preorder.take k)).1 ++ s.preorder.drop k).map some ∧
      ∀ a, a ∉ r.preorder → t'.cell a = t.cell a

theorem refersTo_of_sublist (t : Tree V) (q : Tree (Pos V)) (hq : q.preorder.Sublist t.located.preorder) :
    RefersTo.{u, x} t (q.map Pos.item) (q.map Pos.path) := by
  refine ⟨?_, fun body v k => ?_⟩
  · rw [Tree.map_map, Tree.map_map]
    exact map_congr_mem q _ _ fun p hp => cell_of_mem_located t p (hq.subset hp)
  · have hnd : (q.preorder.map Pos.path).Nodup := (located_nodup t).sublist (hq.map _)
    obtain ⟨g, h1, h2, h3⟩ := forEachMut_tree Preorder.next (Preorder.new (q.map Pos.path)) t body v k q.preorder
      (fun p hp => hq.subset hp) hnd (fun i => by rw [C01_preorder, treeOf_tree, Tree.preorder_map])
    refine ⟨t.fill g, ?_, shape_fill t g, ?_, ?_⟩
    · rw [h1, Tree.preorder_map]
    · rw [Tree.preorder_map, Tree.preorder_map, ← h2, List.map_map, List.map_map]
      refine List.map_congr_left fun p hp => ?_
      have := cell_of_mem_located t p (hq.subset hp)
      simp [cell_fill, this]
    · rw [Tree.preorder_map]
      exact h3

/-- C51, `prune_mut`: the predicate sees the values in the tree, the result is made of references to exactly the nodes
that are kept, and editing through them changes nothing else. -/
theorem C51_prune (t : Tree V) (f : σ → V → σ × Bool) (d : Bool) (w : σ) :
    ∃ R, Api.prune (pruneRef Tree.cell t d f) (MutRef.mk [] t) w = .ok (R, (t.pruneS f w).1) ∧
      (R = none ↔ (t.pruneS f w).2 = none) ∧
      ∀ r ∈ R, ∀ s ∈ (t.pruneS f w).2, RefersTo.{u, x} t s r := by
  have h1 := pruneS_map (pruneRef Tree.cell t d f) (fun w (p : Pos V) => f w p.item) Pos.path t.located w
    fun p hp w => by simp only [pruneRef, cell_of_mem_located t p hp]
  have h2 := pruneS_map f (fun w (p : Pos V) => f w p.item) Pos.item t.located w fun p hp w => rfl
  rw [map_item_located] at h2
  refine ⟨_, by rw [C30_general, treeOf_mutRef, h1, h2], ?_, ?_⟩
  · rw [h2]
    cases (t.located.pruneS (fun w (p : Pos V) => f w p.item) w).2 <;> simp
  · intro r hr s hs
    rw [h2] at hs
    cases hq : (t.located.pruneS (fun w (p : Pos V) => f w p.item) w).2 with
    | none => simp [hq] at hs
    | some q =>
      rw [hq] at hr hs
      obtain rfl : _ = r := by simpa using hr
      obtain rfl : _ = s := by simpa using hs
      exact refersTo_of_sublist t q (pruneS_sublist _ _ w q hq)

theorem truncate_map {α : Type u} {β : Type v} (h : α → β) (t : Tree α) :
    ∀ n, (t.map h).truncate n = (t.truncate n).map h := by
  induction t using Tree.ind with
  | h a cs ih =>
    have key : ∀ ds : List (Tree α), (∀ c ∈ ds, c ∈ cs) → ∀ n, Tree.truncateL n (ds.map (Tree.map h)) =
        (Tree.truncateL n ds).map (Tree.map h) := by
      intro ds
      induction ds with
      | nil => intros; cases ‹Nat› <;> rfl
      | cons c ds ihd =>
        intro hds n
        rw [List.map_cons, Tree.truncateL, Tree.truncateL, ih c (hds c (by simp)),
          ihd (fun c hc => hds c (by simp [hc])), List.map_cons]
    intro n
    cases n with
    | zero => simp [Tree.truncate, Tree.map_node]
    | succ n => simp [Tree.truncate, Tree.map_node, key cs fun _ h => h]

theorem truncate_sublist {α : Type u} (t : Tree α) : ∀ n, (t.truncate n).preorder.Sublist t.preorder := by
  induction t using Tree.ind with
  | h a cs ih =>
    have key : ∀ ds : List (Tree α), (∀ c ∈ ds, c ∈ cs) → ∀ n,
        ((Tree.truncateL n ds).flatMap Tree.preorder).Sublist (ds.flatMap Tree.preorder) := by
      intro ds
      induction ds with
      | nil => intro _ n; cases n <;> exact List.Sublist.refl _
      | cons c ds ihd =>
        intro hds n
        rw [Tree.truncateL, List.flatMap_cons, List.flatMap_cons]
        exact (ih c (hds c (by simp)) n).append (ihd (fun c hc => hds c (by simp [hc])) n)
    intro n
    cases n with
    | zero => simp [Tree.truncate, Tree.preorder_node]
    | succ n =>
      rw [Tree.truncate, Tree.preorder_node, Tree.preorder_node]
      exact (key cs (fun _ h => h) n).cons_cons a

/-- C51, `prune_depth_mut`. -/
theorem C51_prune_depth (t : Tree V) (n : Nat) :
    ∃ r, Api.pruneDepth n (MutRef.mk [] t) = .ok (r, ()) ∧ RefersTo.{u, x} t (t.truncate n) r := by
  refine ⟨_, by rw [C33_general, treeOf_mutRef, truncate_map], ?_⟩
  have h := truncate_map Pos.item t.located n
  rw [map_item_located] at h
  rw [h]
  exact refersTo_of_sublist t _ (truncate_sublist _ n)

/-- The same as `RefersTo` for binary trees, with a loop over `dfs_inorder()`. -/
def RefersTo2 (t s : BinTree V) (r : BinTree (List Nat)) : Prop :=
  r.map t.cell = s.map some ∧
  ∀ {τ : Type x} (body : τ → V → τ × V) (v : τ) (k : Nat), ∃ t',
    forEachMut Inorder.next BinTree.cell BinTree.setCell body k (Inorder.new r) t v =
        (t', (mapAccum body v (s.inorder.take k)).2) ∧
      t'.shape = t.shape ∧
      r.inorder.map t'.cell = ((mapAccum body v (s.inorder.take k)).1 ++ s.inorder.drop k).map some ∧
      ∀ a, a ∉ r.inorder → t'.cell a = t.cell a

theorem refersTo2_of_sublist (t : BinTree V) (q : BinTree (Pos V))
    (hq : q.toTree.preorder.Sublist t.located.toTree.preorder) :
    RefersTo2.{u, x} t (q.map Pos.item) (q.map Pos.path) := by
  have hp := inorder_perm_preorder q
  refine ⟨?_, fun body v k => ?_⟩
  · rw [BinTree.map_map, BinTree.map_map]
    exact map_congr_mem2 q _ _ fun p hp => cell_of_mem_located2 t p (hq.subset hp)
  · have hnd : (q.inorder.map Pos.path).Nodup :=
      (hp.map _).nodup_iff.2 ((located2_nodup t).sublist (hq.map _))
    obtain ⟨g, h1, h2, h3⟩ := forEachMut_binTree Inorder.next (Inorder.new (q.map Pos.path)) t body v k q.inorder
      (fun p h => hq.subset (hp.mem_iff.1 h)) hnd
      (fun i => by rw [C03_inorder, binTreeOf_binTree, BinTree.inorder_map])
    refine ⟨t.fill g, ?_, shape_fill2 t g, ?_, ?_⟩
    · rw [h1, BinTree.inorder_map]
    · rw [BinTree.inorder_map, BinTree.inorder_map, ← h2, List.map_map, List.map_map]
      refine List.map_congr_left fun p h => ?_
      have := cell_of_mem_located2 t p (hq.subset (hp.mem_iff.1 h))
      simp [cell_fill2, this]
    · rw [BinTree.inorder_map]
      exact h3

/-- C51, `prune_mut` on binary trees. -/
theorem C51_prune_binary (t : BinTree V) (f : σ → V → σ × Bool) (d : Bool) (w : σ) :
    ∃ R, Api.binPrune (pruneRef BinTree.cell t d f) (MutRef2.mk [] t) w = .ok (R, (t.pruneS f w).1) ∧
      (R = none ↔ (t.pruneS f w).2 = none) ∧
      ∀ r ∈ R, ∀ s ∈ (t.pruneS f w).2, RefersTo2.{u, x} t s r := by
  have h1 := pruneS_map2 (pruneRef BinTree.cell t d f) (fun w (p : Pos V) => f w p.item) Pos.path t.located w
    fun p hp w => by simp only [pruneRef, cell_of_mem_located2 t p hp]
  have h2 := pruneS_map2 f (fun w (p : Pos V) => f w p.item) Pos.item t.located w fun p hp w => rfl
  rw [map_item_located2] at h2
  refine ⟨_, by rw [C30_binary, binTreeOf_mutRef, h1, h2], ?_, ?_⟩
  · rw [h2]
    cases (t.located.pruneS (fun w (p : Pos V) => f w p.item) w).2 <;> simp
  · intro r hr s hs
    rw [h2] at hs
    cases hq : (t.located.pruneS (fun w (p : Pos V) => f w p.item) w).2 with
    | none => simp [hq] at hs
    | some q =>
      rw [hq] at hr hs
      obtain rfl : _ = r := by simpa using hr
      obtain rfl : _ = s := by simpa using hs
      exact refersTo2_of_sublist t q (pruneS_sublist2 _ _ w q hq)

theorem truncate_map2 {α : Type u} {β : Type v} (h : α → β) (t : BinTree α) :
    ∀ n, (t.map h).truncate n = (t.truncate n).map h := by
  induction t using BinTree.ind with
  | h a l r ihl ihr =>
    have slot : ∀ (o : Option (BinTree α)), (∀ c ∈ o, ∀ n, (c.map h).truncate n = (c.truncate n).map h) → ∀ n,
        BinTree.truncateO n (BinTree.mapO h o) = BinTree.mapO h (BinTree.truncateO n o) := by
      intro o ho n
      cases o with
      | none => rfl
      | some c => simp only [BinTree.mapO, BinTree.truncateO, ho c rfl]
    intro n
    cases n with
    | zero => rfl
    | succ n => simp only [BinTree.truncate, BinTree.map, slot l ihl, slot r ihr]

theorem truncate_sublist2 {α : Type u} (t : BinTree α) :
    ∀ n, (t.truncate n).toTree.preorder.Sublist t.toTree.preorder := by
  induction t using BinTree.ind with
  | h a l r ihl ihr =>
    have slot : ∀ (o : Option (BinTree α)), (∀ c ∈ o, ∀ n, (c.truncate n).toTree.preorder.Sublist c.toTree.preorder) →
        ∀ n, (preO (BinTree.truncateO n o)).Sublist (preO o) := by
      intro o ho n
      cases o with
      | none => exact List.Sublist.refl _
      | some c =>
        rw [BinTree.truncateO, preO_some, preO_some]
        exact ho c rfl n
    intro n
    cases n with
    | zero =>
      rw [BinTree.truncate, preorder_bin, preorder_bin]
      exact (List.nil_sublist _).cons_cons a
    | succ n =>
      rw [BinTree.truncate, preorder_bin, preorder_bin]
      exact ((slot l ihl n).append (slot r ihr n)).cons_cons a

/-- C51, `prune_depth_mut` on binary trees. -/
theorem C51_prune_depth_binary (t : BinTree V) (n : Nat) :
    ∃ r, Api.binPruneDepth n (MutRef2.mk [] t) = .ok (r, ()) ∧ RefersTo2.{u, x} t (t.truncate n) r := by
  refine ⟨_, by rw [C33_binary, binTreeOf_mutRef, truncate_map2], ?_⟩
  have h := truncate_map2 Pos.item t.located n
  rw [map_item_located2] at h
  rw [h]
  exact refersTo2_of_sublist t _ (truncate_sublist2 _ n)

/-- Pruning away the node `1` and adding `10` to what is left. -/
example : ∃ r, (Api.prune (pruneRef Tree.cell sampleTree true fun log v => (log ++ [v], v == 1))
      (MutRef.mk [] sampleTree) []).toOption = some (some r, [0, 1, 2, 5]) ∧
    forEachMut Preorder.next Tree.cell Tree.setCell (fun k v => (k + 1, v + 10)) 9 (Preorder.new r) sampleTree 0 =
      (.node 10 [.node 1 [.node 3 [], .node 4 []], .node 12 [.node 15 []]], 3) :=
  ⟨.node [] [.node [1] [.node [1, 0] []]], by decide +kernel, by decide +kernel⟩

example : ∃ r, (Api.binPruneDepth 1 (MutRef2.mk [] sampleBin)).toOption = some (r, ()) ∧
    forEachMut Inorder.next BinTree.cell BinTree.setCell (fun k _ => (k + 1, k)) 9 (Inorder.new r) sampleBin 10 =
      (.node 11 (some (.node 10 none (some (.node 3 none none)))) (some (.node 12 (some (.node 4 none none)) none)),
        13) :=
  ⟨.node [] (some (.node [0] none none)) (some (.node [1] none none)), by decide +kernel, by decide +kernel⟩

/-! # C52: `cloned` -/

theorem mapS_copy (t : Tree V) : (t.mapS (fun (_ : Unit) v => ((), v)) ()).2 = t := by
  induction t using Tree.ind with
  | h a cs ih =>
    have key : ∀ ds : List (Tree V), (∀ c ∈ ds, c ∈ cs) →
        (Tree.mapSL (fun (_ : Unit) v => ((), v)) () ds).2 = ds := by
      intro ds
      induction ds with
      | nil => intros; rfl
      | cons c ds ihd =>
        intro hds
        simp only [Tree.mapSL, ih c (hds c (by simp)), ihd fun c hc => hds c (by simp [hc])]
    simp only [Tree.mapS, key cs fun _ h => h]

/-- C52: cloning a tree of references copies what they refer to: same shape, each value cloned once, in preorder. -/
theorem C52_cloned (t : Tree V) (s : Tree V) (r : Tree (List Nat)) (h : r.map t.cell = s.map some)
    (clone : σ → V → σ × V) (d : V) (w : σ) :
    Api.cloned Tree.cell t d clone r w = .ok ((s.mapS clone w).2, (s.mapS clone w).1) := by
  have h1 := mapS_map (fun w (o : Option V) => match o with | none => (w, d) | some x => clone w x) t.cell r w
  have h2 := mapS_map (fun w (o : Option V) => match o with | none => (w, d) | some x => clone w x) some s w
  rw [h] at h1
  have h3 : r.mapS (cloneRef Tree.cell t d clone) w = s.mapS clone w := h1.symm.trans h2
  rw [Api.cloned, C28_general, treeOf_tree, h3]

example := C52_cloned sampleTree (.node 0 [.node 2 []]) (.node [] [.node [1] []]) rfl (fun w v => (w + 1, v)) 0 0

/-- C52 for binary trees. -/
theorem C52_cloned_binary (t : BinTree V) (s : BinTree V) (r : BinTree (List Nat)) (h : r.map t.cell = s.map some)
    (clone : σ → V → σ × V) (d : V) (w : σ) :
    Api.binCloned BinTree.cell t d clone r w = .ok ((s.mapS clone w).2, (s.mapS clone w).1) := by
  have h1 := mapS_map2 (fun w (o : Option V) => match o with | none => (w, d) | some x => clone w x) t.cell r w
  have h2 := mapS_map2 (fun w (o : Option V) => match o with | none => (w, d) | some x => clone w x) some s w
  rw [h] at h1
  have h3 : r.mapS (cloneRef BinTree.cell t d clone) w = s.mapS clone w := h1.symm.trans h2
  rw [Api.binCloned, C28_binary, binTreeOf_binTree, h3]

example := C52_cloned_binary sampleBin (.node 0 (some (.node 2 none none)) none) (.node [] (some (.node [1] none none)) none) rfl
  (fun w v => (w + 1, v)) 0 0

/-- C52, the round trip: a borrowed tree collected and then cloned is the tree cloned value by value. -/
theorem C52_collect (t : Tree V) (clone : σ → V → σ × V) (d : V) (w : σ) :
    ∃ r, Api.collect (MutRef.mk [] t) = .ok (some r, ()) ∧
      Api.cloned Tree.cell t d clone r w = .ok ((t.mapS clone w).2, (t.mapS clone w).1) := by
  refine ⟨_, C27_general _, C52_cloned t t _ ?_ clone d w⟩
  have h := (refersTo_of_sublist.{u, 0} t t.located (List.Sublist.refl _)).1
  rwa [map_item_located, ← treeOf_mutRef] at h

/-- C52, the round trip for binary trees. -/
theorem C52_collect_binary (t : BinTree V) (clone : σ → V → σ × V) (d : V) (w : σ) :
    ∃ r, Api.binCollect (MutRef2.mk [] t) = .ok (some r, ()) ∧
      Api.binCloned BinTree.cell t d clone r w = .ok ((t.mapS clone w).2, (t.mapS clone w).1) := by
  refine ⟨_, C27_binary _, C52_cloned_binary t t _ ?_ clone d w⟩
  have h := (refersTo2_of_sublist.{u, 0} t t.located (List.Sublist.refl _)).1
  rwa [map_item_located2, ← binTreeOf_mutRef] at h

/-- C52, pruning by reference and then cloning is pruning a clone: `tree.prune_ref(f).map(|t| t.cloned())` is
`tree.clone().prune(f)` for a `Clone` that copies. -/
theorem C52_prune (t : Tree V) (f : σ → V → σ × Bool) (b : Bool) (d : V) (w : σ) :
    ∃ R, Api.prune (pruneRef Tree.cell t b f) (MutRef.mk [] t) w = .ok (R, (t.pruneS f w).1) ∧
      R.map (fun r => (Api.cloned Tree.cell t d (fun (_ : Unit) v => ((), v)) r ()).map Prod.fst) =
        (t.pruneS f w).2.map Except.ok := by
  obtain ⟨R, h1, h2, h3⟩ := C51_prune.{u, v, 0} t f b w
  refine ⟨R, h1, ?_⟩
  cases hs : (t.pruneS f w).2 with
  | none => simp [h2.2 hs]
  | some s =>
    cases R with
    | none => simp [h2.1 rfl] at hs
    | some r =>
      have h := C52_cloned t s r (h3 r rfl s hs).1 (fun (_ : Unit) v => ((), v)) d ()
      obtain ⟨-, e⟩ : _ ∧ (s.mapS (fun (_ : Unit) v => ((), v)) ()).2 = s := ⟨trivial, mapS_copy s⟩
      simp only [Option.map_some, h, e, Except.map]

example : (Api.cloned Tree.cell sampleTree 99 (fun k v => (k + 1, v)) (.node [] [.node [1] [], .node [0, 1] []])
    0).toOption = some (.node 0 [.node 2 [], .node 4 []], 3) := by decide +kernel

example : (Api.binCloned BinTree.cell sampleBin 99 (fun k v => (k + 1, v)) (.node [] none (some (.node [0, 1] none none)))
    0).toOption = some (.node 0 none (some (.node 3 none none)), 2) := by decide +kernel

end TreeIter
