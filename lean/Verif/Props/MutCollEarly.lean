import Verif.Props.MutColl
import Verif.Props.CollEarly

/-! # Collection pipelines by mutable reference that are dropped early (C69)

What a collection looks like when `map_each_mut` or one of the folds over it has handed out `k` results and is dropped:
the first `k` trees are rewritten; `map_each_mut` has also rewritten the root of the next tree; the rest is untouched. -/

universe u v w x y

namespace TreeIter

variable {V : Type u} {σ : Type v} {W : Type w}

theorem modify_after {A : Type x} (f : A → A) (t : A) (rest : List A) (X : List A) {k : Nat} (hk : k = X.length) :
    (X ++ t :: rest).modify k f = X ++ f t :: rest := by
  subst hk
  induction X with
  | nil => rfl
  | cons x X ih => simpa using ih

/-- Operations on the first trees of a borrowed collection of trees. -/
theorem each_tree_take {R : Type x} {O : Type y} (ts : List (Tree V)) (F : List (Tree V) × σ → Nat → Tree (List Nat) → (List (Tree V) × σ) × O)
    (G : σ → Nat → Tree V → σ × R) (h1 : R → Tree V) (h2 : R → O)
    (hstep : ∀ (fill : (List Nat → V) → List (Tree V)) (ok : List Nat → Prop),
      (∀ g a, ok a → forestCell Tree.cell (fill g) a = some (g a)) →
      (∀ g x a, ok a → forestSet Tree.setCell (fill g) a x = fill (Function.update g a x)) →
      ∀ L i g w, (L.preorder).Nodup → (∀ a ∈ L.preorder, ok a) →
        ∃ g', F (fill g, w) i L = ((fill g', (G w i (L.map g)).1), h2 (G w i (L.map g)).2) ∧
          L.map g' = h1 (G w i (L.map g)).2 ∧ ∀ a, a ∉ L.preorder → g' a = g a) (k : Nat) (w : σ) :
    eachS (fun mw i L => kept (F mw i L)) (ts, w) 0 ((ts.mapIdx fun i t => t.addrs.map (i :: ·)).take k) =
      (((eachS (fun w i t => kept (G w i t)) w 0 (ts.take k)).2.map h1 ++ ts.drop k,
          (eachS (fun w i t => kept (G w i t)) w 0 (ts.take k)).1),
        (eachS (fun w i t => kept (G w i t)) w 0 (ts.take k)).2.map h2) := by
  cases ts with
  | nil => simp [eachS]
  | cons t0 ts0 =>
    have hV : Nonempty V := ⟨t0.value⟩
    generalize t0 :: ts0 = ts at *
    obtain ⟨g0, hg0⟩ := (treeCells V).each.self ts hV
    have hread : ∀ g a, ((treeCells V).each.cell ts a).isSome → forestCell Tree.cell ((treeCells V).each.fill ts g) a = some (g a) := by
      intro g a ha
      obtain ⟨y, hy⟩ := Option.isSome_iff_exists.1 ha
      have := (treeCells V).each.read ts g a
      rw [hy] at this
      exact this
    have hview : ∀ g, (ts.mapIdx fun i t => t.addrs.map (i :: ·)).map (Tree.map g) = (treeCells V).each.fill ts g := by
      intro g
      refine List.ext_getElem? fun j => ?_
      simp only [Cells.each, List.getElem?_map, List.getElem?_mapIdx, Option.map_map]
      cases ts[j]? with
      | none => rfl
      | some t =>
        simp only [Option.map_some, Function.comp_apply, Tree.addrs, Tree.map_map]
        rfl
    have hnd : ((ts.mapIdx fun i t => t.addrs.map (i :: ·)).flatMap Tree.preorder).Nodup := by
      rw [refs_each]; exact eachRefs_nodup _ ts fun t _ => addrs_nodup t
    have hok : ∀ a ∈ (ts.mapIdx fun i t => t.addrs.map (i :: ·)).flatMap Tree.preorder, ((treeCells V).each.cell ts a).isSome := by
      rw [refs_each]
      exact some_of_cells (eachRefs_cells (treeCells V) (fun t => t.addrs.preorder) (Tree.preorder) ts fun t _ => cells_of_tree (addrs_cells t))
    generalize (ts.mapIdx fun i t => t.addrs.map (i :: ·)) = Ls at *
    rw [← List.take_append_drop k Ls, List.flatMap_append] at hnd hok
    obtain ⟨g', e1, e2, e3⟩ := each_refs (V := V) Tree.preorder (fun g L => L.map g) ((treeCells V).each.fill ts)
      (fun a => ((treeCells V).each.cell ts a).isSome) F G h1 h2 (fun L g g' h => map_congr_mem L g g' h)
      (hstep ((treeCells V).each.fill ts) _ hread fun g x a ha => (treeCells V).each.write ts g x a ha)
      (Ls.take k) g0 w 0 hnd.of_append_left (fun a ha => hok a (List.mem_append_left _ ha))
    have hrest : (Ls.drop k).map (fun L => L.map g') = ts.drop k := by
      rw [← congrArg (List.drop k) hg0, ← hview, ← List.map_drop]
      refine List.map_congr_left fun L hL => map_congr_mem L g' g0 fun a ha => e3 a fun hm => ?_
      exact (List.nodup_append.1 hnd).2.2 a hm a (List.mem_flatMap.2 ⟨L, hL, ha⟩) rfl
    have hfirst : (Ls.take k).map (fun L => L.map g0) = ts.take k := by
      rw [← congrArg (List.take k) hg0, ← hview, ← List.map_take]
    have hall : (treeCells V).each.fill ts g' =
        (Ls.take k).map (fun L => L.map g') ++ (Ls.drop k).map (fun L => L.map g') := by
      rw [← hview, ← List.map_append, List.take_append_drop]
    rw [hfirst, hg0, hall, hrest, e2, hfirst] at e1
    exact e1

/-- Operations on the first trees of a borrowed collection of binary trees. -/
theorem each_bin_take {R : Type x} {O : Type y} (ts : List (BinTree V)) (F : List (BinTree V) × σ → Nat → BinTree (List Nat) → (List (BinTree V) × σ) × O)
    (G : σ → Nat → BinTree V → σ × R) (h1 : R → BinTree V) (h2 : R → O)
    (hstep : ∀ (fill : (List Nat → V) → List (BinTree V)) (ok : List Nat → Prop),
      (∀ g a, ok a → forestCell BinTree.cell (fill g) a = some (g a)) →
      (∀ g x a, ok a → forestSet BinTree.setCell (fill g) a x = fill (Function.update g a x)) →
      ∀ L i g w, (L.toTree.preorder).Nodup → (∀ a ∈ L.toTree.preorder, ok a) →
        ∃ g', F (fill g, w) i L = ((fill g', (G w i (L.map g)).1), h2 (G w i (L.map g)).2) ∧
          L.map g' = h1 (G w i (L.map g)).2 ∧ ∀ a, a ∉ L.toTree.preorder → g' a = g a) (k : Nat) (w : σ) :
    eachS (fun mw i L => kept (F mw i L)) (ts, w) 0 ((ts.mapIdx fun i t => t.addrs.map (i :: ·)).take k) =
      (((eachS (fun w i t => kept (G w i t)) w 0 (ts.take k)).2.map h1 ++ ts.drop k,
          (eachS (fun w i t => kept (G w i t)) w 0 (ts.take k)).1),
        (eachS (fun w i t => kept (G w i t)) w 0 (ts.take k)).2.map h2) := by
  cases ts with
  | nil => simp [eachS]
  | cons t0 ts0 =>
    have hV : Nonempty V := ⟨t0.value⟩
    generalize t0 :: ts0 = ts at *
    obtain ⟨g0, hg0⟩ := (binCells V).each.self ts hV
    have hread : ∀ g a, ((binCells V).each.cell ts a).isSome → forestCell BinTree.cell ((binCells V).each.fill ts g) a = some (g a) := by
      intro g a ha
      obtain ⟨y, hy⟩ := Option.isSome_iff_exists.1 ha
      have := (binCells V).each.read ts g a
      rw [hy] at this
      exact this
    have hview : ∀ g, (ts.mapIdx fun i t => t.addrs.map (i :: ·)).map (BinTree.map g) = (binCells V).each.fill ts g := by
      intro g
      refine List.ext_getElem? fun j => ?_
      simp only [Cells.each, List.getElem?_map, List.getElem?_mapIdx, Option.map_map]
      cases ts[j]? with
      | none => rfl
      | some t =>
        simp only [Option.map_some, Function.comp_apply, BinTree.addrs, BinTree.map_map]
        rfl
    have hnd : ((ts.mapIdx fun i t => t.addrs.map (i :: ·)).flatMap (fun t => t.toTree.preorder)).Nodup := by
      rw [refs_each2]; exact eachRefs_nodup _ ts fun t _ => addrs_nodup2 t
    have hok : ∀ a ∈ (ts.mapIdx fun i t => t.addrs.map (i :: ·)).flatMap (fun t => t.toTree.preorder), ((binCells V).each.cell ts a).isSome := by
      rw [refs_each2]
      exact some_of_cells (eachRefs_cells (binCells V) (fun t => t.addrs.toTree.preorder) (fun t => t.toTree.preorder) ts fun t _ => cells_of_tree (cells_of_bin (addrs_cells2 t)))
    generalize (ts.mapIdx fun i t => t.addrs.map (i :: ·)) = Ls at *
    rw [← List.take_append_drop k Ls, List.flatMap_append] at hnd hok
    obtain ⟨g', e1, e2, e3⟩ := each_refs (V := V) (fun t => t.toTree.preorder) (fun g L => L.map g) ((binCells V).each.fill ts)
      (fun a => ((binCells V).each.cell ts a).isSome) F G h1 h2 (fun L g g' h => map_congr_mem2 L g g' h)
      (hstep ((binCells V).each.fill ts) _ hread fun g x a ha => (binCells V).each.write ts g x a ha)
      (Ls.take k) g0 w 0 hnd.of_append_left (fun a ha => hok a (List.mem_append_left _ ha))
    have hrest : (Ls.drop k).map (fun L => L.map g') = ts.drop k := by
      rw [← congrArg (List.drop k) hg0, ← hview, ← List.map_drop]
      refine List.map_congr_left fun L hL => map_congr_mem2 L g' g0 fun a ha => e3 a fun hm => ?_
      exact (List.nodup_append.1 hnd).2.2 a hm a (List.mem_flatMap.2 ⟨L, hL, ha⟩) rfl
    have hfirst : (Ls.take k).map (fun L => L.map g0) = ts.take k := by
      rw [← congrArg (List.take k) hg0, ← hview, ← List.map_take]
    have hall : (binCells V).each.fill ts g' =
        (Ls.take k).map (fun L => L.map g') ++ (Ls.drop k).map (fun L => L.map g') := by
      rw [← hview, ← List.map_append, List.take_append_drop]
    rw [hfirst, hg0, hall, hrest, e2, hfirst] at e1
    exact e1

/-- C69 for `map_each_mut`: when `k > 0` results have been asked for, the closure has rewritten the first `k` trees of
the collection and the root of the next one; everything after it is as it was. -/
theorem C69_mut_map (ts : List (Tree V)) (body : σ → V → σ × V × W) (d : W) (k : Nat) (w : σ) :
    Api.mapEach (mapRef (forestCell Tree.cell) (forestSet Tree.setCell) d body) (borrowEach ts) k (ts, w) =
      .ok (seen k ((eachS (fun w _ t => kept (Tree.mapS body w t)) w 0 ts).2.map (Tree.map Prod.snd)),
        (match ts.drop k with
          | [] => ((eachS (fun w _ t => kept (Tree.mapS body w t)) w 0 (ts.take k)).2.map (Tree.map Prod.fst), (eachS (fun w _ t => kept (Tree.mapS body w t)) w 0 (ts.take k)).1)
          | t :: rest => if k = 0 then (ts, w) else
              ((eachS (fun w _ t => kept (Tree.mapS body w t)) w 0 (ts.take k)).2.map (Tree.map Prod.fst) ++
                  t.setCell [] (body (eachS (fun w _ t => kept (Tree.mapS body w t)) w 0 (ts.take k)).1 t.value).2.1 :: rest,
                (body (eachS (fun w _ t => kept (Tree.mapS body w t)) w 0 (ts.take k)).1 t.value).1)), ()) := by
  have h := C69_map (mapRef (forestCell Tree.cell) (forestSet Tree.setCell) d body) (borrowEach ts) k (ts, w)
  have e := fun k => each_tree_take ts (fun mw _ L => Tree.mapS (mapRef (forestCell Tree.cell) (forestSet Tree.setCell) d body) mw L)
    (fun w _ t => Tree.mapS body w t) (Tree.map Prod.fst) (Tree.map Prod.snd)
    (fun fill ok hr hw L _ g w hn ho => mapRef_tree _ _ d body fill ok hr hw L g w hn ho) k w
  have eall := e ts.length
  rw [List.take_of_length_le (by simp), List.take_length, List.drop_length, List.append_nil] at eall
  rw [borrowEach_trees, eall, e k, List.getElem?_mapIdx] at h
  refine h.trans ?_
  congr 3
  have hlen : ∀ (X : List (Tree V)), X.length = (eachS (fun w _ t => kept (Tree.mapS body w t)) w 0 X).2.length :=
    fun X => (eachS_kept_length (fun w _ t => Tree.mapS body w t) X w 0).symm
  by_cases hk : k < ts.length
  · rw [List.getElem?_eq_getElem hk, List.drop_eq_getElem_cons hk]
    simp only [Option.map_some]
    split
    · rfl
    · have hl := hlen (ts.take k)
      rw [List.length_take, Nat.min_eq_left (Nat.le_of_lt hk)] at hl
      generalize (eachS (fun w _ t => kept (Tree.mapS body w t)) w 0 (ts.take k)) = R at hl ⊢
      generalize ts[k] = t
      have ha : (t.addrs.map (k :: ·)).value = [k] := by cases t; rfl
      have hr : forestCell Tree.cell (R.2.map (Tree.map Prod.fst) ++ t :: ts.drop (k + 1)) [k] = some t.value := by
        rw [forestCell, List.getElem?_append_right (by simp [← hl])]
        simp only [List.length_map, ← hl, Nat.sub_self, List.getElem?_cons_zero, Option.bind_some]
        cases t; rfl
      simp only [ha, mapRef, hr, forestSet]
      rw [modify_after _ _ _ _ (by rw [List.length_map]; exact hl)]
  · have hk' : ts.length ≤ k := Nat.le_of_not_lt hk
    rw [List.getElem?_eq_none hk', List.drop_eq_nil_of_le hk', List.append_nil]
    rfl

/-- One result: the second tree has a new root too. -/
example : (Api.mapEach (mapRef (forestCell Tree.cell) (forestSet Tree.setCell) 99 fun k v => (k + 1, k + 100, v))
    (borrowEach threeTrees) 1 (threeTrees, 0)).toOption.map (fun r => r.2.1) =
    some ([.node 100 [.node 101 [.node 102 [], .node 103 []], .node 104 [.node 105 []]], .node 106 [.node 8 []], .node 9 []], 7) := by
  decide +kernel

/-- C69 for `map_each_mut` on binary trees: when `k > 0` results have been asked for, the closure has rewritten the first `k` trees of
the collection and the root of the next one; everything after it is as it was. -/
theorem C69_mut_binary_map (ts : List (BinTree V)) (body : σ → V → σ × V × W) (d : W) (k : Nat) (w : σ) :
    Api.binMapEach (mapRef (forestCell BinTree.cell) (forestSet BinTree.setCell) d body) (borrowEach2 ts) k (ts, w) =
      .ok (seen k ((eachS (fun w _ t => kept (BinTree.mapS body w t)) w 0 ts).2.map (BinTree.map Prod.snd)),
        (match ts.drop k with
          | [] => ((eachS (fun w _ t => kept (BinTree.mapS body w t)) w 0 (ts.take k)).2.map (BinTree.map Prod.fst), (eachS (fun w _ t => kept (BinTree.mapS body w t)) w 0 (ts.take k)).1)
          | t :: rest => if k = 0 then (ts, w) else
              ((eachS (fun w _ t => kept (BinTree.mapS body w t)) w 0 (ts.take k)).2.map (BinTree.map Prod.fst) ++
                  t.setCell [] (body (eachS (fun w _ t => kept (BinTree.mapS body w t)) w 0 (ts.take k)).1 t.value).2.1 :: rest,
                (body (eachS (fun w _ t => kept (BinTree.mapS body w t)) w 0 (ts.take k)).1 t.value).1)), ()) := by
  have h := C69_binary_map (mapRef (forestCell BinTree.cell) (forestSet BinTree.setCell) d body) (borrowEach2 ts) k (ts, w)
  have e := fun k => each_bin_take ts (fun mw _ L => BinTree.mapS (mapRef (forestCell BinTree.cell) (forestSet BinTree.setCell) d body) mw L)
    (fun w _ t => BinTree.mapS body w t) (BinTree.map Prod.fst) (BinTree.map Prod.snd)
    (fun fill ok hr hw L _ g w hn ho => mapRef_bin _ _ d body fill ok hr hw L g w hn ho) k w
  have eall := e ts.length
  rw [List.take_of_length_le (by simp), List.take_length, List.drop_length, List.append_nil] at eall
  rw [borrowEach2_trees, eall, e k, List.getElem?_mapIdx] at h
  refine h.trans ?_
  congr 3
  have hlen : ∀ (X : List (BinTree V)), X.length = (eachS (fun w _ t => kept (BinTree.mapS body w t)) w 0 X).2.length :=
    fun X => (eachS_kept_length (fun w _ t => BinTree.mapS body w t) X w 0).symm
  by_cases hk : k < ts.length
  · rw [List.getElem?_eq_getElem hk, List.drop_eq_getElem_cons hk]
    simp only [Option.map_some]
    split
    · rfl
    · have hl := hlen (ts.take k)
      rw [List.length_take, Nat.min_eq_left (Nat.le_of_lt hk)] at hl
      generalize (eachS (fun w _ t => kept (BinTree.mapS body w t)) w 0 (ts.take k)) = R at hl ⊢
      generalize ts[k] = t
      have ha : (t.addrs.map (k :: ·)).value = [k] := by cases t; rfl
      have hr : forestCell BinTree.cell (R.2.map (BinTree.map Prod.fst) ++ t :: ts.drop (k + 1)) [k] = some t.value := by
        rw [forestCell, List.getElem?_append_right (by simp [← hl])]
        simp only [List.length_map, ← hl, Nat.sub_self, List.getElem?_cons_zero, Option.bind_some]
        cases t; rfl
      simp only [ha, mapRef, hr, forestSet]
      rw [modify_after _ _ _ _ (by rw [List.length_map]; exact hl)]
  · have hk' : ts.length ≤ k := Nat.le_of_not_lt hk
    rw [List.getElem?_eq_none hk', List.drop_eq_nil_of_le hk', List.append_nil]
    rfl

/-- C69 for `fold_each_mut`: when `k` results have been asked for, the closure has rewritten the first `k`
trees of the collection, and no other. -/
theorem C69_mut_fold (ts : List (Tree V)) (body : σ → List W → V → σ × V × W) (d : W) (k : Nat) (w : σ) :
    Api.foldEach (foldRef (forestCell Tree.cell) (forestSet Tree.setCell) d body) (borrowEach ts) k (ts, w) =
      .ok (seen k ((eachS (fun w _ t => kept (Tree.foldS (Tree.rebuild body) w t)) w 0 ts).2.map Prod.snd),
        ((), ((eachS (fun w _ t => kept (Tree.foldS (Tree.rebuild body) w t)) w 0 (ts.take k)).2.map Prod.fst ++ ts.drop k, (eachS (fun w _ t => kept (Tree.foldS (Tree.rebuild body) w t)) w 0 (ts.take k)).1))) := by
  have h := C69_fold (foldRef (forestCell Tree.cell) (forestSet Tree.setCell) d body) (borrowEach ts) k (ts, w)
  have e := fun k => each_tree_take ts (fun mw _ L => Tree.foldS (foldRef (forestCell Tree.cell) (forestSet Tree.setCell) d body) mw L)
    (fun w _ t => Tree.foldS (Tree.rebuild body) w t) Prod.fst Prod.snd
    (fun fill ok hr hw L _ g w hn ho => by
      have h := foldRefPath_tree _ _ d (fun w rs _ x => body w rs x) fill ok hr hw L g w [] hn ho
      unfold foldRefPath Tree.rebuildPath at h
      rwa [foldPathS_noPath, foldPathS_noPath] at h) k w
  have eall := e ts.length
  rw [List.take_of_length_le (by simp), List.take_length, List.drop_length, List.append_nil] at eall
  rw [borrowEach_trees, eall, e k] at h
  exact h

example : (Api.foldEach (foldRef (forestCell Tree.cell) (forestSet Tree.setCell) 99 fun k os v => (k + 1, k + 100, os.sum + v))
    (borrowEach threeTrees) 1 (threeTrees, 0)).toOption =
    some ([some 15], (),
      ([.node 105 [.node 102 [.node 100 [], .node 101 []], .node 104 [.node 103 []]], .node 7 [.node 8 []], .node 9 []], 6)) := by
  decide +kernel

/-- C69 for `fold_each_mut` on binary trees: when `k` results have been asked for, the closure has rewritten the first `k`
trees of the collection, and no other. -/
theorem C69_mut_binary_fold (ts : List (BinTree V)) (body : σ → Option W × Option W → V → σ × V × W) (d : W) (k : Nat) (w : σ) :
    Api.binFoldEach (foldRef (forestCell BinTree.cell) (forestSet BinTree.setCell) d body) (borrowEach2 ts) k (ts, w) =
      .ok (seen k ((eachS (fun w _ t => kept (BinTree.foldS (BinTree.rebuild body) w t)) w 0 ts).2.map Prod.snd),
        ((), ((eachS (fun w _ t => kept (BinTree.foldS (BinTree.rebuild body) w t)) w 0 (ts.take k)).2.map Prod.fst ++ ts.drop k, (eachS (fun w _ t => kept (BinTree.foldS (BinTree.rebuild body) w t)) w 0 (ts.take k)).1))) := by
  have h := C69_binary_fold (foldRef (forestCell BinTree.cell) (forestSet BinTree.setCell) d body) (borrowEach2 ts) k (ts, w)
  have e := fun k => each_bin_take ts (fun mw _ L => BinTree.foldS (foldRef (forestCell BinTree.cell) (forestSet BinTree.setCell) d body) mw L)
    (fun w _ t => BinTree.foldS (BinTree.rebuild body) w t) Prod.fst Prod.snd
    (fun fill ok hr hw L _ g w hn ho => by
      have h := foldRefPath_bin _ _ d (fun w rs _ x => body w rs x) fill ok hr hw L g w [] hn ho
      unfold foldRefPath BinTree.rebuildPath at h
      rwa [fold_noPath, fold_noPath] at h) k w
  have eall := e ts.length
  rw [List.take_of_length_le (by simp), List.take_length, List.drop_length, List.append_nil] at eall
  rw [borrowEach2_trees, eall, e k] at h
  exact h

/-- C69 for `fold_path_each_mut`: when `k` results have been asked for, the closure has rewritten the first `k`
trees of the collection, and no other. -/
theorem C69_mut_foldPath (ts : List (Tree V)) (ht : ∀ t ∈ ts, ArityOk t) (body : σ → List W → List Nat → V → σ × V × W) (d : W) (k : Nat) (w : σ) :
    Api.foldPathEach (foldRefPath (forestCell Tree.cell) (forestSet Tree.setCell) d body) (borrowEach ts) k (ts, w) =
      .ok (seen k ((eachS (fun w i t => kept (Tree.foldPathS (Tree.rebuildPath body) w [i] t)) w 0 ts).2.map Prod.snd),
        ((), ((eachS (fun w i t => kept (Tree.foldPathS (Tree.rebuildPath body) w [i] t)) w 0 (ts.take k)).2.map Prod.fst ++ ts.drop k, (eachS (fun w i t => kept (Tree.foldPathS (Tree.rebuildPath body) w [i] t)) w 0 (ts.take k)).1))) := by
  have h := C69_foldPath (foldRefPath (forestCell Tree.cell) (forestSet Tree.setCell) d body) (borrowEach ts) (borrowEach_arity ts ht) k (ts, w)
  have e := fun k => each_tree_take ts (fun mw i L => Tree.foldPathS (foldRefPath (forestCell Tree.cell) (forestSet Tree.setCell) d body) mw [i] L)
    (fun w i t => Tree.foldPathS (Tree.rebuildPath body) w [i] t) Prod.fst Prod.snd
    (fun fill ok hr hw L i g w hn ho => foldRefPath_tree _ _ d body fill ok hr hw L g w [i] hn ho) k w
  have eall := e ts.length
  rw [List.take_of_length_le (by simp), List.take_length, List.drop_length, List.append_nil] at eall
  rw [borrowEach_trees, eall, e k] at h
  exact h

example := C69_mut_foldPath threeTrees threeTrees_arity (fun w (os : List Nat) p v => (w + p.length, v + 10, os.sum + v)) 0 2 0

/-- C69 for `fold_path_each_mut` on binary trees: when `k` results have been asked for, the closure has rewritten the first `k`
trees of the collection, and no other. -/
theorem C69_mut_binary_foldPath (ts : List (BinTree V)) (body : σ → Option W × Option W → List Nat → V → σ × V × W) (d : W) (k : Nat) (w : σ) :
    Api.binFoldPathEach (foldRefPath (forestCell BinTree.cell) (forestSet BinTree.setCell) d body) (borrowEach2 ts) k (ts, w) =
      .ok (seen k ((eachS (fun w i t => kept (BinTree.foldPathS (BinTree.rebuildPath body) w [i] t)) w 0 ts).2.map Prod.snd),
        ((), ((eachS (fun w i t => kept (BinTree.foldPathS (BinTree.rebuildPath body) w [i] t)) w 0 (ts.take k)).2.map Prod.fst ++ ts.drop k, (eachS (fun w i t => kept (BinTree.foldPathS (BinTree.rebuildPath body) w [i] t)) w 0 (ts.take k)).1))) := by
  have h := C69_binary_foldPath (foldRefPath (forestCell BinTree.cell) (forestSet BinTree.setCell) d body) (borrowEach2 ts) k (ts, w)
  have e := fun k => each_bin_take ts (fun mw i L => BinTree.foldPathS (foldRefPath (forestCell BinTree.cell) (forestSet BinTree.setCell) d body) mw [i] L)
    (fun w i t => BinTree.foldPathS (BinTree.rebuildPath body) w [i] t) Prod.fst Prod.snd
    (fun fill ok hr hw L i g w hn ho => foldRefPath_bin _ _ d body fill ok hr hw L g w [i] hn ho) k w
  have eall := e ts.length
  rw [List.take_of_length_le (by simp), List.take_length, List.drop_length, List.append_nil] at eall
  rw [borrowEach2_trees, eall, e k] at h
  exact h

example : (Api.binFoldPathEach (foldRefPath (forestCell BinTree.cell) (forestSet BinTree.setCell) 99
      fun (k : Nat) (_ : Option Nat × Option Nat) p _ => (k + 1, k, p.length)) (borrowEach2 threeBins) 1 (threeBins, 0)).toOption.map
      (fun r => r.2.2.1.drop 1) = some (threeBins.drop 1) := by decide +kernel

end TreeIter
