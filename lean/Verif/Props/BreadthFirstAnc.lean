import Verif.Lemmas.BfsAnc
import Verif.Props.Samples

/-! # C09, C22 and C24 (breadth first): ancestors -/

universe u v

namespace TreeIter

variable {N : Type u} {V : Type v}

theorem bfsF_length {α : Type u} (ts : List (Tree α)) : (bfsF ts).length = (ts.map Tree.size).sum := by
  fun_induction bfsF ts with
  | case1 => rfl
  | case2 a cs ts ih =>
    simp only [List.length_cons, ih, List.map_append, List.sum_append, List.map_cons, List.sum_cons, Tree.size,
      Tree.sizeL_eq]
    omega

theorem size_ancT (t : Tree V) (anc : List V) : (ancT anc t).size = t.size := by
  induction t using Tree.ind generalizing anc with
  | h a cs ih =>
    rw [ancT_node, Tree.size, Tree.size, Tree.sizeL_eq, Tree.sizeL_eq, List.map_map]
    congr 2
    exact List.map_congr_left fun c hc => ih c hc _

theorem located_levelOrder (t : Tree V) : t.located.levelOrder.map Pos.ancestors = bfsF [ancT [] t] := by
  rw [← bfsF_singleton, ← bfsF_map, List.map_cons, List.map_nil, Tree.located, map_ancestors_withPos]

/-- C09: up to and including the first `None`. -/
theorem C09_bfs_ancestors [TreeNode N V] (n : N) :
    ∃ s, Bfs.attachAncestors (Bfs.new n) = .ok s ∧
      ∀ k, k ≤ (treeOf n).size →
        nthCallE Bfs.ancNext k s = .ok ((treeOf n).located.levelOrder.map Pos.ancestors)[k]? := by
  refine ⟨_, rfl, fun k hk => ?_⟩
  obtain ⟨s', h1, h2⟩ := Bfs.anc_stateAfter k _ _ (Bfs.ancRel_new n)
    (by simpa [bfsF_length, size_ancT] using hk)
  obtain ⟨s'', _, h3, h4⟩ := Bfs.ancNext_spec s' _ h2
  rw [nthCallE, h1, located_levelOrder, ← List.head?_drop, ← Bfs.bfsF_bfsDrop]
  cases hd : Bfs.bfsDrop k [ancT [] (treeOf n)] with
  | nil => simp [(h3 hd).1]
  | cons t ts =>
    obtain ⟨a, us⟩ := t
    simp [(h4 a us ts hd).1, bfsF_cons]

example : answersE Bfs.ancNext 7 (Bfs.AncState.new sampleTree) =
    some [some [0], some [0, 1], some [0, 2], some [0, 1, 3], some [0, 1, 4], some [0, 2, 5], none] := by
  decide +kernel

/-- The list of C09 has one entry per node. -/
theorem C09_length (t : Tree V) : (t.located.levelOrder.map Pos.ancestors).length = t.size := by
  rw [located_levelOrder, bfsF_length]
  simp [size_ancT]

/-- C24 is false for this iterator, on every tree: every call after the one that returned the first `None` panics. -/
theorem C24_bfs_ancestors_false [TreeNode N V] (n : N) :
    ∃ s, Bfs.attachAncestors (Bfs.new n) = .ok s ∧ nthCallE Bfs.ancNext (treeOf n).size s = .ok none ∧
      ∀ k, (treeOf n).size < k → nthCallE Bfs.ancNext k s = .error .indexOutOfRange := by
  obtain ⟨s, h1, h2⟩ := C09_bfs_ancestors n
  refine ⟨s, h1, ?_, ?_⟩
  · rw [h2 _ (Nat.le_refl _), List.getElem?_eq_none (by rw [C09_length]; exact Nat.le_refl _)]
  · cases h1
    intro k hk
    obtain ⟨s', e1, e2, e3, e4⟩ := Bfs.anc_stateAfter_end _ _ (Bfs.ancRel_new n)
    have hl : (bfsF [ancT [] (treeOf n)]).length = (treeOf n).size := by simp [bfsF_length, size_ancT]
    rw [hl] at e1
    have stuck : Bfs.ancNext s' = .error .indexOutOfRange := by
      simp [Bfs.ancNext, streamNextE, Bfs.ancAdvance, e2]
      rw [e4, Bfs.ancLoop]
      simp [Bfs.settle, e3]
    have after : ∀ (m k : Nat) (s : Bfs.AncState N V), stateAfterE Bfs.ancNext m s = .ok s' → m ≤ k →
        nthCallE Bfs.ancNext k s = .error .indexOutOfRange := by
      intro m
      induction m with
      | zero =>
        intro k s h _
        obtain rfl : s = s' := by simpa [stateAfterE] using h
        cases k with
        | zero => simp [nthCallE, stateAfterE, stuck]
        | succ k => simp [nthCallE, stateAfterE, stuck]
      | succ m ih =>
        intro k s h hk
        cases k with
        | zero => omega
        | succ k =>
          rw [stateAfterE] at h
          rw [nthCallE, stateAfterE]
          split at h
          · simp at h
          · exact ih k _ h (by omega)
    exact after _ k _ e1 hk

/-- The witness: a tree with one node; the third `next()` panics. -/
example : (match nthCallE Bfs.ancNext 2 (Bfs.AncState.new (Tree.node 0 [])) with
      | .ok _ => none
      | .error e => some e) = some .indexOutOfRange := by decide +kernel

/-- C22: `leaves()` after `k` calls that did not panic.  `onlyLeaves` keeps the childless ones of the nodes not yet
yielded. -/
theorem C22_bfs_ancestors_leaves [TreeNode N V] (n : N) :
    ∃ s, Bfs.attachAncestors (Bfs.new n) = .ok s ∧
      ∀ k, k ≤ (treeOf n).size + 1 → ∃ s', stateAfterE Bfs.ancNext k s = .ok s' ∧
        ∀ i, nthCallE Bfs.lvNext i s' =
          .ok ((Tree.onlyLeaves ((treeOf n).located.markLeaves.levelOrder.drop k)).map Pos.ancestors)[i]? := by
  refine ⟨_, rfl, fun k hk => ?_⟩
  have hl : (bfsF [ancT [] (treeOf n)]).length = (treeOf n).size := by simp [bfsF_length, size_ancT]
  have hmark : ∀ (t : Tree (Pos V)), (t.map Pos.ancestors).markLeaves = t.markLeaves.map fun x => (x.1, x.2.ancestors) := by
    intro t
    induction t using Tree.ind with
    | h a cs ih =>
      rw [Tree.map_node, Tree.markLeaves_node, Tree.markLeaves_node, Tree.map_node, List.map_map, List.map_map]
      simp only [List.isEmpty_map]
      congr 1
      exact List.map_congr_left ih
  have spec : (Tree.onlyLeaves ((treeOf n).located.markLeaves.levelOrder.drop k)).map Pos.ancestors =
      Bfs.lvRem (Bfs.bfsDrop k [ancT [] (treeOf n)]) := by
    rw [Bfs.lvRem, Bfs.bfsDrop_mark, Bfs.bfsF_bfsDrop, List.map_cons, List.map_nil, ← map_ancestors_withPos _ [],
      hmark, bfsF_singleton, Tree.levelOrder_map, ← List.map_drop]
    simp only [Tree.onlyLeaves, List.map_map, List.filter_map]
    rfl
  have run : ∀ s' : Bfs.AncState N V, Bfs.LvRel s' (Bfs.bfsDrop k [ancT [] (treeOf n)]) → ∀ i,
      nthCallE Bfs.lvNext i s' =
        .ok ((Tree.onlyLeaves ((treeOf n).located.markLeaves.levelOrder.drop k)).map Pos.ancestors)[i]? := by
    intro s' hs i
    rw [spec]
    refine (nthCallE_rel (fun s l => ∃ ts, Bfs.LvRel s ts ∧ l = Bfs.lvRem ts) ?_ ⟨_, hs, rfl⟩ i).1
    rintro s l ⟨ts, h, rfl⟩
    obtain ⟨s', ts', e1, e2, e3⟩ := Bfs.lvNext_spec s ts h
    exact ⟨s', e1, ts', e3, e2.symm⟩
  by_cases hk' : k ≤ (treeOf n).size
  · obtain ⟨s', h1, h2⟩ := Bfs.anc_stateAfter k _ _ (Bfs.ancRel_new n) (by rw [hl]; exact hk')
    exact ⟨s', h1, run s' (.inl h2)⟩
  · obtain rfl : k = (treeOf n).size + 1 := by omega
    obtain ⟨s', e1, e2, e3, e4⟩ := Bfs.anc_stateAfter_end _ _ (Bfs.ancRel_new n)
    rw [hl] at e1
    refine ⟨s', e1, run s' (.inr ⟨e2, e4, ?_⟩)⟩
    rw [← Bfs.bfsF_eq_nil, Bfs.bfsF_bfsDrop, List.drop_eq_nil_of_le (by omega)]

/-- After four calls (`0`, `1`, `2`, `3`) the leaves `4` and `5` remain. -/
example : (match stateAfterE Bfs.ancNext 4 (Bfs.AncState.new sampleTree) with
      | .ok s => answersE Bfs.lvNext 4 s
      | .error _ => none) = some [some [0, 1, 4], some [0, 2, 5], none, none] := by decide +kernel

end TreeIter
