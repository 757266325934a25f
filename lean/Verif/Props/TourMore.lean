import Verif.Lemmas.TourMore
import Verif.Props.Tour
import Verif.Props.BreadthFirst
import Verif.Props.BreadthFirstAnc
import Verif.Props.DepthFirst
import Verif.Props.Leaves

/-!
# C77, C48: iterators with ancestors and over leaves

What was opened and released after any number of calls, in order, with what is still held.
-/

universe u v

namespace TreeIter

open Handles

variable {N : Type u} {V : Type v}

/-- C77, preorder with ancestors: what the plain traversal does. -/
theorem C77_preorder_ancestors [TreeNode N V] (n : N) (k : Nat) :
    (run (streamed preAncAdvance PreAnc.erase Preorder.ancGet) k ⟨some n, [], []⟩).1 =
        untilOpened k (tour (unfold n)) ∧
      (run (streamed preAncAdvance PreAnc.erase Preorder.ancGet) k ⟨some n, [], []⟩).2.1 =
        (List.range k).map (fun j => ((treeOf n).located.preorder.map Pos.ancestors)[j]?) ∧
      (dropped (untilOpened k (tour (unfold n))) ++
        (run (streamed preAncAdvance PreAnc.erase Preorder.ancGet) k ⟨some n, [], []⟩).2.2.live).Perm
          (opened (untilOpened k (tour (unfold n)))) := by
  have hc := run_cuts (next := streamed preAncAdvance PreAnc.erase Preorder.ancGet) (cut := untilOpened)
    (rem := PreAnc.rem) (fun _ => True) (fun s _ => ⟨preAncAdvance_cut s, trivial⟩) k ⟨some n, [], []⟩ trivial
  have h0 := hc 0
  have he : (run (streamed preAncAdvance PreAnc.erase Preorder.ancGet) k ⟨some n, [], []⟩).1 =
      untilOpened k (tour (unfold n)) := by
    simpa [PreAnc.rem, walk, untilOpened_zero] using h0.symm
  refine ⟨he, ?_, ?_⟩
  · obtain ⟨s0, h1, h2⟩ := C06_preorder_ancestors n
    cases h1
    rw [(run_erase PreAnc.erase preAncAdvance_erase k _).1]
    exact List.map_congr_left fun j _ => h2 j
  · have := hc.perm whole_untilOpened PreAnc.balance
    rw [he] at this
    simpa [PreAnc.live] using this

example : eventsOf (run (streamed preAncAdvance PreAnc.erase Preorder.ancGet) 5 ⟨some sampleTree, [], []⟩).1 =
    [(true, 0), (true, 1), (true, 3), (false, 3), (true, 4), (false, 4), (false, 1), (true, 2)] := by decide +kernel

/-- C77, postorder with ancestors. -/
theorem C77_postorder_ancestors [TreeNode N V] (n : N) (k : Nat) :
    (run (streamed postAncAdvance PostAnc.erase Postorder.ancGet) k ⟨some n, [], []⟩).1 =
        untilDropped k (tour (unfold n)) ∧
      (run (streamed postAncAdvance PostAnc.erase Postorder.ancGet) k ⟨some n, [], []⟩).2.1 =
        (List.range k).map (fun j => ((treeOf n).located.postorder.map Pos.ancestors)[j]?) ∧
      (dropped (untilDropped k (tour (unfold n))) ++
        (run (streamed postAncAdvance PostAnc.erase Postorder.ancGet) k ⟨some n, [], []⟩).2.2.live).Perm
          (opened (untilDropped k (tour (unfold n)))) := by
  have hc := run_cuts (next := streamed postAncAdvance PostAnc.erase Postorder.ancGet) (cut := untilDropped)
    (rem := PostAnc.rem) (fun _ => True) (fun s _ => ⟨postAncAdvance_cut s, trivial⟩) k ⟨some n, [], []⟩ trivial
  have h0 := hc 0
  have he : (run (streamed postAncAdvance PostAnc.erase Postorder.ancGet) k ⟨some n, [], []⟩).1 =
      untilDropped k (tour (unfold n)) := by
    simpa [PostAnc.rem, walk, untilDropped_zero] using h0.symm
  refine ⟨he, ?_, ?_⟩
  · obtain ⟨s0, h1, h2⟩ := C07_postorder_ancestors n
    cases h1
    rw [(run_erase PostAnc.erase postAncAdvance_erase k _).1]
    exact List.map_congr_left fun j _ => h2 j
  · have := hc.perm whole_untilDropped PostAnc.balance
    rw [he] at this
    simpa [PostAnc.live] using this

example : eventsOf (run (streamed postAncAdvance PostAnc.erase Postorder.ancGet) 3 ⟨some sampleTree, [], []⟩).1 =
    [(true, 0), (true, 1), (true, 3), (false, 3), (true, 4), (false, 4), (false, 1)] := by decide +kernel

/-- C77, `bfs().leaves()`: each call goes along the levels up to the next opening of a childless node. -/
theorem C77_bfs_leaves [TreeNode N V] (n : N) (k : Nat) :
    (run bfsLvNext k ⟨some n, [], []⟩).1 = untilLeafOpened (fun m => (kids m).isEmpty) k (levelTour kids (unfold n)) ∧
      (run bfsLvNext k ⟨some n, [], []⟩).2.1 =
        (List.range k).map (fun j => (Tree.onlyLeaves (treeOf n).markLeaves.levelOrder)[j]?) ∧
      (dropped (run bfsLvNext k ⟨some n, [], []⟩).1 ++ (run bfsLvNext k ⟨some n, [], []⟩).2.2.live).Perm
        (opened (run bfsLvNext k ⟨some n, [], []⟩).1) := by
  have hc := run_cuts (next := bfsLvNext) (cut := untilLeafOpened fun m => (kids m).isEmpty)
    (rem := BfsLv.rem) (fun _ => True) (fun s _ => ⟨bfsLvNext_cut s, trivial⟩) k ⟨some n, [], []⟩ trivial
  refine ⟨?_, ?_, ?_⟩
  · have h0 := hc 0
    rw [← sweep_root]
    simpa [BfsLv.rem, untilLeafOpened] using h0.symm
  · rw [(run_erase BfsLv.erase bfsLvNext_erase k _).1]
    exact List.map_congr_left fun j _ => C19_bfs_leaves n 0 j
  · have := hc.perm (whole_untilLeafOpened _) BfsLv.balance
    simpa [BfsLv.live] using this

example : eventsOf (run bfsLvNext 2 ⟨some sampleTree, [], []⟩).1 =
    [(true, 0), (true, 1), (true, 2), (false, 0), (true, 3), (true, 4)] := by decide +kernel

/-- C77, `leaves()` of a preorder or a postorder traversal: each call goes along the walk around the tree up to the
release of the next childless node. -/
theorem C77_leaves [TreeNode N V] (n : N) (k : Nat) :
    (run dfsLvNext k ⟨some n, [], [], []⟩).1 = untilLeaf k (tour (unfold n)) ∧
      (run dfsLvNext k ⟨some n, [], [], []⟩).2.1 = (List.range k).map (fun j => (treeOf n).leaves[j]?) ∧
      (dropped (untilLeaf k (tour (unfold n))) ++ (run dfsLvNext k ⟨some n, [], [], []⟩).2.2.live).Perm
        (opened (untilLeaf k (tour (unfold n)))) := by
  obtain ⟨hc, hf⟩ := run_cuts_inv (next := dfsLvNext) (cut := untilLeaf) (rem := Lv.rem) Lv.Fresh
    dfsLvNext_cut k ⟨some n, [], [], []⟩ rfl
  have he : (run dfsLvNext k ⟨some n, [], [], []⟩).1 = untilLeaf k (tour (unfold n)) := by
    simpa [Lv.rem, walk, untilLeaf] using (hc 0).symm
  refine ⟨he, ?_, ?_⟩
  · rw [(run_erase Lv.erase dfsLvNext_erase k _).1]
    exact List.map_congr_left fun j _ => C17_preorder_leaves n j
  · have := hc.perm_of whole_untilLeaf (Lv.balance _ rfl) (Lv.balance _ hf)
    rw [he] at this
    simpa [Lv.live] using this

/-- The state of `C77_leaves` is that of `dfs_preorder().leaves()` and of `dfs_postorder().leaves()`. -/
example (n : Tree Nat) : Leaves.ofPreorder (Preorder.new n) = Lv.erase (V := Nat) ⟨some n, [], [], []⟩ ∧
    Leaves.ofPostorder (Postorder.new n) = Lv.erase (V := Nat) ⟨some n, [], [], []⟩ := ⟨rfl, rfl⟩

example : eventsOf (run dfsLvNext 2 ⟨some sampleTree, [], [], []⟩).1 =
    [(true, 0), (true, 1), (true, 3), (false, 3), (true, 4), (false, 4)] := by decide +kernel

/-- C77, `attach_ancestors().leaves()`, depth first: the same. -/
theorem C77_leaves_ancestors [TreeNode N V] (n : N) (k : Nat) :
    (run (streamed lvAncAdvance LvAnc.erase Leaves.ancGet) k ⟨some n, [], [], []⟩).1 = untilLeaf k (tour (unfold n)) ∧
      (run (streamed lvAncAdvance LvAnc.erase Leaves.ancGet) k ⟨some n, [], [], []⟩).2.1 =
        (List.range k).map (fun j => ((treeOf n).located.leaves.map Pos.ancestors)[j]?) ∧
      (dropped (untilLeaf k (tour (unfold n))) ++
        (run (streamed lvAncAdvance LvAnc.erase Leaves.ancGet) k ⟨some n, [], [], []⟩).2.2.live).Perm
          (opened (untilLeaf k (tour (unfold n)))) := by
  obtain ⟨hc, hf⟩ := run_cuts_inv (next := streamed lvAncAdvance LvAnc.erase Leaves.ancGet) (cut := untilLeaf)
    (rem := LvAnc.rem) LvAnc.Fresh lvAncAdvance_cut k ⟨some n, [], [], []⟩ ⟨rfl, rfl, rfl⟩
  have he : (run (streamed lvAncAdvance LvAnc.erase Leaves.ancGet) k ⟨some n, [], [], []⟩).1 =
      untilLeaf k (tour (unfold n)) := by
    simpa [LvAnc.rem, walk, untilLeaf] using (hc 0).symm
  refine ⟨he, ?_, ?_⟩
  · obtain ⟨s0, h1, h2⟩ := C20_preorder_leaves_ancestors n
    cases h1
    rw [(run_erase LvAnc.erase lvAncAdvance_erase k _).1]
    exact List.map_congr_left fun j _ => h2 j
  · have := hc.perm_of whole_untilLeaf (LvAnc.balance _ ⟨rfl, rfl, rfl⟩) (LvAnc.balance _ hf)
    rw [he] at this
    simpa [LvAnc.live] using this

example : eventsOf (run (streamed lvAncAdvance LvAnc.erase Leaves.ancGet) 3 ⟨some sampleTree, [], [], []⟩).1 =
    [(true, 0), (true, 1), (true, 3), (false, 3), (true, 4), (false, 4), (false, 1), (true, 2), (true, 5), (false, 5)] := by
  decide +kernel

/-- C77, breadth first with ancestors: the root is opened when the iterator is made, and the first call does nothing.  (The
calls up to and including the one that returns `None`; after that the iterator panics, `C24`.) -/
theorem C77_bfs_ancestors [TreeNode N V] (n : N) (k : Nat) (hk : k ≤ (treeOf n).size + 1) :
    ∃ es s, runE bfsAncAdvance (fun s => Bfs.ancGet s.erase) k (BfsAncH.new n).2 =
        .ok (es, (List.range k).map (fun j => ((treeOf n).located.levelOrder.map Pos.ancestors)[j]?), s) ∧
      (BfsAncH.new (V := V) n).1 ++ es = untilOpened (max k 1) (levelTour kids (unfold n)) ∧
      (dropped es ++ s.live).Perm (n :: opened es) := by
  obtain ⟨s0, h1, h2⟩ := C09_bfs_ancestors n
  cases h1
  rw [← sweep_root]
  cases k with
  | zero => exact ⟨[], _, rfl, by simp [BfsAncH.new, untilOpened], by simp [BfsAncH.new, BfsAncH.live, opened, dropped]⟩
  | succ k =>
    let s1 : BfsAncH N V := { (BfsAncH.new n).2 with isRoot := false }
    obtain ⟨es, s, r1, r2, -, -⟩ := runE_spec (get := fun s => Bfs.ancGet s.erase) (get' := Bfs.ancGet)
      BfsAncH.erase BfsAncH.Started (Cuts untilOpened BfsAncH.rem) bfsAncAdvance_erase (fun _ => rfl) bfsAncAdvance_cut
      (Cuts.nil _ _) (fun _ _ _ _ _ _ => Cuts.trans) k s1 rfl
      (fun j => ((treeOf n).located.levelOrder.map Pos.ancestors)[j + 1]?) (fun j hj => h2 (j + 1) (by omega))
    have ha : bfsAncAdvance (BfsAncH.new (V := V) n).2 = .ok ([], s1) := rfl
    have h20 : .ok (Bfs.ancGet s1.erase) = Except.ok (ε := Panic) _ := h2 0 (Nat.zero_le _)
    have hr : runE bfsAncAdvance (fun s => Bfs.ancGet s.erase) (k + 1) (BfsAncH.new (V := V) n).2 =
        .ok (es, (List.range (k + 1)).map (fun j => ((treeOf n).located.levelOrder.map Pos.ancestors)[j]?), s) := by
      simp only [runE, ha, r1, List.nil_append, List.range_succ_eq_map, List.map_cons, List.map_map]
      rw [Except.ok.inj h20]
      rfl
    refine ⟨es, s, hr, ?_, ?_⟩
    · have := r2 0
      rw [untilOpened_zero, List.append_nil, Nat.zero_add] at this
      rw [Nat.max_eq_left (Nat.le_add_left 1 k), untilOpened, ← this]
      simp [BfsAncH.new, BfsAncH.rem, s1]
    · simpa [BfsAncH.live, s1, BfsAncH.new] using r2.perm whole_untilOpened BfsAncH.balance

example := C77_bfs_ancestors sampleTree 7 (by decide +kernel)

/-- C77, `bfs().attach_ancestors().leaves()`: from the first call on, what has been done along the levels goes up to the
opening of the leaf returned. -/
theorem C77_bfs_leaves_ancestors [TreeNode N V] (n : N) (k : Nat) :
    ∃ es s, runE lvAdvance (fun s => Bfs.ancGet s.erase) k (BfsAncH.new n).2 =
        .ok (es, (List.range k).map
          (fun j => ((Tree.onlyLeaves (treeOf n).located.markLeaves.levelOrder).map Pos.ancestors)[j]?), s) ∧
      (0 < k → (BfsAncH.new (V := V) n).1 ++ es =
        untilLeafOpened (fun m => (kids m).isEmpty) k (levelTour kids (unfold n))) ∧
      (dropped es ++ s.live).Perm (n :: opened es) := by
  obtain ⟨s0, h1, h2⟩ := C22_bfs_ancestors_leaves n
  cases h1
  obtain ⟨s0, h1, h2⟩ := h2 0 (Nat.zero_le _)
  cases h1
  simp only [List.drop_zero] at h2
  rw [← sweep_root]
  cases hk : kids n with
  | cons c cs =>
    obtain ⟨es, s, r1, r2, -, -⟩ := runE_spec (get := fun s => Bfs.ancGet s.erase) (get' := Bfs.ancGet)
      BfsAncH.erase BfsAncH.Ready (Cuts (untilLeafOpened fun m => (kids m).isEmpty) BfsAncH.rem) lvAdvance_erase
      (fun _ => rfl) lvAdvance_cut (Cuts.nil _ _) (fun _ _ _ _ _ _ => Cuts.trans) k (BfsAncH.new n).2
      (fun _ => ⟨n, c, cs, [], by simp [BfsAncH.new, handle, hk]⟩) _ (fun j _ => h2 j)
    refine ⟨es, s, r1, fun h0 => ?_, ?_⟩
    · obtain ⟨k, rfl⟩ := Nat.exists_eq_add_of_lt h0
      have := r2 0
      simp only [Nat.zero_add, untilLeafOpened, List.append_nil] at this
      simp [BfsAncH.new, BfsAncH.rem, untilLeafOpened, hk, ← this]
    · simpa [BfsAncH.live, BfsAncH.new] using r2.perm (whole_untilLeafOpened _) BfsAncH.balance
  | nil =>
    cases k with
    | zero => exact ⟨[], _, rfl, by simp, by simp [BfsAncH.new, BfsAncH.live, opened, dropped]⟩
    | succ k =>
      obtain ⟨cs, ha⟩ : ∃ cs, lvAdvance (BfsAncH.new (V := V) n).2 = .ok ([], ⟨false, cs, [handle n]⟩) := by
        have h20 := h2 0
        have he := lvAdvance_erase (BfsAncH.new (V := V) n).2
        have hn : handle (V := V) n = ⟨n, []⟩ := by simp [handle, hk]
        cases hs : Bfs.settle (BfsAncH.new (V := V) n).2.cs with
        | ok cs =>
          refine ⟨cs, ?_⟩
          simp only [lvAdvance, BfsAncH.new, hn] at hs ⊢
          rw [lvLoop]
          simp [hs]
        | error e =>
          exfalso
          have : lvAdvance (BfsAncH.new (V := V) n).2 = .error e := by
            simp only [lvAdvance, BfsAncH.new, hn] at hs ⊢
            rw [lvLoop]
            simp [hs]
          rw [this] at he
          have hl : Bfs.lvAdvance (Bfs.AncState.new (V := V) n) = .error e := he
          simp [nthCallE, stateAfterE, Bfs.lvNext, streamNextE, hl] at h20
      have hl : Bfs.lvAdvance (BfsAncH.new (V := V) n).2.erase = .ok (BfsAncH.erase ⟨false, cs, [handle n]⟩) := by
        rw [lvAdvance_erase, ha]
        rfl
      have hf : ∀ j, nthCallE (streamNextE Bfs.lvAdvance Bfs.ancGet) j (BfsAncH.erase ⟨false, cs, [handle n]⟩) =
          .ok ((Tree.onlyLeaves (treeOf n).located.markLeaves.levelOrder).map Pos.ancestors)[j + 1]? := by
        intro j
        rw [← h2 (j + 1)]
        change _ = nthCallE (streamNextE Bfs.lvAdvance Bfs.ancGet) (j + 1) (BfsAncH.new (V := V) n).2.erase
        simp [nthCallE, stateAfterE, streamNextE, hl]
      have h20 : Bfs.ancGet (BfsAncH.erase ⟨false, cs, [handle n]⟩) =
          ((Tree.onlyLeaves (treeOf n).located.markLeaves.levelOrder).map Pos.ancestors)[0]? := by
        have := h2 0
        change nthCallE (streamNextE Bfs.lvAdvance Bfs.ancGet) 0 (BfsAncH.new (V := V) n).2.erase = _ at this
        simpa [nthCallE, stateAfterE, streamNextE, hl] using this
      obtain ⟨es, s, r1, r2, -, -⟩ := runE_spec (get := fun s => Bfs.ancGet s.erase) (get' := Bfs.ancGet)
        BfsAncH.erase BfsAncH.Ready (Cuts (untilLeafOpened fun m => (kids m).isEmpty) BfsAncH.rem) lvAdvance_erase
        (fun _ => rfl) lvAdvance_cut (Cuts.nil _ _) (fun _ _ _ _ _ _ => Cuts.trans) k ⟨false, cs, [handle n]⟩
        (fun h => by cases h) _ (fun j _ => hf j)
      have hr : runE lvAdvance (fun s => Bfs.ancGet s.erase) (k + 1) (BfsAncH.new (V := V) n).2 =
          .ok (es, (List.range (k + 1)).map
            (fun j => ((Tree.onlyLeaves (treeOf n).located.markLeaves.levelOrder).map Pos.ancestors)[j]?), s) := by
        simp only [runE, ha, r1, List.nil_append, List.range_succ_eq_map, List.map_cons, List.map_map]
        rw [h20]
        rfl
      refine ⟨es, s, hr, fun _ => ?_, ?_⟩
      · have := r2 0
        simp only [Nat.zero_add, untilLeafOpened, List.append_nil] at this
        simp [BfsAncH.new, BfsAncH.rem, untilLeafOpened, hk, ← this]
      · simpa [BfsAncH.live] using r2.perm (whole_untilLeafOpened _) BfsAncH.balance

example := C77_bfs_leaves_ancestors sampleTree 3

end TreeIter
