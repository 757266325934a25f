import Verif.Props.FailMid
import Verif.Props.Flaky

/-!
# C79: `leaves()` in the middle of a traversal, with caught panics of child iterators
-/

universe u v w

namespace TreeIter

theorem Flaky.stateAfter_enc {S : Type u} {T : Type v} {O : Type w} {f : S → Option O × S} {g : T → Option O × T}
    (enc : S → T) (h : ∀ s, g (enc s) = ((f s).1, enc (f s).2)) (k : Nat) (s : S) :
    stateAfter g k (enc s) = enc (stateAfter f k s) := by
  induction k generalizing s with
  | zero => rfl
  | succ k ih => rw [stateAfter, stateAfter, h, ih]

variable {N : Type u} {V : Type v} [FlakyNode N V]

/-- C79, `leaves()` in the middle of a preorder traversal, with panics caught before and after it.  `pending` are the calls
of `next` not made yet: the traversal would have gone on with just these and what is below them.  Each panic among them takes
one call; the others give their leaves, except that a pending leaf is lost (C18). -/
theorem C79_preorder_leaves_mid (n : N) (k : Nat) :
    ∃ pending : List (Option N),
      (pollTree (some n)).preorder.drop (k + 1) = pending.flatMap (fun o => (pollTree o).preorder) ∧
      ∀ i, nthCall Flaky.leavesNext i
          (Flaky.Pre.leaves (stateAfter Flaky.preNext (k + 1) (Flaky.Pre.new n))) =
        (pending.flatMap fun o =>
          match o with
          | none => [none]
          | some m => (callsF m).flatMap fun c => (pollTree c).leaves.map (Option.map valF))[i]? := by
  obtain ⟨pending, h1, h2⟩ := @C62_preorder_leaves_mid _ _ (Flaky.ghost (valF n)) Option.isNone (some n) k
  simp only [Flaky.unfold_ghost, Flaky.crop_isNone, Flaky.replyAt_ghost] at h1 h2
  refine ⟨pending, h1, fun i => ?_⟩
  rw [Flaky.nthCall_enc Flaky.Lv.enc (Flaky.leavesNext_enc (valF n))]
  have e : (Flaky.Pre.leaves (stateAfter Flaky.preNext (k + 1) (Flaky.Pre.new n))).enc =
      Leaves.ofPreorder (V := V) (stateAfter (@Fail.preNext _ _ (Flaky.ghost (valF n)).toSplitNode Option.isNone) (k + 1)
        (Preorder.new (some n))) := by
    rw [show Preorder.new (some n) = Flaky.Pre.enc (Flaky.Pre.new n) from rfl,
      Flaky.stateAfter_enc Flaky.Pre.enc (Flaky.preNext_enc (valF n))]
    rfl
  rw [e, h2 i]
  congr 2
  funext o
  cases o <;> rfl

/-- C79, `leaves()` in the middle of a breadth-first traversal, with panics caught before and after it.  `pending` are the
calls of `next` that the queue will make; below them the leaves come in level order, and a node whose child iterator panics
at the first call is lost with everything below it. -/
theorem C79_bfs_leaves_mid (n : N) (k : Nat) :
    ∃ pending : List (Option N),
      (pollTree (some n)).levelOrder.drop (k + 1) = (Tree.node none (pending.map pollTree)).levelOrder.tail ∧
      ∀ i, nthCall Flaky.bfsLeavesNext i
          (Flaky.Wide.leaves (stateAfter Flaky.bfsNext (k + 1) (Flaky.Wide.new n))) =
        ((Tree.onlyLeaves
          (Tree.node none (pending.map fun o => (pollTree o).crop lostF)).markLeaves.levelOrder.tail).map
            fun o => if lostF o then none else o.map valF)[i]? := by
  obtain ⟨h1, h2⟩ := @Fail.bfsMarks_after _ _ (Flaky.ghost (valF n)) Option.isNone (k + 1) (Bfs.new (some n))
  replace h2 := h2 (Nat.succ_ne_zero k)
  rw [show Bfs.new (some n) = Flaky.Wide.enc (Flaky.Wide.new n) from rfl,
    Flaky.stateAfter_enc Flaky.Wide.enc (Flaky.bfsNext_enc (valF n))] at h1 h2
  generalize hs : stateAfter Flaky.bfsNext (k + 1) (Flaky.Wide.new n) = s at h1 h2 ⊢
  obtain ⟨root, queue⟩ := s
  obtain rfl : root = none := by simpa [Flaky.Wide.enc] using h2
  refine ⟨queue.flatten, ?_, fun i => ?_⟩
  · rw [← bfsF_singleton (Tree.node none _), bfsF_cons, List.tail_cons, List.nil_append]
    have h3 := congrArg (List.map Prod.snd) h1
    simp only [Fail.bfsMarks, Flaky.Wide.enc, Flaky.Wide.new, Option.map_none, Option.toList_none, List.nil_append,
      Option.map_some, Option.toList_some, List.flatten_nil, List.append_nil, List.map_drop, Flaky.unfold_ghost,
      Flaky.crop_isNone, ← bfsF_map, List.map_map, List.map_cons, List.map_nil,
      bfsF_singleton, ← Tree.levelOrder_map, Function.comp_def, map_snd_markLeaves] at h3
    rw [← h3]
  · rw [Flaky.nthCall_enc Flaky.WideLv.enc (Flaky.bfsLeavesNext_enc (valF n)),
      nthCall_spec (fun _ => True) (@Fail.bfsLvRem _ _ (Flaky.ghost (valF n)) lostF)
        (fun s _ => ⟨(@Fail.bfsLeavesNext_spec _ _ (Flaky.ghost (valF n)) lostF s).1,
          (@Fail.bfsLeavesNext_spec _ _ (Flaky.ghost (valF n)) lostF s).2, trivial⟩) trivial]
    congr 1
    have e : (replyAt lostF (@val _ _ (Flaky.ghost (N := N) (valF n)).toSplitNode)) =
        fun o => if lostF o then none else o.map valF := by
      funext o
      cases o <;> rfl
    let _ := Flaky.ghost (N := N) (valF n)
    rw [Fail.bfsLvRem, Fail.markF, Tree.markLeaves_node, ← bfsF_singleton, bfsF_cons, List.tail_cons, List.nil_append,
      List.map_map]
    simp only [Flaky.WideLv.enc, Flaky.Wide.leaves, Option.map_none, Option.toList_none, List.nil_append, List.flatten_nil,
      List.append_nil, Fail.repT, Flaky.unfold_ghost, e, markLeaves_map]
    generalize queue.flatten = l
    have e2 := bfsF_map (fun x : Bool × Option N => (x.1, if lostF x.2 then none else x.2.map valF))
      (l.map fun o => ((pollTree o).crop lostF).markLeaves)
    rw [List.map_map] at e2
    rw [show (l.map fun o => ((pollTree o).crop lostF).markLeaves.map
        fun x : Bool × Option N => (x.1, if lostF x.2 then none else x.2.map valF)) = _ from rfl]
    simp only [Function.comp_def] at e2 ⊢
    rw [e2]
    simp only [Tree.onlyLeaves, List.map_map, List.filter_map]
    rfl

section
attribute [local instance] nineFlaky

/-- After 0 and 1: 3 and the panic below 1 are pending, 4 is a pending leaf and lost, then come the panic after 1, the panic
below 2 and the leaf 5. -/
example : answers Flaky.leavesNext 5 (Flaky.Pre.leaves (stateAfter Flaky.preNext 2 (Flaky.Pre.new flakySample))) =
    [some none, some none, some none, some (some 5), none] := by decide +kernel

/-- After 0, 1 and the panic after it: 2 is lost with the 5 below it, then come 3, the panic and 4. -/
example : answers Flaky.bfsLeavesNext 5 (Flaky.Wide.leaves (stateAfter Flaky.bfsNext 3 (Flaky.Wide.new flakySample))) =
    [some none, some (some 3), some none, some (some 4), none] := by decide +kernel

end

/-- C79, `attach_ancestors().leaves()` in the middle of a preorder traversal, with panics caught before and after it.  If
calls go on after `None`, each panic among and below the pending calls takes one call, and the others give the slices of
their leaves, each once; none is lost.  Missing: the order, and the slices but for their last elements (C21). -/
theorem C79_leaves_ancestors_mid_partial (n : N) (k : Nat) :
    ∃ pending : List (Option N),
      (pollTree (some n)).preorder.drop (k + 1) = pending.flatMap (fun o => (pollTree o).preorder) ∧
      ∃ s m, Flaky.Pre.attachAncestors (Flaky.Pre.new n) = .ok s ∧ ∀ j, m ≤ j → ((Leaves.outs Flaky.leavesAncNext j
          (Flaky.PreAnc.leaves (stateAfter Flaky.preAncNext (k + 1) s))).map (·.bind List.getLast?)).Perm
        (pending.flatMap fun o => (pollTree o).leaves.map (Option.map valF)) := by
  obtain ⟨pending, h1, m, h2⟩ := @C62_leaves_ancestors_mid_partial _ _ (Flaky.ghost (valF n)) Option.isNone (some n) k
  simp only [Flaky.unfold_ghost, Flaky.crop_isNone, Flaky.replyAt_ghost] at h1 h2
  refine ⟨pending, h1, _, m, rfl, fun j hj => ?_⟩
  have e0 : ∀ j (s : Flaky.LvAnc N V), Leaves.outs Flaky.leavesAncNext j s =
      Leaves.outs (@Fail.leavesAncNext _ _ (Flaky.ghost (valF n)) Option.isNone) j s.enc := by
    intro j
    induction j with
    | zero => intro s; rfl
    | succ j ih => intro s; rw [Leaves.outs, Leaves.outs, ih, Flaky.leavesAncNext_enc (valF n)]
  rw [e0]
  have e := Flaky.stateAfter_enc Flaky.PreAnc.enc (Flaky.preAncNext_enc (valF n)) (k + 1)
    (⟨some n, [], []⟩ : Flaky.PreAnc N V)
  have := h2 j hj
  rw [show Preorder.AncState.new (some n) = Flaky.PreAnc.enc (⟨some n, [], []⟩ : Flaky.PreAnc N V) from rfl, e] at this
  exact this

section
attribute [local instance] nineFlaky

/-- After 0 and 1: 3, the panic and 4 below 1, the panic after it, the panic below 2 and 5; 0 is missing where C21 loses it. -/
example : (Leaves.outs Flaky.leavesAncNext 12 (Flaky.PreAnc.leaves (stateAfter Flaky.preAncNext 2
      (⟨some flakySample, [], []⟩ : Flaky.PreAnc (Tree Nat) Nat)))).length = 6 := by decide +kernel

end

end TreeIter
