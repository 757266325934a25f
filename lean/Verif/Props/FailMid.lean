import Verif.Lemmas.FailMid
import Verif.Props.Fail

/-!
# C62: `attach_ancestors().leaves()` in the middle of a traversal, with caught panics
-/

universe u v

namespace TreeIter

variable {N : Type u} {V : Type v}

theorem Fail.preAnc_stack [TreeNode N V] (bad : N → Bool) (k : Nat) (a : Preorder.AncState N V) :
    (stateAfter (Fail.preAncNext bad) k a).root = (stateAfter (Fail.preNext bad) k ⟨a.root, a.stack⟩).root ∧
      (stateAfter (Fail.preAncNext bad) k a).stack = (stateAfter (Fail.preNext bad) k ⟨a.root, a.stack⟩).stack := by
  induction k generalizing a with
  | zero => exact ⟨rfl, rfl⟩
  | succ k ih =>
    rw [stateAfter, stateAfter]
    have e : (⟨(Fail.preAncNext bad a).2.root, (Fail.preAncNext bad a).2.stack⟩ : Preorder.State N) =
        (Fail.preNext bad ⟨a.root, a.stack⟩).2 := by
      obtain ⟨_ | r, st, items⟩ := a
      · have hl : ∀ (st : List (List N)) (items : List V),
            Preorder.loop st = ((Preorder.ancLoop st items).1, (Preorder.ancLoop st items).2.1) := by
          intro st items
          fun_induction Preorder.ancLoop st items <;> simp_all [Preorder.loop]
        simp only [Fail.preAncNext, Fail.streamNext, Fail.preAncAdvance, Fail.preNext, hl st items]
        rcases Preorder.ancLoop st items with ⟨_ | n, st', items'⟩
        · rfl
        · by_cases hb : bad n <;> simp [hb]
      · by_cases hb : bad r <;> simp [Fail.preAncNext, Fail.streamNext, Fail.preAncAdvance, Fail.preNext, hb]
    rw [← e]
    exact ih _

/-- C62, `attach_ancestors().leaves()` in the middle of a preorder traversal, with panics caught before and after it.  `pending` are
the nodes whose subtrees have not been entered.  If calls go on after `None`, each bad node among and below them panics once, and the
others give the slices of their leaves, each once; none is lost because of a panic.  Missing: the order, and the slices but for
their last elements (C21). -/
theorem C62_leaves_ancestors_mid_partial [TreeNode N V] (bad : N → Bool) (n : N) (k : Nat) :
    ∃ pending : List N,
      ((unfold n).crop bad).preorder.drop (k + 1) = pending.flatMap (fun m => ((unfold m).crop bad).preorder) ∧
      ∃ m, ∀ j, m ≤ j → ((Leaves.outs (Fail.leavesAncNext bad) j
          (Leaves.ofPreorderAnc (stateAfter (Fail.preAncNext bad) (k + 1) (Preorder.AncState.new n)))).map
            (·.bind List.getLast?)).Perm
        (pending.flatMap fun m => ((unfold m).crop bad).leaves.map (replyAt bad val)) := by
  obtain ⟨h1, h2⟩ := preNodes_after bad (k + 1) (Preorder.new n)
  obtain ⟨h3, h4⟩ := Fail.preAnc_stack bad (k + 1) (Preorder.AncState.new (V := V) n)
  have h5 := h3.trans (h2 (Nat.succ_ne_zero k))
  refine ⟨(stateAfter (Fail.preNext bad) (k + 1) (Preorder.new n)).stack.flatten, ?_, ?_⟩
  · have e : preNodes bad (Preorder.new n) = ((unfold n).crop bad).preorder := by simp [preNodes, Preorder.new]
    rw [← e, ← h1, preNodes, h2 (Nat.succ_ne_zero k)]
    rfl
  · obtain ⟨m, hm⟩ := Fail.leavesAncOuts_perm bad
      (Leaves.ofPreorderAnc (stateAfter (Fail.preAncNext bad) (k + 1) (Preorder.AncState.new n))) (fun h => absurd h5 h)
    refine ⟨m, fun j hj => (hm j hj).trans (List.Perm.of_eq ?_)⟩
    simp only [Fail.ancPendF, Leaves.ofPreorderAnc, h5, h4, Fail.stackLeaves, ← Tree.leaves_map, Fail.repT]
    rfl

/-- After 0 and the panic at the first 9, two more panics and the slices of 4 and 3, without the root. -/
example : answers (Fail.leavesAncNext badNine) 6
      (Leaves.ofPreorderAnc (stateAfter (Fail.preAncNext badNine) 2
        (Preorder.AncState.new (.node 0 [.node 9 [], .node 9 [], .node 2 [.node 9 [], .node 4 []], .node 3 []] : Tree Nat)))) =
      [some none, some none, some (some [4]), some (some [3]), none, none] ∧
    (([.node 9 [], .node 2 [.node 9 [], .node 4 []], .node 3 []] : List (Tree Nat)).flatMap fun m =>
      ((unfold m).crop badNine).leaves.map (replyAt badNine val)) = [none, none, some 4, some 3] := by
  decide +kernel

/-- The nodes still to be visited, with a mark on the leaves. -/
def Fail.bfsMarks [TreeNode N V] (bad : N → Bool) (s : Bfs.State N) : List (Bool × N) :=
  bfsF ((s.root.toList ++ s.queue.flatten).map fun m => ((unfold m).crop bad).markLeaves)

theorem Fail.bfsF_marks [TreeNode N V] (bad : N → Bool) (n : N) (ns : List N) :
    (bfsF ((n :: ns).map fun m => ((unfold m).crop bad).markLeaves)).tail =
      bfsF ((ns ++ if bad n then [] else kids n).map fun m => ((unfold m).crop bad).markLeaves) := by
  rw [List.map_cons, unfold_eq, Tree.crop, Tree.cropL_eq, List.map_append]
  split
  · rw [Tree.markLeaves_node, bfsF_cons]
    simp
  · rw [Tree.markLeaves_node, bfsF_cons, List.tail_cons, List.map_map, List.map_map]
    rfl

theorem Fail.bfsMarks_next [TreeNode N V] (bad : N → Bool) (s : Bfs.State N) :
    Fail.bfsMarks bad (Fail.bfsNext bad s).2 = (Fail.bfsMarks bad s).tail ∧ (Fail.bfsNext bad s).2.root = none := by
  obtain ⟨root, queue⟩ := s
  cases root with
  | some r => by_cases hb : bad r <;> simp [Fail.bfsNext, Fail.bfsMarks, -List.map_cons, Fail.bfsF_marks, hb]
  | none =>
    simp only [Fail.bfsNext]
    induction queue with
    | nil => simp [Fail.bfsLoop, Fail.bfsMarks]
    | cons ns rest ih =>
      cases ns with
      | nil => simpa [Fail.bfsLoop, Fail.bfsMarks] using ih
      | cons n ns => by_cases hb : bad n <;> simp [Fail.bfsLoop, Fail.bfsMarks, -List.map_cons, Fail.bfsF_marks, hb]

theorem Fail.bfsMarks_after [TreeNode N V] (bad : N → Bool) (k : Nat) : ∀ s : Bfs.State N,
    Fail.bfsMarks bad (stateAfter (Fail.bfsNext bad) k s) = (Fail.bfsMarks bad s).drop k ∧
      (k ≠ 0 → (stateAfter (Fail.bfsNext bad) k s).root = none) := by
  induction k with
  | zero => intro s; simp [stateAfter]
  | succ k ih =>
    intro s
    refine ⟨?_, fun _ => ?_⟩
    · rw [stateAfter, (ih _).1, (Fail.bfsMarks_next bad s).1, List.drop_tail]
    · cases k with
      | zero => exact (Fail.bfsMarks_next bad s).2
      | succ k => rw [stateAfter]; exact (ih _).2 (Nat.succ_ne_zero k)

/-- C62, `leaves()` in the middle of a breadth-first traversal, with panics caught before and after it: the bad nodes and the
leaves among the nodes not visited yet, in level order.  None is lost. -/
theorem C62_bfs_leaves_mid [TreeNode N V] (bad : N → Bool) (n : N) (k i : Nat) :
    nthCall (Fail.bfsLeavesNext bad) i (Bfs.leaves (stateAfter (Fail.bfsNext bad) k (Bfs.new n))) =
      ((Tree.onlyLeaves (((unfold n).crop bad).markLeaves.levelOrder.drop k)).map (replyAt bad val))[i]? := by
  rw [nthCall_spec (fun _ => True) (Fail.bfsLvRem bad)
    (fun s _ => ⟨(Fail.bfsLeavesNext_spec bad s).1, (Fail.bfsLeavesNext_spec bad s).2, trivial⟩) trivial]
  have h := (Fail.bfsMarks_after bad k (Bfs.new n)).1
  have e : Fail.bfsMarks bad (Bfs.new n) = ((unfold n).crop bad).markLeaves.levelOrder := by
    rw [← bfsF_singleton]
    simp [Fail.bfsMarks, Bfs.new]
  rw [← e, ← h]
  congr 1
  generalize stateAfter (Fail.bfsNext bad) k (Bfs.new n) = s
  have e2 : ∀ ns : List N, (bfsF (ns.map fun m => ((unfold m).crop bad).markLeaves)).map
      (Prod.map id (replyAt bad val)) = bfsF (ns.map fun m => (Fail.repT bad m).markLeaves) := by
    intro ns
    rw [← bfsF_map, List.map_map]
    congr 1
    refine List.map_congr_left fun m _ => ?_
    rw [Fail.repT, markLeaves_map]
    rfl
  rw [Fail.bfsLvRem, Fail.markF, Fail.bfsMarks]
  simp only [Bfs.leaves, List.flatten_nil, List.append_nil]
  rw [← e2]
  simp only [Tree.onlyLeaves, List.map_map, List.filter_map]
  rfl

/-- After 0 and the panic at 1 the leaf 5 below 2 panics; after 0, 1 and 2 the leaves 3 and 4 are found and 5 panics. -/
example : answers (Fail.bfsLeavesNext sampleBad) 3 (Bfs.leaves (stateAfter (Fail.bfsNext sampleBad) 2 (Bfs.new sampleTree))) =
    [some none, none, none] ∧
    answers (Fail.bfsLeavesNext fun t => val t == 5) 4
      (Bfs.leaves (stateAfter (Fail.bfsNext fun t => val t == 5) 3 (Bfs.new sampleTree))) =
    [some (some 3), some (some 4), some none, none] := by decide +kernel

end TreeIter
