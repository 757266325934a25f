import Verif.Spec.Fail
import Verif.Lemmas.FailIn
import Verif.Lemmas.FailCropCtx
import Verif.Lemmas.FailCropBin
import Verif.Lemmas.LeavesAncFirst
import Verif.Props.Attach
import Verif.Props.DepthFirst
import Verif.Props.BreadthFirstAnc
import Verif.Props.BreadthFirstCtx
import Verif.Props.Leaves
import Verif.Props.Samples

/-! # C62: going on after a panic of the user's code has been caught -/

universe u v

namespace TreeIter

variable {N : Type u} {V : Type v}

/-- The user's code panics at the nodes with values 1 and 5. -/
def sampleBad (t : Tree Nat) : Bool := val t == 1 || val t == 5

/-- The user's code panics at the nodes with values 2 and 3. -/
def sampleBadBin (t : BinTree Nat) : Bool := val2 t == 2 || val2 t == 3

/-- The user's code panics at the node with value 9. -/
def badNine (t : Tree Nat) : Bool := val t == 9

/-- The user's code panics at the node with value 9. -/
def badNineBin (t : BinTree Nat) : Bool := val2 t == 9

/-! ## The iterators that survive -/

/-- C62, preorder. -/
theorem C62_preorder [TreeNode N V] (bad : N → Bool) (n : N) (k : Nat) :
    nthCall (Fail.preNext bad) k (Preorder.new n) = (((unfold n).crop bad).preorder.map (replyAt bad val))[k]? := by
  rw [nthCall_spec (fun _ => True) (Fail.preRem bad)
    (fun s _ => ⟨(Fail.preNext_spec bad s).1, (Fail.preNext_spec bad s).2, trivial⟩) trivial, ← Tree.preorder_map]
  simp [Fail.preRem, Preorder.new, Fail.repT]

example : answers (Fail.preNext sampleBad) 6 (Preorder.new sampleTree) =
    [some (some 0), some none, some (some 2), some none, none, none] := by decide +kernel

/-- C62, preorder with ancestors. -/
theorem C62_preorder_ancestors [TreeNode N V] (bad : N → Bool) (n : N) :
    ∃ s, Preorder.attachAncestors (Preorder.new n) = .ok s ∧ ∀ k, nthCall (Fail.preAncNext bad) k s =
      (((unfold n).crop bad).located.preorder.map (replyPos bad fun p => p.ancestors.map val))[k]? := by
  refine ⟨_, rfl, fun k => ?_⟩
  rw [nthCall_spec Preorder.AncInv (Fail.preAncRem bad) (Fail.preAncNext_spec bad)
    (by simp [Preorder.AncInv, Preorder.AncState.new]), ← Tree.preorder_map, Fail.located_repA]
  simp [Fail.preAncRem, Preorder.AncState.new, Fail.preAncRemS]

example : answers (Fail.preAncNext sampleBad) 5 (Preorder.AncState.new sampleTree) =
    [some (some [0]), some none, some (some [0, 2]), some none, none] := by decide +kernel

/-- C62, postorder. -/
theorem C62_postorder [TreeNode N V] (bad : N → Bool) (n : N) (k : Nat) :
    nthCall (Fail.postNext bad) k (Postorder.new n) =
      (((unfold n).crop bad).postorder.map (replyAt bad val))[k]? := by
  rw [nthCall_spec Postorder.Inv (Fail.postRem bad) (Fail.postNext_spec bad) (by simp [Postorder.Inv, Postorder.new]),
    ← Tree.postorder_map]
  simp [Fail.postRem, Postorder.new, Fail.repT]

example : answers (Fail.postNext sampleBad) 6 (Postorder.new sampleTree) =
    [some none, some none, some (some 2), some (some 0), none, none] := by decide +kernel

/-- C62, breadth-first. -/
theorem C62_bfs [TreeNode N V] (bad : N → Bool) (n : N) (k : Nat) :
    nthCall (Fail.bfsNext bad) k (Bfs.new n) = (((unfold n).crop bad).levelOrder.map (replyAt bad val))[k]? := by
  rw [nthCall_spec (fun _ => True) (Fail.bfsRem bad)
    (fun s _ => ⟨(Fail.bfsNext_spec bad s).1, (Fail.bfsNext_spec bad s).2, trivial⟩) trivial, ← Tree.levelOrder_map,
    ← bfsF_singleton]
  simp [Fail.bfsRem, Bfs.new, Fail.repT]

example : answers (Fail.bfsNext sampleBad) 6 (Bfs.new sampleTree) =
    [some (some 0), some none, some (some 2), some none, none, none] := by decide +kernel

/-- C62, breadth-first with ancestors, up to the first `None` (C24 tells what comes after).  `attach_ancestors` calls the
user's code for the root, so that there is an iterator only if this does not panic. -/
theorem C62_bfs_ancestors [TreeNode N V] (bad : N → Bool) (n : N) (h : bad n = false) :
    ∃ s, Bfs.attachAncestors (Bfs.new n) = .ok s ∧ ∀ k, k ≤ ((unfold n).crop bad).size →
      nthCallE (Fail.bfsAncNext bad) k s =
        .ok (((unfold n).crop bad).located.levelOrder.map (replyPos bad fun p => p.ancestors.map val))[k]? := by
  refine ⟨_, rfl, fun k hk => ?_⟩
  have e : ((unfold n).crop bad).located.levelOrder.map (replyPos bad fun p => p.ancestors.map val) =
      some [val n] :: bfsF ((kids n).map (Fail.repA bad [val n])) := by
    rw [← Tree.levelOrder_map, Fail.located_repA, ← bfsF_singleton, Fail.repA_eq, h]
    simp [bfsF_cons]
  have hl : ((unfold n).crop bad).size =
      (((unfold n).crop bad).located.levelOrder.map (replyPos bad fun p => p.ancestors.map val)).length := by
    rw [List.length_map, ← List.length_map (f := Pos.item), ← Tree.levelOrder_map, map_item_located, ← bfsF_singleton,
      bfsF_length]
    simp
  rw [hl] at hk
  rw [e] at hk ⊢
  have h0 : Fail.BfsAncRel bad (Bfs.AncState.new n) (some [val n] :: bfsF ((kids n).map (Fail.repA bad [val n]))) :=
    ⟨val n, kids n, rfl, rfl, rfl⟩
  exact (nthCallE_until (Fail.BfsAncRel bad) (Fail.bfsAncNext_spec bad) h0 k hk).1

example : sampleBad sampleTree = false ∧ answersE (Fail.bfsAncNext sampleBad) 5 (Bfs.AncState.new sampleTree) =
    some [some (some [0]), some none, some (some [0, 2]), some none, none] := by decide +kernel

/-- C62, leaves of a preorder traversal. -/
theorem C62_preorder_leaves [TreeNode N V] (bad : N → Bool) (n : N) (k : Nat) :
    nthCall (Fail.leavesNext bad) k (Leaves.ofPreorder (Preorder.new n)) =
      (((unfold n).crop bad).leaves.map (replyAt bad val))[k]? := by
  rw [nthCall_spec Fail.LvInv (Fail.lvRem bad) (Fail.leavesNext_spec bad)
    (by simp [Fail.LvInv, Leaves.ofPreorder, Preorder.new]), ← Tree.leaves_map]
  simp [Fail.lvRem, Leaves.ofPreorder, Preorder.new, Fail.repT, Fail.lvTop, Fail.lvBot]

/-- C62, leaves of a postorder traversal. -/
theorem C62_postorder_leaves [TreeNode N V] (bad : N → Bool) (n : N) (k : Nat) :
    nthCall (Fail.leavesNext bad) k (Leaves.ofPostorder (Postorder.new n)) =
      (((unfold n).crop bad).leaves.map (replyAt bad val))[k]? := by
  rw [nthCall_spec Fail.LvInv (Fail.lvRem bad) (Fail.leavesNext_spec bad)
    (by simp [Fail.LvInv, Leaves.ofPostorder, Postorder.new]), ← Tree.leaves_map]
  simp [Fail.lvRem, Leaves.ofPostorder, Postorder.new, Fail.repT, Fail.lvTop, Fail.lvBot]

example : answers (Fail.leavesNext fun t => val t == 3) 5 (Leaves.ofPreorder (Preorder.new sampleTree)) =
    [some none, some (some 4), some (some 5), none, none] := by decide +kernel

/-- C62, leaves of a breadth-first traversal. -/
theorem C62_bfs_leaves [TreeNode N V] (bad : N → Bool) (n : N) (k : Nat) :
    nthCall (Fail.bfsLeavesNext bad) k (Bfs.leaves (Bfs.new n)) =
      ((Tree.onlyLeaves ((unfold n).crop bad).markLeaves.levelOrder).map (replyAt bad val))[k]? := by
  rw [nthCall_spec (fun _ => True) (Fail.bfsLvRem bad)
    (fun s _ => ⟨(Fail.bfsLeavesNext_spec bad s).1, (Fail.bfsLeavesNext_spec bad s).2, trivial⟩) trivial]
  have e : (Tree.onlyLeaves ((unfold n).crop bad).markLeaves.levelOrder).map (replyAt bad val) =
      Tree.onlyLeaves (Fail.repT bad n).markLeaves.levelOrder := by
    rw [Fail.repT, markLeaves_map, Tree.levelOrder_map]
    simp only [Tree.onlyLeaves, List.map_map, List.filter_map]
    rfl
  rw [e, ← bfsF_singleton]
  simp [Fail.bfsLvRem, Fail.markF, Bfs.leaves, Bfs.new]

example : answers (Fail.bfsLeavesNext fun t => val t == 3) 5 (Bfs.leaves (Bfs.new sampleTree)) =
    [some none, some (some 4), some (some 5), none, none] := by decide +kernel

/-- C62, leaves with ancestors of a breadth-first traversal. -/
theorem C62_bfs_leaves_ancestors [TreeNode N V] (bad : N → Bool) (n : N) (h : bad n = false) :
    ∃ s, Bfs.attachAncestors (Bfs.new n) = .ok s ∧ ∀ k, nthCallE (Fail.bfsLeavesAncNext bad) k s =
      .ok ((Tree.onlyLeaves ((unfold n).crop bad).located.markLeaves.levelOrder).map
        (replyPos bad fun p => p.ancestors.map val))[k]? := by
  refine ⟨_, rfl, fun k => ?_⟩
  have e : (Tree.onlyLeaves ((unfold n).crop bad).located.markLeaves.levelOrder).map
      (replyPos bad fun p => p.ancestors.map val) =
      Bfs.lvRem [.node (some [val n]) ((kids n).map (Fail.repA bad [val n]))] := by
    have e1 : Fail.repA bad [] n = .node (some [val n]) ((kids n).map (Fail.repA bad [val n])) := by
      rw [Fail.repA_eq, h]; simp
    rw [← e1, ← Fail.located_repA, Bfs.lvRem, List.map_cons, List.map_nil, bfsF_singleton, markLeaves_map,
      Tree.levelOrder_map]
    simp only [Tree.onlyLeaves, List.map_map, List.filter_map]
    rfl
  rw [e]
  have h0 : Fail.LvAncRel bad (Bfs.AncState.new n)
      (Bfs.lvRem [.node (some [val n]) ((kids n).map (Fail.repA bad [val n]))]) := ⟨val n, kids n, rfl, rfl, rfl⟩
  exact (nthCallE_rel (Fail.LvAncRel bad) (Fail.bfsLeavesAncNext_spec bad) h0 k).1

example : sampleBad sampleTree = false ∧ answersE (Fail.bfsLeavesAncNext fun t => val t == 3) 5 (Bfs.AncState.new sampleTree) =
    some [some none, some (some [0, 1, 4]), some (some [0, 2, 5]), none, none] := by decide +kernel

/-- C62, in-order. -/
theorem C62_inorder [BinNode N V] (bad : N → Bool) (n : N) (k : Nat) :
    nthCall (Fail.inNext bad) k (Inorder.new n) = (((unfold2 n).crop bad).inorder.map (replyAt bad val2))[k]? := by
  rw [nthCall_spec Fail.InInv (Fail.inRem bad) (Fail.inNext_spec bad) (by simp [Fail.InInv, Inorder.new])]
  simp [Fail.inRem, Inorder.new, Fail.inF, Fail.inRemZ]

example : answers (Fail.inNext sampleBadBin) 6 (Inorder.new sampleBin) =
    [some (some 1), some none, some (some 0), some none, none, none] := by decide +kernel

/-- C62, in-order with context, borrowed (and mutably borrowed) nodes. -/
theorem C62_inorder_context [BinNode N V] (bad : N → Bool) (n : N) :
    ∃ s, Inorder.attachContext (Inorder.new n) = .ok s ∧ ∀ k, nthCallE (Fail.inCtxNext bad) k s =
      .ok (((unfold2 n).crop bad).located.inorder.map (replyPos bad Pos.ctx2))[k]? := by
  refine ⟨_, rfl, fun k => ?_⟩
  rw [nthCallE_spec Inorder.CtxInv (Fail.inCtxRem bad) (Fail.inCtxNext_spec bad)
    (by simp [Inorder.CtxInv, Inorder.CtxState.new]), ← BinTree.inorder_map, BinTree.located, Fail.replyPos_withPos2]
  simp [Inorder.CtxState.new, Fail.inCtxRem, Fail.remC, Fail.inC]

example : (answersE (Fail.inCtxNext sampleBadBin) 5 (Inorder.CtxState.new sampleBin [])).map
      (·.map (·.map (·.map Ctx.brief2))) =
    some [some (some ⟨[0], [0, 1], some (false, true)⟩), some none, some (some ⟨[], [0], some (true, true)⟩), some none,
      none] := by decide +kernel

/-- C62, in-order with context, owned nodes. -/
theorem C62_inorder_context_owned [BinNode N V] (bad : N → Bool) (n : N) :
    ∃ s, Inorder.ownAttachContext (Inorder.new n) = .ok s ∧ ∀ k, nthCallE (Fail.inOwnNext bad) k s =
      .ok (((unfold2 n).crop bad).located.inorder.map (replyPos bad fun p => p.ctx2.noChildren))[k]? := by
  refine ⟨_, rfl, fun k => ?_⟩
  obtain ⟨s, hs, hk⟩ := C62_inorder_context bad n
  cases hs
  have := nthCallE_sim (next' := Fail.inOwnNext bad) Inorder.CtxState.own (Option.map Ctx.noChildren)
    (fun s o s1 => Fail.inOwnNext_sim bad s s1 o) k _ _ (hk k)
  have e : (Option.map Ctx.noChildren) ∘ replyPos bad (Pos.ctx2 (N := N) (V := V)) =
      replyPos bad fun p => p.ctx2.noChildren := by
    funext p
    simp only [Function.comp, replyPos]
    split <;> rfl
  rw [← List.getElem?_map, List.map_map, e] at this
  exact this

/-- C62, in-order with ancestors. -/
theorem C62_inorder_ancestors [BinNode N V] (bad : N → Bool) (n : N) :
    ∃ s, Inorder.attachAncestors (Inorder.new n) = .ok s ∧ ∀ k, nthCallE (Fail.inAncNext bad) k s =
      .ok (((unfold2 n).crop bad).located.inorder.map (replyPos bad fun p => p.ancestors.map val2))[k]? := by
  refine ⟨_, rfl, fun k => ?_⟩
  obtain ⟨s, hs, hk⟩ := C62_inorder_context_owned bad n
  cases hs
  have := nthCallE_sim (next' := Fail.inAncNext bad) Inorder.OwnCtxState.anc (Option.map Ctx.ancestors)
    (fun s o s1 => Fail.inAncNext_sim bad s s1 o) k _ _ (hk k)
  have e : (Option.map Ctx.ancestors) ∘ replyPos bad (fun p => (Pos.ctx2 (N := N) (V := V) p).noChildren) =
      replyPos bad fun p => p.ancestors.map val2 := by
    funext p
    simp only [Function.comp, replyPos]
    split <;> rfl
  rw [← List.getElem?_map, List.map_map, e] at this
  exact this

example : answersE (Fail.inAncNext sampleBadBin) 5 (Inorder.AncState.new sampleBin) =
    some [some (some [0, 1]), some none, some (some [0]), some none, none] := by decide +kernel

/-! ## Switching to another iterator after a caught panic -/

/-- The nodes still to be visited. -/
def preNodes [TreeNode N V] (bad : N → Bool) (s : Preorder.State N) : List N :=
  (s.root.toList ++ s.stack.flatten).flatMap fun m => ((unfold m).crop bad).preorder

theorem crop_preorder [TreeNode N V] (bad : N → Bool) (n : N) :
    ((unfold n).crop bad).preorder =
      n :: if bad n then [] else (kids n).flatMap fun c => ((unfold c).crop bad).preorder := by
  rw [unfold_eq, Tree.crop, Tree.cropL_eq, Tree.preorder_node]
  split <;> simp [List.flatMap_map]

theorem preNodes_next [TreeNode N V] (bad : N → Bool) (s : Preorder.State N) :
    preNodes bad (Fail.preNext bad s).2 = (preNodes bad s).tail ∧ (Fail.preNext bad s).2.root = none := by
  obtain ⟨root, stack⟩ := s
  cases root with
  | some r => by_cases h : bad r <;> simp [Fail.preNext, preNodes, crop_preorder bad r, h]
  | none =>
    induction stack with
    | nil => simp [Fail.preNext, preNodes, Preorder.loop]
    | cons ns rest ih =>
      cases ns with
      | nil => simpa [Fail.preNext, preNodes, Preorder.loop] using ih
      | cons n ns => by_cases h : bad n <;> simp [Fail.preNext, preNodes, Preorder.loop, crop_preorder bad n, h]

theorem preNodes_after [TreeNode N V] (bad : N → Bool) (k : Nat) : ∀ s : Preorder.State N,
    preNodes bad (stateAfter (Fail.preNext bad) k s) = (preNodes bad s).drop k ∧
      (k ≠ 0 → (stateAfter (Fail.preNext bad) k s).root = none) := by
  induction k with
  | zero => intro s; simp [stateAfter]
  | succ k ih =>
    intro s
    refine ⟨?_, fun _ => ?_⟩
    · rw [stateAfter, (ih _).1, (preNodes_next bad s).1, List.drop_tail]
    · cases k with
      | zero => exact (preNodes_next bad s).2
      | succ k => exact (ih _).2 (Nat.succ_ne_zero k)

/-- C62, `leaves()` in the middle of a preorder traversal, with panics caught before and after it.  `pending` are the nodes
whose subtrees have not been entered: the traversal would have gone on with just these.  Each bad node among and below them
panics once; the others give their leaves, except that a pending leaf is lost (C18). -/
theorem C62_preorder_leaves_mid [TreeNode N V] (bad : N → Bool) (n : N) (k : Nat) :
    ∃ pending : List N,
      ((unfold n).crop bad).preorder.drop (k + 1) = pending.flatMap (fun m => ((unfold m).crop bad).preorder) ∧
      ∀ i, nthCall (Fail.leavesNext bad) i
          (Leaves.ofPreorder (stateAfter (Fail.preNext bad) (k + 1) (Preorder.new n))) =
        (pending.flatMap fun m =>
          if bad m then [none]
          else (kids m).flatMap fun c => ((unfold c).crop bad).leaves.map (replyAt bad val))[i]? := by
  obtain ⟨h1, h2⟩ := preNodes_after bad (k + 1) (Preorder.new n)
  refine ⟨(stateAfter (Fail.preNext bad) (k + 1) (Preorder.new n)).stack.flatten, ?_, fun i => ?_⟩
  · have e : preNodes bad (Preorder.new n) = ((unfold n).crop bad).preorder := by simp [preNodes, Preorder.new]
    rw [← e, ← h1, preNodes, h2 (Nat.succ_ne_zero k)]
    rfl
  · rw [nthCall_spec Fail.LvInv (Fail.lvRem bad) (Fail.leavesNext_spec bad) (by simp [Fail.LvInv, Leaves.ofPreorder])]
    simp only [Fail.lvRem, Leaves.ofPreorder, h2 (Nat.succ_ne_zero k), Fail.lvTop, List.flatMap_nil, List.nil_append,
      Fail.lvBot, ← Tree.leaves_map, Fail.repT]
    simp only [List.flatMap_def, List.map_flatten, List.flatten_flatten, List.map_map, Function.comp_def]

/-- After 0 has been visited, 1 panics and so does 5, the leaf below 2. -/
example : answers (Fail.leavesNext sampleBad) 3
    (Leaves.ofPreorder (stateAfter (Fail.preNext sampleBad) 1 (Preorder.new sampleTree))) =
    [some none, some none, none] := by decide +kernel

/-- After 0 and the panic at 9, the leaf 2 is lost, 4 is found and 9 panics. -/
example : answers (Fail.leavesNext badNine) 3
    (Leaves.ofPreorder (stateAfter (Fail.preNext badNine) 2
      (Preorder.new (.node 0 [.node 9 [], .node 2 [], .node 3 [.node 4 []], .node 9 []] : Tree Nat)))) =
    [some (some 4), some none, none] := by decide +kernel

/-- C62: a call that panicked counts as an advance: context and ancestors can no longer be attached. -/
theorem C62_preorder_attach [TreeNode N V] (bad : N → Bool) (n : N) (k : Nat) :
    Preorder.attachContext (V := V) (stateAfter (Fail.preNext bad) (k + 1) (Preorder.new n)) = .error .attachMidTraversal ∧
      Preorder.attachAncestors (V := V) (stateAfter (Fail.preNext bad) (k + 1) (Preorder.new n)) =
        .error .attachMidTraversal := by
  have h := (preNodes_after bad (k + 1) (Preorder.new n)).2 (Nat.succ_ne_zero k)
  exact ⟨by rw [Preorder.attachContext, h], by rw [Preorder.attachAncestors, h]⟩

/-- C62, attaching to a postorder iterator after a call that may have panicked. -/
theorem C62_postorder_attach [TreeNode N V] (bad : N → Bool) (n : N) (k : Nat) :
    Postorder.attachContext (stateAfter (Fail.postNext bad) (k + 1) (Postorder.new (V := V) n)) =
        .error .attachMidTraversal ∧
      Postorder.attachAncestors (stateAfter (Fail.postNext bad) (k + 1) (Postorder.new (V := V) n)) =
        .error .attachMidTraversal := by
  have h := (stateAfter_flag (Fail.postNext (V := V) bad) (fun s => s.root = none) (fun s => by
    rw [Fail.postNext]
    repeat' split
    all_goals rfl) (Postorder.new n) (by simp [Postorder.new]) (k + 1)).2 (Nat.succ_ne_zero k)
  exact ⟨by rw [Postorder.attachContext, h], by rw [Postorder.attachAncestors, h]⟩

/-- C62, attaching to a breadth-first iterator after a call that may have panicked. -/
theorem C62_bfs_attach [TreeNode N V] (bad : N → Bool) (n : N) (k : Nat) :
    Bfs.attachContext (V := V) (stateAfter (Fail.bfsNext bad) (k + 1) (Bfs.new n)) = .error .attachMidTraversal ∧
      Bfs.attachAncestors (V := V) (stateAfter (Fail.bfsNext bad) (k + 1) (Bfs.new n)) = .error .attachMidTraversal := by
  have h0 : ∀ q : List (List N), (Fail.bfsLoop (V := V) bad q).2.root = none := by
    intro q
    fun_induction Fail.bfsLoop (V := V) bad q <;> simp_all
  have h := (stateAfter_flag (Fail.bfsNext (V := V) bad) (fun s => s.root = none) (fun s => by
    rw [Fail.bfsNext]
    repeat' split
    all_goals first | rfl | exact h0 _) (Bfs.new n) (by simp [Bfs.new]) (k + 1)).2 (Nat.succ_ne_zero k)
  exact ⟨by rw [Bfs.attachContext, h], by rw [Bfs.attachAncestors, h]⟩

/-- C62, attaching to an in-order iterator after a call that may have panicked. -/
theorem C62_inorder_attach [BinNode N V] (bad : N → Bool) (n : N) (k : Nat) :
    Inorder.attachContext (stateAfter (Fail.inNext bad) (k + 1) (Inorder.new (V := V) n)) = .error .attachMidTraversal ∧
      Inorder.ownAttachContext (stateAfter (Fail.inNext bad) (k + 1) (Inorder.new (V := V) n)) =
        .error .attachMidTraversal ∧
      Inorder.attachAncestors (stateAfter (Fail.inNext bad) (k + 1) (Inorder.new (V := V) n)) =
        .error .attachMidTraversal := by
  have h := (stateAfter_flag (Fail.inNext (V := V) bad) (fun s => s.moved = true) (fun s => by
    rw [Fail.inNext]
    repeat' split
    all_goals rfl) (Inorder.new n) (by simp [Inorder.new]) (k + 1)).2 (Nat.succ_ne_zero k)
  exact ⟨by rw [Inorder.attachContext, h], by rw [Inorder.ownAttachContext, h], by rw [Inorder.attachAncestors, h]⟩

/-- The first call panics at the root, and then the context is refused. -/
example : nthCall (Fail.preNext badNine) 0 (Preorder.new (.node 9 [] : Tree Nat)) = some none ∧
    (Preorder.attachContext (V := Nat) (stateAfter (Fail.preNext badNine) 1 (Preorder.new (.node 9 [] : Tree Nat)))).toBool =
      false := by decide +kernel

/-! ## The iterators that do not

For each a tree on which the replies after the first panic are wrong, and what is true of every tree: the replies up to and
including the first panic are right.  What comes after it is in `Props/FailAfter`. -/

/-- C62 fails for postorder with ancestors: the next slice lacks the root and the root is never answered. -/
theorem C62_postorder_ancestors_false :
    answers (Fail.postAncNext badNine) 4
        (Postorder.AncState.new (.node 0 [.node 1 [], .node 9 [], .node 3 []] : Tree Nat)) =
      [some (some [0, 1]), some none, some (some [3]), none] ∧
    ((unfold (.node 0 [.node 1 [], .node 9 [], .node 3 []] : Tree Nat)).crop badNine).located.postorder.map
        (replyPos badNine fun p => p.ancestors.map val) =
      [some [0, 1], none, some [0, 3], some [0]] := by decide +kernel

/-- C62, postorder with ancestors, up to the first panic. -/
theorem C62_postorder_ancestors_partial [TreeNode N V] (bad : N → Bool) (n : N) :
    ∃ s, Postorder.attachAncestors (Postorder.new n) = .ok s ∧
      ∀ l, l = ((unfold n).crop bad).located.postorder.map (replyPos bad fun p => p.ancestors.map val) →
        ∀ k, (∀ j < k, l[j]? ≠ some none) → nthCall (Fail.postAncNext bad) k s = l[k]? := by
  refine ⟨_, rfl, ?_⟩
  rintro l rfl k hk
  rw [← Tree.postorder_map, ← Fail.located_repL, Tree.postorder_map, Tree.postorder_map] at hk ⊢
  obtain ⟨c, hc, hl⟩ := C07_postorder_ancestors (Fail.Crop.mk n : Fail.Crop bad)
  cases hc
  exact Fail.nthCall_until_fail (Fail.repL bad) (Fail.PostAncR bad) (Fail.postAnc_step bad) k _ _
    ⟨rfl, by simp [Postorder.AncState.new]⟩ _ hl hk

example : ∀ j < 1, ([some [0, 1], none, some [0, 3], some [0]] : List (Option (List Nat)))[j]? ≠ some none := by decide

/-- C62 fails for postorder with context: every later answer lacks an ancestor (and is taken for another node), and the
root is never answered. -/
theorem C62_postorder_context_false :
    (answersE (Fail.postCtxNext badNine) 5
        (Postorder.CtxState.new (.node 0 [.node 1 [.node 9 [], .node 2 []], .node 3 []] : Tree Nat) [])).map
        (·.map (·.map (·.map Ctx.brief))) =
      some [some none, some (some ⟨[0, 1], [0, 2], some 0⟩), some (some ⟨[0], [0], some 2⟩), none, none] ∧
    (((unfold (.node 0 [.node 1 [.node 9 [], .node 2 []], .node 3 []] : Tree Nat)).crop badNine).located.postorder.map
        (replyPos badNine Pos.ctx)).map (·.map Ctx.brief) =
      [none, some ⟨[0, 1], [0, 1, 2], some 0⟩, some ⟨[0], [0, 1], some 2⟩, some ⟨[1], [0, 3], some 0⟩,
        some ⟨[], [0], some 2⟩] := by decide +kernel

/-- In a deeper tree 5 is answered as a child of the root and 1 as the root; 3 and the root are lost. -/
example : (answersE (Fail.postCtxNext badNine) 6
      (Postorder.CtxState.new
        (.node 0 [.node 1 [.node 4 [.node 9 [], .node 2 []], .node 5 []], .node 3 []] : Tree Nat) [])).map
      (·.map (·.map (·.map Ctx.brief))) =
    some [some none, some (some ⟨[0, 0, 1], [0, 1, 2], some 0⟩), some (some ⟨[0, 0], [0, 1], some 2⟩),
      some (some ⟨[0, 1], [0, 5], some 0⟩), some (some ⟨[0], [0], some 2⟩), none] := by decide +kernel

/-- C62, postorder with context, up to the first panic. -/
theorem C62_postorder_context_partial [TreeNode N V] (bad : N → Bool) (n : N) (h : ArityOk n) :
    ∃ s, Postorder.attachContext (Postorder.new n) = .ok s ∧
      ∀ l, l = ((unfold n).crop bad).located.postorder.map (replyPos bad Pos.ctx) →
        ∀ k, (∀ j < k, l[j]? ≠ some none) → nthCallE (Fail.postCtxNext bad) k s = .ok l[k]? := by
  refine ⟨_, rfl, ?_⟩
  rintro l rfl k hk
  rw [← Tree.postorder_map, ← Fail.located_repC, Tree.postorder_map, Tree.postorder_map] at hk ⊢
  obtain ⟨c, hc, hl⟩ := C12_postorder_context (Fail.Crop.mk n : Fail.Crop bad) (Fail.arityOk_crop bad n h)
  cases hc
  exact Fail.nthCallE_until_fail (Fail.repC bad) (Fail.PostCtxR bad) (Fail.postCtx_step bad) k _ _
    ⟨rfl, by simp [Postorder.CtxState.new]⟩ _ hl hk

example : ArityOk sampleTree := sampleTree_arity

/-- C62 fails for preorder with context: the sibling after the bad node is answered without its parent, and the one after
two bad nodes is never visited. -/
theorem C62_preorder_context_false :
    (answersE (Fail.preCtxNext badNine) 4
        (Preorder.CtxState.new (.node 0 [.node 9 [], .node 1 []] : Tree Nat) [])).map (·.map (·.map (·.map Ctx.brief))) =
      some [some (some ⟨[], [0], some 2⟩), some none, some (some ⟨[1], [1], some 0⟩), none] ∧
    (answersE (Fail.preCtxNext badNine) 5
        (Preorder.CtxState.new (.node 0 [.node 9 [], .node 9 [], .node 1 []] : Tree Nat) [])).map
          (·.map (·.map (·.map Ctx.brief))) =
      some [some (some ⟨[], [0], some 3⟩), some none, some none, none, none] := by decide +kernel

/-- C62, preorder with context, up to the first panic. -/
theorem C62_preorder_context_partial [TreeNode N V] (bad : N → Bool) (n : N) (h : ArityOk n) :
    ∃ s, Preorder.attachContext (Preorder.new n) = .ok s ∧
      ∀ l, l = ((unfold n).crop bad).located.preorder.map (replyPos bad Pos.ctx) →
        ∀ k, (∀ j < k, l[j]? ≠ some none) → nthCallE (Fail.preCtxNext bad) k s = .ok l[k]? := by
  refine ⟨_, rfl, ?_⟩
  rintro l rfl k hk
  rw [← Tree.preorder_map, ← Fail.located_repC, Tree.preorder_map, Tree.preorder_map] at hk ⊢
  obtain ⟨c, hc, hl⟩ := C10_preorder_context (Fail.Crop.mk n : Fail.Crop bad) (Fail.arityOk_crop bad n h)
  cases hc
  exact Fail.nthCallE_until_fail (Fail.repC bad) (Fail.PreCtxR bad) (Fail.preCtx_step bad) k _ _
    ⟨rfl, by simp [Preorder.CtxState.new]⟩ _ hl hk

example := C62_preorder_context_partial sampleBad sampleTree sampleTree_arity

/-- C62 fails for binary preorder with context in the same way. -/
theorem C62_preorder_context_binary_false :
    (answersE (Fail.preBinCtxNext badNineBin) 4
        (Preorder.BinCtxState.new (.node 0 (some (.node 9 none none)) (some (.node 1 none none)) : BinTree Nat) [])).map
          (·.map (·.map (·.map Ctx.brief2))) =
      some [some (some ⟨[], [0], some (true, true)⟩), some none, some (some ⟨[1], [1], some (false, false)⟩), none] ∧
    (((unfold2 (.node 0 (some (.node 9 none none)) (some (.node 1 none none)) : BinTree Nat)).crop
        badNineBin).located.toTree.preorder.map (replyPos badNineBin Pos.ctx2)).map (·.map Ctx.brief2) =
      [some ⟨[], [0], some (true, true)⟩, none, some ⟨[1], [0, 1], some (false, false)⟩] := by decide +kernel

/-- C62, binary preorder with context, up to the first panic. -/
theorem C62_preorder_context_binary_partial [BinNode N V] (bad : N → Bool) (n : N) :
    ∃ s, Preorder.binAttachContext (Preorder.new n) = .ok s ∧
      ∀ l, l = ((unfold2 n).crop bad).located.toTree.preorder.map (replyPos bad Pos.ctx2) →
        ∀ k, (∀ j < k, l[j]? ≠ some none) → nthCallE (Fail.preBinCtxNext bad) k s = .ok l[k]? := by
  refine ⟨_, rfl, ?_⟩
  rintro l rfl k hk
  rw [← Tree.preorder_map, ← BinTree.toTree_map, ← Fail.located_repC2, BinTree.toTree_map, Tree.preorder_map,
    BinTree.toTree_map, Tree.preorder_map] at hk ⊢
  obtain ⟨c, hc, hl⟩ := C11_preorder_context_binary (Fail.CropB.mk n : Fail.CropB bad)
  cases hc
  exact Fail.nthCallE_until_fail (Fail.repC2 bad) (Fail.PreBinCtxR bad) (Fail.preBinCtx_step bad) k _ _
    ⟨rfl, by simp [Preorder.BinCtxState.new]⟩ _ hl hk

/-- C62 fails for breadth-first contexts: every call after the first panic panics too. -/
theorem C62_bfs_context_false :
    (List.range 5).map (fun k => (nthCallE (Fail.bfsCtxNext badNine) k
        (Bfs.CtxState.new (.node 0 [.node 9 [], .node 1 []] : Tree Nat) [])).toOption.map (·.map (·.map Ctx.brief))) =
      [some (some (some ⟨[], [0], some 2⟩)), some (some none), none, none, none] ∧
    (((unfold (.node 0 [.node 9 [], .node 1 []] : Tree Nat)).crop badNine).located.levelOrder.map
        (replyPos badNine Pos.ctx)).map (·.map Ctx.brief) =
      [some ⟨[], [0], some 2⟩, none, some ⟨[1], [0, 1], some 0⟩] := by decide +kernel

/-- The start states are related. -/
theorem bfsCtxR_new [TreeNode N V] (bad : N → Bool) (n : N) (hb : bad n = false) :
    Fail.BfsCtxR bad (Bfs.CtxState.new (Fail.Crop.mk n : Fail.Crop bad) []) (Bfs.CtxState.new (V := V) n []) := by
  refine ⟨?_, ?_⟩
  · have := Fail.kids_good (Fail.Crop.mk n : Fail.Crop bad) hb
    simp only [Bfs.CtxState.new, Bfs.CtxState.mapG, Bfs.CtxCache.map, Option.map_some, this, Fail.val_crop]
    simp [Bfs.Cache.map, Bfs.Cache.mapL]
  · simp [Bfs.CtxState.new, Fail.val_crop, hb]

/-- C62, breadth-first with context, up to the first panic.  `attach_context` calls the user's code for the root. -/
theorem C62_bfs_context_partial [TreeNode N V] (bad : N → Bool) (n : N) (h : ArityLt n) (hb : bad n = false) :
    ∃ s, Bfs.attachContext (Bfs.new n) = .ok s ∧
      ∀ l, l = ((unfold n).crop bad).located.levelOrder.map (replyPos bad Pos.ctx) →
        ∀ k, (∀ j < k, l[j]? ≠ some none) → nthCallE (Fail.bfsCtxNext bad) k s = .ok l[k]? := by
  refine ⟨_, rfl, ?_⟩
  rintro l rfl k hk
  rw [← Tree.levelOrder_map, ← Fail.located_repC, Tree.levelOrder_map, Tree.levelOrder_map] at hk ⊢
  obtain ⟨c, hc, hl⟩ := C14_bfs_context (Fail.Crop.mk n : Fail.Crop bad) (Fail.arityLt_crop bad n h)
  cases hc
  exact Fail.nthCallE_until_fail (Fail.repC bad) (Fail.BfsCtxR bad) (Fail.bfsCtx_step bad) k _ _ (bfsCtxR_new bad n hb) _
    hl hk

example := C62_bfs_context_partial sampleBad sampleTree sampleTree_arityLt rfl

/-- C62 fails for breadth-first contexts on every tree: after the first panic the iterator is in a state in which `next`
panics at an `unwrap` before it has changed anything. -/
theorem C62_bfs_context_dead [TreeNode N V] (bad : N → Bool) (n : N) (h : ArityLt n) (hb : bad n = false) (k : Nat)
    (l : List (Option (Ctx V (List N))))
    (hl : l = ((unfold n).crop bad).located.levelOrder.map (replyPos bad Pos.ctx))
    (hk : ∀ j < k, l[j]? ≠ some none) (hlk : l[k]? = some none) :
    ∃ s s', Bfs.attachContext (Bfs.new n) = .ok s ∧ stateAfterE (Fail.bfsCtxNext bad) (k + 1) s = .ok s' ∧
      Fail.bfsCtxNext bad s' = .error .unwrapNone := by
  have hl0 := hl
  rw [← Tree.levelOrder_map, ← Fail.located_repC, Tree.levelOrder_map, Tree.levelOrder_map] at hl
  obtain ⟨c, hc, hcl⟩ := C14_bfs_context (Fail.Crop.mk n : Fail.Crop bad) (Fail.arityLt_crop bad n h)
  cases hc
  rw [hl] at hk hlk
  obtain ⟨c1, c2, s1, s2, e1, e2, e3, e4⟩ := Fail.stateAfterE_until_fail (Fail.repC bad) (Fail.BfsCtxR bad)
    (Fail.bfsCtx_step bad) k _ _ (bfsCtxR_new bad n hb) _ hcl hk
  refine ⟨_, s2, rfl, e3, ?_⟩
  rw [hlk] at e4
  rw [List.getElem?_map] at e2 hlk
  cases hp : (unfold (Fail.Crop.mk n : Fail.Crop bad)).located.levelOrder[k]? with
  | none => rw [List.getElem?_map, hp] at hlk; cases hlk
  | some p =>
    rw [hp] at e2
    obtain ⟨h1, h2, h3⟩ := Fail.bfsCtx_failed bad _ _ _ _ _ e1 e2 e4
    refine Fail.bfsCtx_dead bad s2 h1 ?_ h2
    obtain ⟨q1, q2⟩ := (mem_located (Fail.Crop.mk n : Fail.Crop bad) p).1
      ((levelOrder_perm_preorder _).mem_iff.1 (List.mem_of_getElem? hp))
    obtain ⟨q3, q4, -⟩ := alongN_get _ _ _ q1
    have hpath : p.path ≠ [] := by
      intro he
      rw [List.getElem?_map, hp] at hlk
      rw [he] at q1
      have q5 : Fail.Crop.mk n = p.item := Option.some.inj q1
      rw [← q2] at q4
      simp [Fail.repC, Pos.ctx, q4, ← q5, Fail.val_crop, hb] at hlk
    have h4 := List.length_pos_iff.2 hpath
    intro he
    have h5 : p.ctx.ancestors.length = p.path.length + 1 := by rw [← q3, ← q2]; simp [Pos.ctx]
    rw [he, List.length_nil] at h3
    omega

example : ArityLt sampleTree ∧ sampleBad sampleTree = false ∧
    (((unfold sampleTree).crop sampleBad).located.levelOrder.map (replyPos sampleBad Pos.ctx)).map (·.map Ctx.brief) =
      [some ⟨[], [0], some 2⟩, none, some ⟨[1], [0, 2], some 1⟩, none] :=
  ⟨sampleTree_arityLt, by decide +kernel, by decide +kernel⟩

/-- C62 fails for the leaves with ancestors of a depth-first traversal: the next slice lacks the root. -/
theorem C62_leaves_ancestors_false :
    answers (Fail.leavesAncNext badNine) 4
        (Leaves.ofPreorderAnc (Preorder.AncState.new (.node 0 [.node 1 [], .node 9 [], .node 3 []] : Tree Nat))) =
      [some (some [0, 1]), some none, some (some [3]), none] ∧
    ((unfold (.node 0 [.node 1 [], .node 9 [], .node 3 []] : Tree Nat)).crop badNine).located.leaves.map
        (replyPos badNine fun p => p.ancestors.map val) =
      [some [0, 1], none, some [0, 3]] := by decide +kernel

/-- C62, leaves with ancestors of a preorder traversal, up to the first panic. -/
theorem C62_leaves_ancestors_partial [TreeNode N V] (bad : N → Bool) (n : N) :
    ∃ s, Preorder.attachAncestors (Preorder.new n) = .ok s ∧
      ∀ l, l = ((unfold n).crop bad).located.leaves.map (replyPos bad fun p => p.ancestors.map val) →
        ∀ k, (∀ j < k, l[j]? ≠ some none) → nthCall (Fail.leavesAncNext bad) k (Leaves.ofPreorderAnc s) = l[k]? := by
  refine ⟨_, rfl, ?_⟩
  rintro l rfl k hk
  rw [← Tree.leaves_map, ← Fail.located_repL, Tree.leaves_map, Tree.leaves_map] at hk ⊢
  obtain ⟨c, hc, hl⟩ := C20_preorder_leaves_ancestors (Fail.Crop.mk n : Fail.Crop bad)
  cases hc
  exact Fail.nthCall_until_fail (Fail.repL bad) (Fail.LvAncR bad) (Fail.leavesAnc_step bad) k _ _
    ⟨rfl, by simp [Leaves.ofPreorderAnc, Preorder.AncState.new]⟩ _ hl hk

end TreeIter
