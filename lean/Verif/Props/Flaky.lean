import Verif.Lemmas.Flaky
import Verif.Props.Fail
import Verif.Props.Samples

/-!
# C79: going on after the `next` of a child iterator panicked and the panic was caught

`pollTree` is the tree of what the calls of `next` do; a call that panics is a leaf `none` of it.
-/

universe u v

namespace TreeIter

namespace Flaky

variable {N : Type u} {V : Type v} [FlakyNode N V]

/-- Every child iterator is asked at most `2 ^ 64` times (cf. `ArityOk`). -/
def CallsOk (n : N) : Prop := ∀ m, some m ∈ (pollTree (some n)).preorder → (callsF m).length ≤ 2 ^ 64

/-- Every child iterator is asked fewer than `2 ^ 64` times (cf. `ArityLt`). -/
def CallsLt (n : N) : Prop := ∀ m, some m ∈ (pollTree (some n)).preorder → (callsF m).length < 2 ^ 64

omit [FlakyNode N V] in
theorem ghost_arity [FlakyNode N V] (d : V) (n : N) (h : CallsOk n) : @ArityOk _ _ (ghost (N := N) d) (some n) := by
  intro m hm
  rw [unfold_ghost] at hm
  cases m with
  | none => exact Nat.zero_le _
  | some m => exact h m hm

omit [FlakyNode N V] in
theorem ghost_arityLt [FlakyNode N V] (d : V) (n : N) (h : CallsLt n) : @ArityLt _ _ (ghost (N := N) d) (some n) := by
  intro m hm
  rw [unfold_ghost] at hm
  cases m with
  | none => exact Nat.pos_of_ne_zero (by simp)
  | some m => exact h m hm

theorem crop_isNone (o : Option N) : (pollTree o).crop Option.isNone = pollTree o :=
  crop_pollTree _ (fun _ => rfl) o

end Flaky

/-- A tree in which a child with value 9 is a call of `next` that panics. -/
@[reducible] def nineFlaky : FlakyNode (Tree Nat) Nat where
  splitF t := match t with | .node a cs => (a, cs.map fun c => if val c == 9 then none else some c)
  sizeF := Tree.size
  sizeF_lt := by
    rintro ⟨a, cs⟩ c h
    simp only [List.mem_map] at h
    obtain ⟨d, hd, h⟩ := h
    split at h
    · cases h
    · obtain rfl : d = c := by simpa using h
      exact TreeNode.size_lt (n := (Tree.node a cs)) hd

/-- `0` with a child `1` (children `3`, a panic, `4`), a panic and a child `2` (a panic, child `5`). -/
def flakySample : Tree Nat :=
  .node 0 [.node 1 [.node 3 [], .node 9 [], .node 4 []], .node 9 [], .node 2 [.node 9 [], .node 5 []]]

/-- `0` with a child `1` (a panic, child `3`), a child `2` (child `6`) and a child `7`. -/
def flakyWide : Tree Nat :=
  .node 0 [.node 1 [.node 9 [], .node 3 []], .node 2 [.node 6 []], .node 7 []]

section
attribute [local instance] nineFlaky

example : (pollTree (some flakySample)).preorder.map (Option.map valF) =
    [some 0, some 1, some 3, none, some 4, none, some 2, none, some 5] := by decide +kernel

end

variable {N : Type u} {V : Type v} [FlakyNode N V]

/-! ## The iterators that survive -/

/-- C79, preorder: a call whose `next` panics takes the place of one child; every other node is given as before. -/
theorem C79_preorder (n : N) (k : Nat) :
    nthCall Flaky.preNext k (Flaky.Pre.new n) = ((pollTree (some n)).preorder.map (Option.map valF))[k]? := by
  have h := @C62_preorder _ _ (Flaky.ghost (valF n)) Option.isNone (some n) k
  rw [Flaky.unfold_ghost, Flaky.crop_isNone, Flaky.replyAt_ghost] at h
  rw [Flaky.nthCall_enc Flaky.Pre.enc (Flaky.preNext_enc (valF n)), ← h]
  rfl

/-- C79, postorder. -/
theorem C79_postorder (n : N) (k : Nat) :
    nthCall Flaky.postNext k (Flaky.Post.new n) = ((pollTree (some n)).postorder.map (Option.map valF))[k]? := by
  have h := @C62_postorder _ _ (Flaky.ghost (valF n)) Option.isNone (some n) k
  rw [Flaky.unfold_ghost, Flaky.crop_isNone, Flaky.replyAt_ghost] at h
  rw [Flaky.nthCall_enc Flaky.Post.enc (Flaky.postNext_enc (valF n)), ← h]
  rfl

/-- C79, breadth-first. -/
theorem C79_bfs (n : N) (k : Nat) :
    nthCall Flaky.bfsNext k (Flaky.Wide.new n) = ((pollTree (some n)).levelOrder.map (Option.map valF))[k]? := by
  have h := @C62_bfs _ _ (Flaky.ghost (valF n)) Option.isNone (some n) k
  rw [Flaky.unfold_ghost, Flaky.crop_isNone, Flaky.replyAt_ghost] at h
  rw [Flaky.nthCall_enc Flaky.Wide.enc (Flaky.bfsNext_enc (valF n)), ← h]
  rfl

/-- C79, leaves of a preorder traversal. -/
theorem C79_preorder_leaves (n : N) (k : Nat) :
    nthCall Flaky.leavesNext k (Flaky.Pre.leaves (Flaky.Pre.new n)) =
      ((pollTree (some n)).leaves.map (Option.map valF))[k]? := by
  have h := @C62_preorder_leaves _ _ (Flaky.ghost (valF n)) Option.isNone (some n) k
  rw [Flaky.unfold_ghost, Flaky.crop_isNone, Flaky.replyAt_ghost] at h
  rw [Flaky.nthCall_enc Flaky.Lv.enc (Flaky.leavesNext_enc (valF n)), ← h]
  rfl

/-- C79, leaves of a postorder traversal. -/
theorem C79_postorder_leaves (n : N) (k : Nat) :
    nthCall Flaky.leavesNext k (Flaky.Post.leaves (Flaky.Post.new n)) =
      ((pollTree (some n)).leaves.map (Option.map valF))[k]? := by
  have h := @C62_postorder_leaves _ _ (Flaky.ghost (valF n)) Option.isNone (some n) k
  rw [Flaky.unfold_ghost, Flaky.crop_isNone, Flaky.replyAt_ghost] at h
  rw [Flaky.nthCall_enc Flaky.Lv.enc (Flaky.leavesNext_enc (valF n)), ← h]
  rfl

/-- C79, preorder with ancestors. -/
theorem C79_preorder_ancestors (n : N) :
    ∃ s, Flaky.Pre.attachAncestors (Flaky.Pre.new n) = .ok s ∧ ∀ k, nthCall Flaky.preAncNext k s =
      ((pollTree (some n)).located.preorder.map Pos.sliceF)[k]? := by
  refine ⟨_, rfl, fun k => ?_⟩
  obtain ⟨s, hs, h⟩ := @C62_preorder_ancestors _ _ (Flaky.ghost (valF n)) Option.isNone (some n)
  cases hs
  specialize h k
  rw [Flaky.unfold_ghost, Flaky.crop_isNone, ← Tree.preorder_map, Flaky.slice_ghost, Tree.preorder_map] at h
  rw [Flaky.nthCall_enc Flaky.PreAnc.enc (Flaky.preAncNext_enc (valF n)), ← h]
  rfl

/-- C79, breadth-first with ancestors, up to the first `None`. -/
theorem C79_bfs_ancestors (n : N) :
    ∃ s, Flaky.Wide.attachAncestors (Flaky.Wide.new n) = .ok s ∧ ∀ k, k ≤ (pollTree (some n)).size →
      nthCallE Flaky.bfsAncNext k s = .ok ((pollTree (some n)).located.levelOrder.map Pos.sliceF)[k]? := by
  refine ⟨_, rfl, fun k hk => ?_⟩
  obtain ⟨s, hs, h⟩ := @C62_bfs_ancestors _ _ (Flaky.ghost (valF n)) Option.isNone (some n) rfl
  cases hs
  specialize h k
  rw [Flaky.unfold_ghost, Flaky.crop_isNone, ← Tree.levelOrder_map, Flaky.slice_ghost, Tree.levelOrder_map] at h
  rw [← h hk, ← funext (Flaky.bfsAncNext_enc (valF n))]
  rfl

section
attribute [local instance] nineFlaky

example : answers Flaky.preNext 10 (Flaky.Pre.new flakySample) =
    [some (some 0), some (some 1), some (some 3), some none, some (some 4), some none, some (some 2), some none,
      some (some 5), none] := by decide +kernel

example : answers Flaky.postNext 10 (Flaky.Post.new flakySample) =
    [some (some 3), some none, some (some 4), some (some 1), some none, some none, some (some 5), some (some 2),
      some (some 0), none] := by decide +kernel

example : answers Flaky.bfsNext 10 (Flaky.Wide.new flakySample) =
    [some (some 0), some (some 1), some none, some (some 2), some (some 3), some none, some (some 4), some none,
      some (some 5), none] := by decide +kernel

example : answers Flaky.leavesNext 7 (Flaky.Pre.leaves (Flaky.Pre.new flakySample)) =
    [some (some 3), some none, some (some 4), some none, some none, some (some 5), none] := by decide +kernel

example : answers Flaky.preAncNext 5 (⟨some flakySample, [], []⟩ : Flaky.PreAnc (Tree Nat) Nat) =
    [some (some [0]), some (some [0, 1]), some (some [0, 1, 3]), some none, some (some [0, 1, 4])] := by
  decide +kernel

end

/-! ## Leaves of a breadth-first traversal -/

/-- C79 is false of the leaves of a breadth-first traversal: the first call of `next` is made by `peek` before the child
iterator is stored, so that its panic loses the node with everything below it.  Here the `5` below the `2` is lost. -/
theorem C79_bfs_leaves_false :
    @answers _ _ (@Flaky.bfsLeavesNext _ _ nineFlaky) 7 (Flaky.Wide.leaves (Flaky.Wide.new flakySample)) =
      [some none, some none, some (some 3), some none, some (some 4), none, none] ∧
    (Tree.onlyLeaves (@pollTree _ _ nineFlaky (some flakySample)).markLeaves.levelOrder).map
        (Option.map (@valF _ _ nineFlaky)) =
      [none, some 3, none, some 4, none, some 5] := by decide +kernel

/-- C79, leaves of a breadth-first traversal: a node whose child iterator panics at the first call is lost with everything
below it; its place in the order is taken by the panic. -/
theorem C79_bfs_leaves (n : N) (k : Nat) :
    nthCall Flaky.bfsLeavesNext k (Flaky.Wide.leaves (Flaky.Wide.new n)) =
      ((Tree.onlyLeaves ((pollTree (some n)).crop lostF).markLeaves.levelOrder).map
        fun o => if lostF o then none else o.map valF)[k]? := by
  have h := @C62_bfs_leaves _ _ (Flaky.ghost (valF n)) lostF (some n) k
  rw [Flaky.unfold_ghost] at h
  have e : (replyAt lostF (@val _ _ (Flaky.ghost (N := N) (valF n)).toSplitNode)) =
      fun o => if lostF o then none else o.map valF := by
    funext o
    cases o <;> rfl
  rw [e] at h
  rw [Flaky.nthCall_enc Flaky.WideLv.enc (Flaky.bfsLeavesNext_enc (valF n)), ← h]
  rfl

/-- C79, leaves of a breadth-first traversal if no child iterator panics at its first call: nothing is lost. -/
theorem C79_bfs_leaves_partial (n : N) (h : ∀ m, some m ∈ (pollTree (some n)).preorder → firstPanics m = false)
    (k : Nat) :
    nthCall Flaky.bfsLeavesNext k (Flaky.Wide.leaves (Flaky.Wide.new n)) =
      ((Tree.onlyLeaves (pollTree (some n)).markLeaves.levelOrder).map (Option.map valF))[k]? := by
  have e : ∀ o : Option N, (∀ m, some m ∈ (pollTree o).preorder → firstPanics m = false) →
      (pollTree o).crop lostF = pollTree o := by
    intro o
    induction o using Flaky.poll_ind with
    | h0 => intro _; rw [Flaky.pollTree_none]; simp [Tree.crop, Tree.cropL]
    | h m ih =>
      intro hm
      rw [Flaky.pollTree_some, Tree.crop, Tree.cropL_eq]
      have := hm m (by simp [Flaky.pollTree_some, Tree.preorder_node])
      simp only [lostF, this, Bool.false_eq_true, if_false, List.map_map]
      congr 1
      refine List.map_congr_left fun o ho => ih o ho fun m' hm' => hm m' ?_
      rw [Flaky.pollTree_some, Tree.preorder_node]
      simp only [List.mem_cons, List.flatMap_map, List.mem_flatMap]
      exact .inr ⟨o, ho, hm'⟩
  rw [C79_bfs_leaves, e _ h]
  congr 1
  refine List.map_congr_left fun o ho => ?_
  cases o with
  | none => rfl
  | some m =>
    have : some m ∈ (pollTree (some n)).preorder := by
      simp only [Tree.onlyLeaves, List.mem_map, List.mem_filter] at ho
      obtain ⟨p, ⟨hp, -⟩, hpm⟩ := ho
      have := List.mem_map_of_mem (f := Prod.snd) hp
      rw [← Tree.levelOrder_map, map_snd_markLeaves, hpm] at this
      exact (levelOrder_perm_preorder _).mem_iff.1 this
    simp [lostF, h m this]

section
attribute [local instance] nineFlaky

/-- In this tree the hypothesis of `C79_bfs_leaves_partial` holds and two calls panic. -/
example : answers Flaky.bfsLeavesNext 6
    (Flaky.Wide.leaves (Flaky.Wide.new (.node 0 [.node 1 [.node 3 [], .node 9 []], .node 9 [], .node 2 []] : Tree Nat))) =
      [some none, some (some 2), some (some 3), some none, none, none] ∧
    ((pollTree (some (.node 0 [.node 1 [.node 3 [], .node 9 []], .node 9 [], .node 2 []] : Tree Nat))).preorder.all
      fun o => o.all fun m => !firstPanics m) = true := by decide +kernel

end

/-- C79 is false of the leaves with ancestors of a breadth-first traversal: `peek` panics after the value has been stored,
but before the child iterator has.  Here the answer for the `6` below the `2` says it is below the `1`; and a root is
answered as a leaf although its child iterator has only panicked. -/
theorem C79_bfs_leaves_ancestors_false :
    (@answersE _ _ (@Flaky.bfsLeavesAncNext _ _ nineFlaky) 4
        ⟨true, ⟨[0], [], .mk none []⟩, [@callsF _ _ nineFlaky flakyWide]⟩ =
      some [some none, some (some [0, 7]), some (some [0, 1, 6]), none]) ∧
    (Tree.onlyLeaves (@pollTree _ _ nineFlaky (some flakyWide)).located.markLeaves.levelOrder).map
        (@Pos.sliceF _ _ nineFlaky) =
      [some [0, 7], none, some [0, 1, 3], some [0, 2, 6]] ∧
    @Flaky.Wide.attachAncestors _ _ nineFlaky (Flaky.Wide.new flakyWide) =
      .ok ⟨true, ⟨[0], [], .mk none []⟩, [@callsF _ _ nineFlaky flakyWide]⟩ ∧
    (@answersE _ _ (@Flaky.bfsLeavesAncNext _ _ nineFlaky) 3
        ⟨true, ⟨[0], [], .mk none []⟩, [@callsF _ _ nineFlaky (.node 0 [.node 9 []])]⟩ =
      some [some none, some (some [0]), none]) ∧
    @Flaky.Wide.attachAncestors _ _ nineFlaky (Flaky.Wide.new (.node 0 [.node 9 []])) =
      .ok ⟨true, ⟨[0], [], .mk none []⟩, [@callsF _ _ nineFlaky (.node 0 [.node 9 []])]⟩ :=
  ⟨by decide +kernel, by decide +kernel, rfl, by decide +kernel, rfl⟩

/-- C79, leaves with ancestors of a breadth-first traversal if no child iterator panics at its first call. -/
theorem C79_bfs_leaves_ancestors_partial (n : N)
    (h : ∀ m, some m ∈ (pollTree (some n)).preorder → firstPanics m = false) :
    ∃ s, Flaky.Wide.attachAncestors (Flaky.Wide.new n) = .ok s ∧ ∀ k, nthCallE Flaky.bfsLeavesAncNext k s =
      .ok ((Tree.onlyLeaves (pollTree (some n)).located.markLeaves.levelOrder).map Pos.sliceF)[k]? := by
  refine ⟨_, rfl, fun k => ?_⟩
  obtain ⟨s, hs, hk⟩ := @C62_bfs_leaves_ancestors _ _ (Flaky.ghost (valF n)) Option.isNone (some n) rfl
  cases hs
  specialize hk k
  have e : ∀ {β : Type v} (f : Pos (Option N) → β) (t : Tree (Pos (Option N))),
      (Tree.onlyLeaves t.markLeaves.levelOrder).map f = Tree.onlyLeaves (t.map f).markLeaves.levelOrder := by
    intro β f t
    rw [markLeaves_map, Tree.levelOrder_map]
    simp only [Tree.onlyLeaves, List.map_map, List.filter_map]
    rfl
  rw [Flaky.unfold_ghost, Flaky.crop_isNone, e, Flaky.slice_ghost, ← e] at hk
  rw [← hk]
  have hc : Flaky.Calm (some n) := h
  refine Flaky.nthCallE_inv (fun s => Flaky.CalmQ s.isRoot s.queue) (fun s hs => Flaky.bfsLeavesAncNext_enc (valF n) s hs)
    k _ ⟨?_, ?_⟩
  · intro l hl o ho
    obtain rfl : l = callsF n := by simpa using hl
    exact ((Flaky.calm_some n).1 hc).2 o ho
  · rintro - os q' hq
    have := ((Flaky.calm_some n).1 hc).1
    obtain ⟨hq, -⟩ : callsF n = none :: os ∧ _ := by simpa using hq
    rw [firstPanics, hq] at this
    cases this

section
attribute [local instance] nineFlaky

example : answersE Flaky.bfsLeavesAncNext 6 (⟨true, ⟨[0], [], .mk none []⟩,
    [callsF (.node 0 [.node 1 [.node 3 [], .node 9 []], .node 9 [], .node 2 []] : Tree Nat)]⟩) =
      some [some none, some (some [0, 2]), some (some [0, 1, 3]), some none, none, none] := by decide +kernel

end

/-! ## The iterators that lose count -/

/-- C79 is false of a postorder traversal with ancestors: the value popped for the last answer is popped again. -/
theorem C79_postorder_ancestors_false :
    @answers _ _ (@Flaky.postAncNext _ _ nineFlaky) 4
        (⟨some (.node 0 [.node 1 [], .node 9 [], .node 3 []]), [], []⟩ : Flaky.Post (Tree Nat) Nat) =
      [some (some [0, 1]), some none, some (some [3]), none] ∧
    (@pollTree _ _ nineFlaky (some (.node 0 [.node 1 [], .node 9 [], .node 3 []]))).located.postorder.map
        (@Pos.sliceF _ _ nineFlaky) =
      [some [0, 1], none, some [0, 3], some [0]] := by decide +kernel

/-- C79, postorder with ancestors, up to the first panic. -/
theorem C79_postorder_ancestors_partial (n : N) :
    ∃ s, Flaky.Post.attachAncestors (Flaky.Post.new n) = .ok s ∧
      ∀ l, l = (pollTree (some n)).located.postorder.map Pos.sliceF →
        ∀ k, (∀ j < k, l[j]? ≠ some none) → nthCall Flaky.postAncNext k s = l[k]? := by
  refine ⟨_, rfl, ?_⟩
  rintro l rfl k hk
  obtain ⟨s, hs, h⟩ := @C62_postorder_ancestors_partial _ _ (Flaky.ghost (valF n)) Option.isNone (some n)
  cases hs
  have e := h _ rfl k
  rw [Flaky.unfold_ghost, Flaky.crop_isNone, ← Tree.postorder_map, Flaky.slice_ghost, Tree.postorder_map] at e
  rw [← e hk, Flaky.nthCall_enc Flaky.Post.encA (Flaky.postAncNext_enc (valF n))]
  rfl

/-- C79 is false of the leaves with ancestors of a depth-first traversal. -/
theorem C79_leaves_ancestors_false :
    @answers _ _ (@Flaky.leavesAncNext _ _ nineFlaky) 4
        (Flaky.PreAnc.leaves (⟨some (.node 0 [.node 1 [], .node 9 [], .node 3 []]), [], []⟩ : Flaky.PreAnc (Tree Nat) Nat)) =
      [some (some [0, 1]), some none, some (some [3]), none] ∧
    (@pollTree _ _ nineFlaky (some (.node 0 [.node 1 [], .node 9 [], .node 3 []]))).located.leaves.map
        (@Pos.sliceF _ _ nineFlaky) =
      [some [0, 1], none, some [0, 3]] := by decide +kernel

/-- C79, leaves with ancestors of a preorder traversal, up to the first panic. -/
theorem C79_leaves_ancestors_partial (n : N) :
    ∃ s, Flaky.Pre.attachAncestors (Flaky.Pre.new n) = .ok s ∧
      ∀ l, l = (pollTree (some n)).located.leaves.map Pos.sliceF →
        ∀ k, (∀ j < k, l[j]? ≠ some none) → nthCall Flaky.leavesAncNext k (Flaky.PreAnc.leaves s) = l[k]? := by
  refine ⟨_, rfl, ?_⟩
  rintro l rfl k hk
  obtain ⟨s, hs, h⟩ := @C62_leaves_ancestors_partial _ _ (Flaky.ghost (valF n)) Option.isNone (some n)
  cases hs
  have e := h _ rfl k
  rw [Flaky.unfold_ghost, Flaky.crop_isNone, ← Tree.leaves_map, Flaky.slice_ghost, Tree.leaves_map] at e
  rw [← e hk, Flaky.nthCall_enc Flaky.LvAnc.enc (Flaky.leavesAncNext_enc (valF n))]
  rfl

/-! ## Contexts -/

/-- C79 is false of a preorder traversal with context: after a panic at a first child the path is too short, and the crate's
own `expect` panics; after a panic at a later child a value is missing from the ancestors. -/
theorem C79_preorder_context_false :
    (List.range 4).map (fun k => (nthCallE (@Flaky.preCtxNext _ _ nineFlaky) k
        (⟨some (.node 0 [.node 9 [], .node 1 []]), [], [], [], none⟩ : Flaky.PreCtx (Tree Nat) Nat)).toOption.map
          (·.map (·.map fun c => (c.path, c.ancestors)))) =
      [some (some (some ([], [0]))), some (some none), none, none] ∧
    (List.range 5).map (fun k => (nthCallE (@Flaky.preCtxNext _ _ nineFlaky) k
        (⟨some flakySample, [], [], [], none⟩ : Flaky.PreCtx (Tree Nat) Nat)).toOption.map
          (·.map (·.map fun c => (c.path, c.ancestors)))) =
      [some (some (some ([], [0]))), some (some (some ([0], [0, 1]))), some (some (some ([0, 0], [0, 1, 3]))),
        some (some none), some (some (some ([0, 1], [0, 4])))] ∧
    ((@pollTree _ _ nineFlaky (some flakySample)).located.preorder.map
        (@Pos.ctxF _ _ nineFlaky)).map (·.map fun c => (c.path, c.ancestors)) =
      [some ([], [0]), some ([0], [0, 1]), some ([0, 0], [0, 1, 3]), none, some ([0, 2], [0, 1, 4]), none, some ([2], [0, 2]),
        none, some ([2, 1], [0, 2, 5])] :=
  ⟨by decide +kernel, by decide +kernel, by decide +kernel⟩

/-- C79, preorder with context: if the first call of `next` of the root's child iterator panics and the second gives a
child, then the call that should answer that child panics inside the crate. -/
theorem C79_preorder_context_dead (n c : N) (os : List (Option N)) (h : callsF n = none :: some c :: os) :
    ∃ s, Flaky.Pre.attachContext (Flaky.Pre.new n) = .ok s ∧
      nthCallE Flaky.preCtxNext 1 s = .ok (some none) ∧ nthCallE Flaky.preCtxNext 2 s = .error .unwrapNone := by
  refine ⟨_, rfl, ?_, ?_⟩ <;>
    simp [nthCallE, stateAfterE, Flaky.preCtxNext, Fail.streamNextE, Flaky.preCtxAdvance, h, Flaky.preCtxGet,
      Flaky.preCtxLoop]

/-- C79, preorder with context, up to the first panic. -/
theorem C79_preorder_context_partial (n : N) (h : Flaky.CallsOk n) :
    ∃ s, Flaky.Pre.attachContext (Flaky.Pre.new n) = .ok s ∧
      ∀ l, l = (pollTree (some n)).located.preorder.map Pos.ctxF →
        ∀ k, (∀ j < k, l[j]? ≠ some none) → nthCallE Flaky.preCtxNext k s = .ok l[k]? := by
  refine ⟨_, rfl, ?_⟩
  rintro l rfl k hk
  obtain ⟨s, hs, hc⟩ := @C62_preorder_context_partial _ _ (Flaky.ghost (valF n)) Option.isNone (some n)
    (Flaky.ghost_arity _ n h)
  cases hs
  have e := hc _ rfl
  rw [Flaky.unfold_ghost, Flaky.crop_isNone, ← Tree.preorder_map, Flaky.ctx_ghost, Tree.preorder_map] at e
  obtain ⟨-, -, h1, -⟩ := Flaky.until_panic (fun s t => t = Flaky.PreCtx.enc s) (fun _ _ => True)
    (fun s t o t' => Flaky.preCtx_until (valF n) s t o t') k (⟨some n, [], [], [], none⟩ : Flaky.PreCtx N V) _ rfl
    (fun j hj he => hk j hj (by
      have := (e j fun i hi => hk i (by omega)).symm.trans he
      simpa using this)) _ (e k hk)
  exact h1

/-- C79 is false of a postorder traversal with context. -/
theorem C79_postorder_context_false :
    (List.range 5).map (fun k => (nthCallE (@Flaky.postCtxNext _ _ nineFlaky) k
        (⟨some flakySample, [], [], [], [], none⟩ : Flaky.PostCtx (Tree Nat) Nat)).toOption.map
          (·.map (·.map fun c => (c.path, c.ancestors)))) =
      [some (some (some ([0, 0], [0, 1, 3]))), some (some none), some (some (some ([0, 1], [0, 4]))),
        some (some (some ([0], [0]))), some none] ∧
    (((@pollTree _ _ nineFlaky (some flakySample)).located.postorder.map
        (@Pos.ctxF _ _ nineFlaky)).map (·.map fun c => (c.path, c.ancestors))).take 5 =
      [some ([0, 0], [0, 1, 3]), none, some ([0, 2], [0, 1, 4]), some ([0], [0, 1]), none] :=
  ⟨by decide +kernel, by decide +kernel⟩

/-- C79, postorder with context, borrowed nodes, up to the first panic. -/
theorem C79_postorder_context_partial (n : N) (h : Flaky.CallsOk n) :
    ∃ s, Flaky.Post.attachContext (Flaky.Post.new n) = .ok s ∧
      ∀ l, l = (pollTree (some n)).located.postorder.map Pos.ctxF →
        ∀ k, (∀ j < k, l[j]? ≠ some none) → nthCallE Flaky.postCtxNext k s = .ok l[k]? := by
  refine ⟨_, rfl, ?_⟩
  rintro l rfl k hk
  obtain ⟨s, hs, hc⟩ := @C62_postorder_context_partial _ _ (Flaky.ghost (valF n)) Option.isNone (some n)
    (Flaky.ghost_arity _ n h)
  cases hs
  have e := hc _ rfl
  rw [Flaky.unfold_ghost, Flaky.crop_isNone, ← Tree.postorder_map, Flaky.ctx_ghost, Tree.postorder_map] at e
  obtain ⟨-, -, h1, -⟩ := Flaky.until_panic (fun s t => t = Flaky.PostCtx.enc s) (fun _ _ => True)
    (fun s t o t' => Flaky.postCtx_until (valF n) s t o t') k (⟨some n, [], [], [], [], none⟩ : Flaky.PostCtx N V) _ rfl
    (fun j hj he => hk j hj (by
      have := (e j fun i hi => hk i (by omega)).symm.trans he
      simpa using this)) _ (e k hk)
  exact h1

/-- C79 is false of a breadth-first traversal with context: after the panic the crate's own `unwrap` panics. -/
theorem C79_bfs_context_false :
    (List.range 5).map (fun k => (nthCallE (@Flaky.bfsCtxNext _ _ nineFlaky) k
        ⟨true, ⟨[0], [], [], .mk none []⟩, some (@callsF _ _ nineFlaky flakySample), [], 0⟩).toOption.map
          (·.map (·.map fun c => (c.path, c.ancestors)))) =
      [some (some (some ([], [0]))), some (some (some ([0], [0, 1]))), some (some none), none, none] ∧
    @Flaky.Wide.attachContext _ _ nineFlaky (Flaky.Wide.new flakySample) =
      .ok ⟨true, ⟨[0], [], [], .mk none []⟩, some (@callsF _ _ nineFlaky flakySample), [], 0⟩ :=
  ⟨by decide +kernel, rfl⟩

/-- C79, breadth-first with context, up to the first panic. -/
theorem C79_bfs_context_partial (n : N) (h : Flaky.CallsLt n) :
    ∃ s, Flaky.Wide.attachContext (Flaky.Wide.new n) = .ok s ∧
      ∀ l, l = (pollTree (some n)).located.levelOrder.map Pos.ctxF →
        ∀ k, (∀ j < k, l[j]? ≠ some none) → nthCallE Flaky.bfsCtxNext k s = .ok l[k]? := by
  refine ⟨_, rfl, ?_⟩
  rintro l rfl k hk
  obtain ⟨s, hs, hc⟩ := @C62_bfs_context_partial _ _ (Flaky.ghost (valF n)) Option.isNone (some n)
    (Flaky.ghost_arityLt _ n h) rfl
  cases hs
  have e := hc _ rfl
  rw [Flaky.unfold_ghost, Flaky.crop_isNone, ← Tree.levelOrder_map, Flaky.ctx_ghost, Tree.levelOrder_map] at e
  obtain ⟨-, -, h1, -⟩ := Flaky.until_panic (fun s t => s = t) Flaky.Spent
    (fun s t o t' => Flaky.bfsCtx_until (valF n) s t o t') k _ _ rfl
    (fun j hj he => hk j hj (by
      have := (e j fun i hi => hk i (by omega)).symm.trans he
      simpa using this)) _ (e k hk)
  exact h1

/-- C79, breadth-first with context: the call after the first panic panics inside the crate. -/
theorem C79_bfs_context_dead (n : N) (h : Flaky.CallsLt n) (k : Nat) (l : List (Option (Ctx V (List (Option N)))))
    (hl : l = (pollTree (some n)).located.levelOrder.map Pos.ctxF)
    (hk : ∀ j < k, l[j]? ≠ some none) (hlk : l[k]? = some none) :
    ∃ s s', Flaky.Wide.attachContext (Flaky.Wide.new n) = .ok s ∧ stateAfterE Flaky.bfsCtxNext (k + 1) s = .ok s' ∧
      Flaky.bfsCtxNext s' = .error .unwrapNone := by
  subst hl
  obtain ⟨s, hs, hc⟩ := @C62_bfs_context_partial _ _ (Flaky.ghost (valF n)) Option.isNone (some n)
    (Flaky.ghost_arityLt _ n h) rfl
  cases hs
  have e := hc _ rfl
  rw [Flaky.unfold_ghost, Flaky.crop_isNone, ← Tree.levelOrder_map, Flaky.ctx_ghost, Tree.levelOrder_map] at e
  obtain ⟨s', t', -, h2, h3, h4⟩ := Flaky.until_panic (fun s t => s = t) Flaky.Spent
    (fun s t o t' => Flaky.bfsCtx_until (valF n) s t o t') k _ _ rfl
    (fun j hj he => hk j hj (by
      have := (e j fun i hi => hk i (by omega)).symm.trans he
      simpa using this)) _ (e k hk)
  obtain ⟨c1, c2, c3, c4⟩ := h4 hlk
  have hd := @C62_bfs_context_dead _ _ (Flaky.ghost (valF n)) Option.isNone (some n) (Flaky.ghost_arityLt _ n h) rfl k
    ((pollTree (some n)).located.levelOrder.map Pos.ctxF)
    (by rw [Flaky.unfold_ghost, Flaky.crop_isNone, ← Tree.levelOrder_map, ← Tree.levelOrder_map, Flaky.ctx_ghost])
    hk hlk
  obtain ⟨s2, t2, hs2, ht2, hd⟩ := hd
  cases hs2
  obtain rfl : t' = t2 := by
    have := h3.symm.trans ht2
    simpa using this
  refine ⟨_, s', rfl, h2, ?_⟩
  have hne : s'.cc.ancestors.isEmpty = false := by
    by_contra hne
    rw [Bool.not_eq_false, c4] at hne
    simp [Fail.bfsCtxNext, Fail.streamNextE, Fail.bfsCtxAdvance, c3, hne] at hd
  simp [Flaky.bfsCtxNext, Fail.streamNextE, Flaky.bfsCtxAdvance, c1, c2, hne]

section
attribute [local instance] nineFlaky

/-- The hypotheses of the theorems on contexts hold of the sample, whose sixth call panics in preorder. -/
example : ((pollTree (some flakySample)).preorder.all fun o => o.all fun m => decide ((callsF m).length < 2 ^ 64)) = true ∧
    (pollTree (some flakySample)).preorder.map Option.isNone =
      [false, false, false, true, false, true, false, true, false] := by decide +kernel

example : callsF (.node 0 [.node 9 [], .node 1 []] : Tree Nat) = [none, some (.node 1 [])] := by rfl

end

end TreeIter
