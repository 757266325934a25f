import Verif.Lemmas.PollLeaves
import Verif.Props.DepthFirst
import Verif.Props.BreadthFirst
import Verif.Props.BreadthFirstAnc
import Verif.Props.BreadthFirstCtx
import Verif.Props.Leaves
import Verif.Props.LeavesMid
import Verif.Props.Collection

/-!
# C50: child iterators are used only up to their first `None`

A Rust iterator may answer anything after it has answered `None`.  Here the child iterators are arbitrary state machines
(`PollTree`): up to its first `None` the iterator of a node yields its children, and nothing is assumed about what it
answers when it is asked again.  The traversals do not depend on it: they visit the tree that the nodes denote.
One exception: `attach_ancestors().leaves()` of the breadth-first iterators on a root without children.
-/

universe u v w

namespace TreeIter

variable {N : Type u} {V : Type v} {I : Type w}

/-! ## A sample: iterators that hand out ghosts after `None` -/

/-- The iterator of the sample: the children left, or `none` once it has answered `None`; from then on it hands out a
node `99` whenever it is asked. -/
def ghostPoll : Option (List (Tree Nat)) → Option (Tree Nat) × Option (List (Tree Nat))
  | some (c :: cs) => (some c, some cs)
  | some [] => (none, none)
  | none => (some (.node 99 []), none)

/-- Trees of numbers with such child iterators. -/
@[reducible] def ghostNode : PollNode (Tree Nat) Nat (Option (List (Tree Nat))) where
  splitI t := (val t, some (kids t))
  poll := ghostPoll

theorem ghost_gives (l : List (Tree Nat)) :
    @Gives (Tree Nat) Nat (Option (List (Tree Nat))) ghostNode (some l) l := by
  let _ := ghostNode
  induction l with
  | nil => exact .done rfl
  | cons c l ih => exact .item rfl ih

/-- The sample satisfies the assumptions. -/
@[reducible] def ghostTree : PollTree (Tree Nat) Nat (Option (List (Tree Nat))) where
  toPollNode := ghostNode
  toTreeNode := inferInstance
  splitI_value _ := rfl
  splitI_gives n := ghost_gives (kids n)

attribute [local instance] ghostTree

/-- Asked after its first `None`, the iterator of the sample gives a node. -/
example : (poll (N := Tree Nat) (poll (N := Tree Nat) (some ([] : List (Tree Nat)))).2).1 = some (.node 99 []) := rfl

/-- The same trees with child iterators that answer `None` for ever. -/
@[reducible] def fusedNode : PollNode (Tree Nat) Nat (List (Tree Nat)) where
  splitI t := (val t, kids t)
  poll l := (l.head?, l.tail)

theorem fused_gives (l : List (Tree Nat)) : @Gives (Tree Nat) Nat (List (Tree Nat)) fusedNode l l := by
  let _ := fusedNode
  induction l with
  | nil => exact .done rfl
  | cons c l ih => exact .item rfl ih

/-- They satisfy the assumptions too. -/
@[reducible] def fusedTree : PollTree (Tree Nat) Nat (List (Tree Nat)) where
  toPollNode := fusedNode
  toTreeNode := inferInstance
  splitI_value _ := rfl
  splitI_gives n := fused_gives (kids n)

/-! ## Depth first -/

section
variable [PollTree N V I]

/-- C50, preorder. -/
theorem C50_preorder (n : N) (k : Nat) :
    nthCall Poll.preNext k (⟨some n, []⟩ : Poll.Pre N I) = (treeOf n).preorder[k]? := by
  rw [(Poll.nthCall_sim Poll.PreRel Poll.preNext_sim k (t := Preorder.new n) ⟨rfl, .nil⟩).1, C01_preorder]

/-- C50, preorder with ancestors. -/
theorem C50_preorder_ancestors (n : N) (k : Nat) :
    nthCall Poll.preAncNext k (⟨some n, [], []⟩ : Poll.PreAnc N V I) =
      ((treeOf n).located.preorder.map Pos.ancestors)[k]? := by
  rw [(Poll.nthCall_sim Poll.PreAncRel Poll.preAncNext_sim k (t := Preorder.AncState.new n) ⟨rfl, .nil, rfl⟩).1]
  obtain ⟨s, h1, h2⟩ := C06_preorder_ancestors n
  cases h1
  exact h2 k

/-- C50, preorder with context: no call panics, the answers agree with the expected contexts, and the children that are
handed out are an iterator over the children of the node. -/
theorem C50_preorder_context (n : N) (h : ArityOk n) (k : Nat) :
    ∃ o, nthCallE Poll.preCtxNext k (⟨some n, [], [], [], none⟩ : Poll.PreCtx N V I) = .ok o ∧
      Poll.CtxGives o ((unfold n).located.preorder.map Pos.ctx)[k]? := by
  obtain ⟨s, h1, h2⟩ := C10_preorder_context n h
  cases h1
  obtain ⟨m, o, hq, ho⟩ := Poll.nthCallE_sim_ok (f := fun _ => Poll.preCtxNext) Poll.PreCtxRel Poll.CtxGives
    Poll.preCtxNext_sim k (s := (⟨some n, [], [], [], none⟩ : Poll.PreCtx N V I)) ⟨rfl, .nil, rfl, rfl, .none⟩ (h2 k)
  exact ⟨o, ho m (Nat.le_refl m), hq⟩

example := C50_preorder_context (V := Nat) (I := Option (List (Tree Nat))) sampleTree sampleTree_arity 4

/-- C50, postorder: with enough fuel, that is, after finitely many iterations of the loop. -/
theorem C50_postorder (n : N) (k : Nat) :
    ∃ m, ∀ f, m ≤ f → nthCallE (Poll.postNext f) k (⟨some n, [], []⟩ : Poll.Post N V I) =
      .ok (treeOf n).postorder[k]? := by
  obtain ⟨m, o, rfl, ho⟩ := Poll.nthCallE_sim_ok Poll.PostRel Eq Poll.postNext_sim k
    (s := (⟨some n, [], []⟩ : Poll.Post N V I)) (t := Postorder.new n) ⟨rfl, rfl, .nil⟩ (Poll.nthCallE_ok _ k _)
  refine ⟨m, fun f hf => ?_⟩
  rw [ho f hf, C02_postorder]

/-- C50, postorder with ancestors. -/
theorem C50_postorder_ancestors (n : N) (k : Nat) :
    ∃ m, ∀ f, m ≤ f → nthCallE (Poll.postAncNext f) k (⟨some n, [], []⟩ : Poll.Post N V I) =
      .ok ((treeOf n).located.postorder.map Pos.ancestors)[k]? := by
  obtain ⟨m, o, rfl, ho⟩ := Poll.nthCallE_sim_ok Poll.PostAncRel Eq Poll.postAncNext_sim k
    (s := (⟨some n, [], []⟩ : Poll.Post N V I)) (t := Postorder.AncState.new n) ⟨rfl, rfl, .nil⟩
    (Poll.nthCallE_ok _ k _)
  refine ⟨m, fun f hf => ?_⟩
  obtain ⟨s, h1, h2⟩ := C07_postorder_ancestors n
  cases h1
  rw [ho f hf, h2 k]

/-- C50, postorder with context, borrowed and mutably borrowed nodes. -/
theorem C50_postorder_context (n : N) (h : ArityOk n) (k : Nat) :
    ∃ m o, Poll.CtxGives o ((unfold n).located.postorder.map Pos.ctx)[k]? ∧
      ∀ f, m ≤ f → nthCallE (Poll.postCtxNext f) k (⟨some n, [], [], [], [], none⟩ : Poll.PostCtx N V I) = .ok o := by
  obtain ⟨s, h1, h2⟩ := C12_postorder_context n h
  cases h1
  exact Poll.nthCallE_sim_ok Poll.PostCtxRel Poll.CtxGives Poll.postCtxNext_sim k
    ⟨rfl, .nil, .nil, rfl, rfl, .none⟩ (h2 k)

example := C50_postorder_context (V := Nat) (I := Option (List (Tree Nat))) sampleTree sampleTree_arity 4

/-- C50, postorder with context, owned nodes. -/
theorem C50_postorder_context_owned (n : N) (h : ArityOk n) (k : Nat) :
    ∃ m o, Poll.CtxGives o ((unfold n).located.postorder.map fun p => p.ctx.noChildren)[k]? ∧
      ∀ f, m ≤ f → nthCallE (Poll.postOwnCtxNext f) k (⟨some n, [], [], []⟩ : Poll.PostOwnCtx N V I) = .ok o := by
  obtain ⟨s, h1, h2⟩ := C12_postorder_context_owned n h
  cases h1
  exact Poll.nthCallE_sim_ok Poll.PostOwnCtxRel Poll.CtxGives Poll.postOwnCtxNext_sim k ⟨rfl, .nil, rfl, rfl⟩ (h2 k)

end

example : answers Poll.preNext 8 (⟨some sampleTree, []⟩ : Poll.Pre (Tree Nat) (Option (List (Tree Nat)))) =
    [some 0, some 1, some 3, some 4, some 2, some 5, none, none] := by decide +kernel

example : answers Poll.preAncNext 7 (⟨some sampleTree, [], []⟩ : Poll.PreAnc (Tree Nat) Nat (Option (List (Tree Nat)))) =
    [some [0], some [0, 1], some [0, 1, 3], some [0, 1, 4], some [0, 2], some [0, 2, 5], none] := by decide +kernel

example : (answersE Poll.preCtxNext 7
      (⟨some sampleTree, [], [], [], none⟩ : Poll.PreCtx (Tree Nat) Nat (Option (List (Tree Nat))))).map
        (List.map (Option.map fun c => (c.path, c.children.map (Option.map List.length)))) =
    some [some ([], some (some 2)), some ([0], some (some 2)), some ([0, 0], some (some 0)), some ([0, 1], some (some 0)),
      some ([1], some (some 1)), some ([1, 0], some (some 0)), none] := by decide +kernel

example : answersE (Poll.postNext 9) 8
      (⟨some sampleTree, [], []⟩ : Poll.Post (Tree Nat) Nat (Option (List (Tree Nat)))) =
    some [some 3, some 4, some 1, some 5, some 2, some 0, none, none] := by decide +kernel

example : answersE (Poll.postAncNext 9) 7
      (⟨some sampleTree, [], []⟩ : Poll.Post (Tree Nat) Nat (Option (List (Tree Nat)))) =
    some [some [0, 1, 3], some [0, 1, 4], some [0, 1], some [0, 2, 5], some [0, 2], some [0], none] := by decide +kernel

example : (answersE (Poll.postCtxNext 9) 7
      (⟨some sampleTree, [], [], [], [], none⟩ : Poll.PostCtx (Tree Nat) Nat (Option (List (Tree Nat))))).map
        (List.map (Option.map fun c => (c.path, c.children.map (Option.map List.length)))) =
    some [some ([0, 0], some (some 0)), some ([0, 1], some (some 0)), some ([0], some (some 2)),
      some ([1, 0], some (some 0)), some ([1], some (some 1)), some ([], some (some 2)), none] := by decide +kernel

example : (answersE (Poll.postOwnCtxNext 9) 7
      (⟨some sampleTree, [], [], []⟩ : Poll.PostOwnCtx (Tree Nat) Nat (Option (List (Tree Nat))))).map
        (List.map (Option.map fun c => (c.path, c.ancestors))) =
    some [some ([0, 0], [0, 1, 3]), some ([0, 1], [0, 1, 4]), some ([0], [0, 1]),
      some ([1, 0], [0, 2, 5]), some ([1], [0, 2]), some ([], [0]), none] := by decide +kernel

/-! ## Breadth first -/

section
variable [PollTree N V I]

/-- C50, breadth first. -/
theorem C50_bfs (n : N) (k : Nat) :
    nthCall Poll.bfsNext k (⟨some n, []⟩ : Poll.Pre N I) = (treeOf n).levelOrder[k]? := by
  rw [(Poll.nthCall_sim Poll.BfsRel Poll.bfsNext_sim k (t := Bfs.new n) ⟨rfl, .nil⟩).1, C04_bfs]

theorem bfsAncRel_new (n : N) : Poll.BfsAncRel (Poll.BfsAnc.new n : Poll.BfsAnc V I) (Bfs.AncState.new n) := by
  refine ⟨rfl, ?_, .cons (PollTree.splitI_gives n) .nil⟩
  simp [Poll.BfsAnc.new, Bfs.AncState.new, PollTree.splitI_value]

/-- C50, breadth first with ancestors, up to and including the first `None` (after it this iterator panics, C24). -/
theorem C50_bfs_ancestors (n : N) (k : Nat) (hk : k ≤ (treeOf n).size) :
    nthCallE (Poll.bfsAncNext N) k (Poll.BfsAnc.new n : Poll.BfsAnc V I) =
      .ok ((treeOf n).located.levelOrder.map Pos.ancestors)[k]? := by
  obtain ⟨s, h1, h2⟩ := C09_bfs_ancestors n
  cases h1
  obtain ⟨m, o, rfl, ho⟩ := Poll.nthCallE_sim_ok (f := fun _ => Poll.bfsAncNext N) Poll.BfsAncRel Eq
    Poll.bfsAncNext_sim k (bfsAncRel_new n) (h2 k hk)
  exact ho m (Nat.le_refl m)

example := C50_bfs_ancestors (V := Nat) (I := Option (List (Tree Nat))) sampleTree 4 (by decide +kernel)

/-- C50, breadth first with context. -/
theorem C50_bfs_context (n : N) (h : ArityLt n) (k : Nat) :
    ∃ o, nthCallE (Poll.bfsCtxNext N) k (Poll.BfsCtx.new n : Poll.BfsCtx V I) = .ok o ∧
      Poll.CtxGives o ((unfold n).located.levelOrder.map Pos.ctx)[k]? := by
  obtain ⟨s, h1, h2⟩ := C14_bfs_context n h
  cases h1
  have hr : Poll.BfsCtxRel (Poll.BfsCtx.new n : Poll.BfsCtx V I) (Bfs.CtxState.new n []) := by
    refine ⟨rfl, ?_, .some (PollTree.splitI_gives n), .nil, rfl⟩
    simp [Poll.BfsCtx.new, Bfs.CtxState.new, PollTree.splitI_value]
  obtain ⟨m, o, hq, ho⟩ := Poll.nthCallE_sim_ok (f := fun _ => Poll.bfsCtxNext N) Poll.BfsCtxRel Poll.CtxGives
    Poll.bfsCtxNext_sim k hr (h2 k)
  exact ⟨o, ho m (Nat.le_refl m), hq⟩

end

example : answers Poll.bfsNext 8 (⟨some sampleTree, []⟩ : Poll.Pre (Tree Nat) (Option (List (Tree Nat)))) =
    [some 0, some 1, some 2, some 3, some 4, some 5, none, none] := by decide +kernel

example : answersE (Poll.bfsAncNext (Tree Nat)) 7 (Poll.BfsAnc.new sampleTree) =
    some [some [0], some [0, 1], some [0, 2], some [0, 1, 3], some [0, 1, 4], some [0, 2, 5], none] := by decide +kernel

example : (answersE (Poll.bfsCtxNext (Tree Nat)) 7 (Poll.BfsCtx.new sampleTree)).map
        (List.map (Option.map fun c => (c.path, c.children.map (Option.map List.length)))) =
    some [some ([], some (some 2)), some ([0], some (some 2)), some ([1], some (some 1)), some ([0, 0], some (some 0)),
      some ([0, 1], some (some 0)), some ([1, 0], some (some 0)), none] := by decide +kernel

/-! ## Leaves -/

section
variable [PollTree N V I]

/-- C50, `leaves()` of a fresh depth-first iterator (preorder and postorder build the same state). -/
theorem C50_leaves (n : N) (i : Nat) :
    ∃ m, ∀ f, m ≤ f →
      nthCallE (Poll.lvNext f) i (Poll.Lv.ofPre ⟨some n, []⟩ : Poll.Lv N V I) = .ok (treeOf n).leaves[i]? ∧
      nthCallE (Poll.lvNext f) i (Poll.Lv.ofPost ⟨some n, [], []⟩ : Poll.Lv N V I) = .ok (treeOf n).leaves[i]? := by
  obtain ⟨m, o, rfl, ho⟩ := Poll.nthCallE_sim_ok Poll.LvRel Eq Poll.lvNext_sim i
    (s := (Poll.Lv.ofPre ⟨some n, []⟩ : Poll.Lv N V I)) (t := Leaves.ofPreorder (Preorder.new n))
    ⟨rfl, .nil, .nil, rfl⟩ (Poll.nthCallE_ok _ i _)
  refine ⟨m, fun f hf => ?_⟩
  have h := ho f hf
  rw [C17_preorder_leaves] at h
  exact ⟨h, h⟩

/-- C50, `attach_ancestors().leaves()` of a fresh depth-first iterator. -/
theorem C50_ancestors_leaves (n : N) (i : Nat) :
    ∃ m, ∀ f, m ≤ f →
      nthCallE (Poll.lvAncNext f) i (Poll.LvAnc.ofPre ⟨some n, [], []⟩ : Poll.LvAnc N V I) =
        .ok ((treeOf n).located.leaves.map Pos.ancestors)[i]? ∧
      nthCallE (Poll.lvAncNext f) i (Poll.LvAnc.ofPost ⟨some n, [], []⟩ : Poll.LvAnc N V I) =
        .ok ((treeOf n).located.leaves.map Pos.ancestors)[i]? := by
  obtain ⟨m, o, rfl, ho⟩ := Poll.nthCallE_sim_ok Poll.LvAncRel Eq Poll.lvAncNext_sim i
    (s := (Poll.LvAnc.ofPre ⟨some n, [], []⟩ : Poll.LvAnc N V I))
    (t := Leaves.ofPreorderAnc (Preorder.AncState.new n)) ⟨rfl, rfl, .nil, .nil⟩ (Poll.nthCallE_ok _ i _)
  refine ⟨m, fun f hf => ?_⟩
  have h := ho f hf
  obtain ⟨s, h1, h2⟩ := C20_preorder_leaves_ancestors n
  cases h1
  rw [h2] at h
  exact ⟨h, h⟩

/-- C50, `leaves()` of a preorder iterator after any number of calls: the leaves of C18_preorder_partial. -/
theorem C50_preorder_leaves_mid (n : N) (k i : Nat) :
    ∃ m, ∀ f, m ≤ f →
      nthCallE (Poll.lvNext f) i
          (Poll.Lv.ofPre (stateAfter Poll.preNext k (⟨some n, []⟩ : Poll.Pre N I)) : Poll.Lv N V I) =
        .ok (leavesFound (treeOf n).located ((treeOf n).located.preorder.take k))[i]? := by
  have hr := (Poll.nthCall_sim Poll.PreRel Poll.preNext_sim k (s := (⟨some n, []⟩ : Poll.Pre N I)) (t := Preorder.new n)
    ⟨rfl, .nil⟩).2
  obtain ⟨m, o, rfl, ho⟩ := Poll.nthCallE_sim_ok Poll.LvRel Eq Poll.lvNext_sim i
    (s := (Poll.Lv.ofPre (stateAfter Poll.preNext k (⟨some n, []⟩ : Poll.Pre N I)) : Poll.Lv N V I))
    (t := Leaves.ofPreorder (stateAfter Preorder.next k (Preorder.new n))) ⟨hr.1, hr.2, .nil, rfl⟩ (Poll.nthCallE_ok _ i _)
  refine ⟨m, fun f hf => ?_⟩
  rw [ho f hf, C18_preorder_partial]

/-- C50, `leaves()` of a postorder iterator after any number of calls: the leaves of C18_postorder_partial. -/
theorem C50_postorder_leaves_mid (n : N) (k i : Nat) :
    ∃ m s', (∀ f, m ≤ f → stateAfterE (Poll.postNext f) k (⟨some n, [], []⟩ : Poll.Post N V I) = .ok s' ∧
      nthCallE (Poll.lvNext f) i (Poll.Lv.ofPost s') =
        .ok (leavesFound (treeOf n).located ((treeOf n).located.postorder.take k))[i]?) := by
  obtain ⟨m1, s', hr, h1⟩ := Poll.nthCallE_sim Poll.PostRel Eq Poll.postNext_sim k
    (s := (⟨some n, [], []⟩ : Poll.Post N V I)) (t := Postorder.new n) ⟨rfl, rfl, .nil⟩ (Poll.stateAfterE_ok _ k _)
  obtain ⟨m, o, rfl, ho⟩ := Poll.nthCallE_sim_ok Poll.LvRel Eq Poll.lvNext_sim i
    (s := Poll.Lv.ofPost s')
    (t := Leaves.ofPostorder (stateAfter Postorder.next k (Postorder.new n))) ⟨hr.1, hr.2.2, .nil, rfl⟩
    (Poll.nthCallE_ok _ i _)
  refine ⟨max m1 m, s', fun f hf => ⟨h1 f (by omega), ?_⟩⟩
  rw [ho f (by omega), C18_postorder_partial]

/-- C50, `leaves()` of preorder and postorder iterators with ancestors after any number of calls: the answers are those
over iterators that are fused (C21 says what they are). -/
theorem C50_preorder_ancestors_leaves_mid (n : N) (k i : Nat) :
    ∃ m, ∀ f, m ≤ f →
      nthCallE (Poll.lvAncNext f) i
          (Poll.LvAnc.ofPre (stateAfter Poll.preAncNext k (⟨some n, [], []⟩ : Poll.PreAnc N V I))) =
        .ok (nthCall Leaves.ancNext i
          (Leaves.ofPreorderAnc (stateAfter Preorder.ancNext k (Preorder.AncState.new n)))) := by
  have hr := (Poll.nthCall_sim Poll.PreAncRel Poll.preAncNext_sim k (s := (⟨some n, [], []⟩ : Poll.PreAnc N V I))
    (t := Preorder.AncState.new n) ⟨rfl, .nil, rfl⟩).2
  obtain ⟨m, o, rfl, ho⟩ := Poll.nthCallE_sim_ok Poll.LvAncRel Eq Poll.lvAncNext_sim i
    (s := Poll.LvAnc.ofPre (stateAfter Poll.preAncNext k (⟨some n, [], []⟩ : Poll.PreAnc N V I)))
    (t := Leaves.ofPreorderAnc (stateAfter Preorder.ancNext k (Preorder.AncState.new n))) ⟨hr.1, hr.2.2, hr.2.1, .nil⟩
    (Poll.nthCallE_ok _ i _)
  exact ⟨m, ho⟩

/-- C50, the same after postorder. -/
theorem C50_postorder_ancestors_leaves_mid (n : N) (k i : Nat) :
    ∃ m s', ∀ f, m ≤ f → stateAfterE (Poll.postAncNext f) k (⟨some n, [], []⟩ : Poll.Post N V I) = .ok s' ∧
      nthCallE (Poll.lvAncNext f) i (Poll.LvAnc.ofPost s') =
        .ok (nthCall Leaves.ancNext i
          (Leaves.ofPostorderAnc (stateAfter Postorder.ancNext k (Postorder.AncState.new n)))) := by
  obtain ⟨m1, s', hr, h1⟩ := Poll.nthCallE_sim Poll.PostAncRel Eq Poll.postAncNext_sim k
    (s := (⟨some n, [], []⟩ : Poll.Post N V I)) (t := Postorder.AncState.new n) ⟨rfl, rfl, .nil⟩
    (Poll.stateAfterE_ok _ k _)
  obtain ⟨m, o, rfl, ho⟩ := Poll.nthCallE_sim_ok Poll.LvAncRel Eq Poll.lvAncNext_sim i
    (s := Poll.LvAnc.ofPost s')
    (t := Leaves.ofPostorderAnc (stateAfter Postorder.ancNext k (Postorder.AncState.new n))) ⟨hr.1, hr.2.1, hr.2.2, .nil⟩
    (Poll.nthCallE_ok _ i _)
  exact ⟨max m1 m, s', fun f hf => ⟨h1 f (by omega), ho f (by omega)⟩⟩

/-- C50, breadth-first `leaves()` after any number of calls. -/
theorem C50_bfs_leaves (n : N) (k i : Nat) :
    ∃ m, ∀ f, m ≤ f →
      nthCallE (Poll.bfsLvNext f) i
          (Poll.BfsLv.of (stateAfter Poll.bfsNext k (⟨some n, []⟩ : Poll.Pre N I))) =
        .ok (Tree.onlyLeaves ((treeOf n).markLeaves.levelOrder.drop k))[i]? := by
  have hr := (Poll.nthCall_sim Poll.BfsRel Poll.bfsNext_sim k (s := (⟨some n, []⟩ : Poll.Pre N I)) (t := Bfs.new n)
    ⟨rfl, .nil⟩).2
  obtain ⟨m, o, rfl, ho⟩ := Poll.nthCallE_sim_ok Poll.BfsLvRel Eq Poll.bfsLvNext_sim i
    (s := Poll.BfsLv.of (stateAfter Poll.bfsNext k (⟨some n, []⟩ : Poll.Pre N I)))
    (t := Bfs.leaves (stateAfter Bfs.next k (Bfs.new n))) ⟨hr.1, hr.2, .nil⟩ (Poll.nthCallE_ok _ i _)
  refine ⟨m, fun f hf => ?_⟩
  rw [ho f hf, C19_bfs_leaves]

end

/-- C50 fails for breadth-first `attach_ancestors().leaves()` on a root without children.  Its slice is followed by that
of a ghost: the child iterator is asked again after it has answered `None`.  Asked only once, there would be nothing
but the root. -/
theorem C50_bfs_ancestors_leaves_false :
    ((treeOf (Tree.node 0 [] : Tree Nat)).located.leaves.map Pos.ancestors) = [[0]] ∧
      answersE (Poll.bfsLvAncNext 9) 2 (Poll.BfsLvAnc.of (Poll.BfsAnc.new (Tree.node 0 [] : Tree Nat)) :
          Poll.BfsLvAnc (Tree Nat) Nat (Option (List (Tree Nat)))) =
        some [some [0], some [0, 99]] := by
  decide +kernel

section
variable [PollTree N V I]

theorem bfsAnc_isRoot [TreeNode N V] (k : Nat) : ∀ (s s' : Bfs.AncState N V),
    stateAfterE Bfs.ancNext k s = .ok s' → (s.isRoot = false ∨ 0 < k) → s'.isRoot = false := by
  have step : ∀ (s : Bfs.AncState N V) (o : Option (List V)) (s' : Bfs.AncState N V),
      Bfs.ancNext s = .ok (o, s') → s'.isRoot = false := by
    intro s o s' h
    rw [Bfs.ancNext, streamNextE] at h
    split at h
    · cases h
    · next ha =>
      cases h
      rw [Bfs.ancAdvance] at ha
      split at ha
      · cases ha; rfl
      · generalize s.queue = q at ha
        generalize s.cs = cs at ha
        induction q generalizing cs with
        | nil =>
          rw [Bfs.ancLoop] at ha
          split at ha <;> simp at ha
        | cons it q ih =>
          rw [Bfs.ancLoop] at ha
          split at ha
          · cases ha
          · cases it with
            | cons n ns => cases ha; rfl
            | nil =>
              simp only at ha
              split at ha
              · cases ha
              · split at ha
                · cases ha; rfl
                · exact ih _ ha
  induction k with
  | zero =>
    intro s s' h hs
    cases h
    simpa using hs
  | succ k ih =>
    intro s s' h _
    rw [stateAfterE] at h
    split at h
    · cases h
    · next o s1 h1 => exact ih s1 s' h (.inl (step _ _ _ h1))

/-- C50, breadth-first `attach_ancestors().leaves()`, where it holds: the root has children, or `leaves()` is called
after the first call.  Missing: a root without children whose `leaves()` is called at the start and whose child iterator does
not go on to answer `None` (`C50_bfs_ancestors_leaves_false`). -/
theorem C50_bfs_ancestors_leaves_partial (n : N) (k : Nat) (hk : k ≤ (treeOf n).size + 1)
    (hn : kids n ≠ [] ∨ 0 < k) :
    ∃ s', stateAfterE (Poll.bfsAncNext N) k (Poll.BfsAnc.new n : Poll.BfsAnc V I) = .ok s' ∧
      ∀ i, ∃ m, ∀ f, m ≤ f → nthCallE (Poll.bfsLvAncNext f) i (Poll.BfsLvAnc.of s' : Poll.BfsLvAnc N V I) =
        .ok ((Tree.onlyLeaves ((treeOf n).located.markLeaves.levelOrder.drop k)).map Pos.ancestors)[i]? := by
  obtain ⟨s, h1, h2⟩ := C22_bfs_ancestors_leaves n
  cases h1
  obtain ⟨t', ht, hl⟩ := h2 k hk
  obtain ⟨m, s', hr, hs⟩ := Poll.nthCallE_sim (f := fun _ => Poll.bfsAncNext N) Poll.BfsAncRel Eq
    Poll.bfsAncNext_sim k (bfsAncRel_new n) ht
  refine ⟨s', hs m (Nat.le_refl m), fun i => ?_⟩
  have hroot : t'.isRoot = true → ∃ c cs q, t'.queue = (c :: cs) :: q := by
    intro hroot
    cases k with
    | succ k =>
      have := bfsAnc_isRoot (k + 1) _ _ ht (.inr (Nat.succ_pos k))
      rw [hroot] at this
      cases this
    | zero =>
      cases ht
      obtain ⟨c, cs, hc⟩ := List.exists_cons_of_ne_nil (hn.resolve_right (Nat.lt_irrefl 0))
      exact ⟨c, cs, [], by simp [Bfs.AncState.new, hc]⟩
  have hr2 : Poll.BfsLvAncRel (Poll.BfsLvAnc.of s' : Poll.BfsLvAnc N V I) t' := by
    refine ⟨hr.1, hr.2.1, ?_, hroot⟩
    show List.Forall₂ Poll.PeekGives (s'.queue.map (Poll.Peek.mk none)) t'.queue
    rw [List.forall₂_map_left_iff]
    exact hr.2.2
  obtain ⟨m, o, rfl, ho⟩ := Poll.nthCallE_sim_ok Poll.BfsLvAncRel Eq Poll.bfsLvAncNext_sim i hr2 (hl i)
  exact ⟨m, ho⟩

/-- C50, breadth-first `attach_ancestors().leaves()` on a root without children whose child iterator, when it is asked again,
answers `None` again. -/
theorem C50_bfs_ancestors_leaves_single_partial (n : N) (hn : kids n = [])
    (h2 : (poll (N := N) (poll (N := N) (splitI n).2).2).1 = none) (f : Nat) (hf : 2 ≤ f) (i : Nat) :
    nthCallE (Poll.bfsLvAncNext f) i (Poll.BfsLvAnc.of (Poll.BfsAnc.new n) : Poll.BfsLvAnc N V I) =
      .ok ((treeOf n).located.leaves.map Pos.ancestors)[i]? := by
  obtain ⟨f, rfl⟩ : ∃ g, f = g + 2 := ⟨f - 2, by omega⟩
  have h1 : (poll (N := N) (splitI n).2).1 = none := by
    have := PollTree.splitI_gives n
    rw [hn] at this
    cases this
    assumption
  have hr : (⟨[val n], [], .mk none []⟩ : Bfs.CacheState V).retire = .ok ⟨[val n], [], .mk none []⟩ := by
    simp [Bfs.CacheState.retire, Bfs.CacheState.topChildren, Bfs.Cache.children, Bfs.CacheState.dropSpent, Bfs.CacheState.advanceDfs]
  have hs : Bfs.settle (⟨[val n], [], .mk none []⟩ : Bfs.CacheState V) = .ok ⟨[val n], [], .mk none []⟩ := by
    simp [Bfs.settle]
  have hl : ((treeOf n).located.leaves.map Pos.ancestors) = [[val n]] := by
    rw [treeOf, unfold_eq, hn]
    rfl
  have c0 : Poll.bfsLvAncNext (f + 2) (Poll.BfsLvAnc.of (Poll.BfsAnc.new n) : Poll.BfsLvAnc N V I) =
      .ok (some [val n], ⟨false, ⟨[val n], [], .mk none []⟩, [⟨none, (poll (N := N) (splitI n).2).2⟩]⟩) := by
    simp [Poll.bfsLvAncNext, streamNextE, Poll.bfsLvAncAdvance, Poll.BfsLvAnc.of, Poll.BfsAnc.new, Poll.bfsLvAncLoop,
      PollTree.splitI_value, hs, Poll.Peek.next, h1, Poll.bfsLvAncGet]
  have c1 : Poll.bfsLvAncNext (f + 2) (⟨false, ⟨[val n], [], .mk none []⟩, [⟨none, (poll (N := N) (splitI n).2).2⟩]⟩ :
      Poll.BfsLvAnc N V I) = .ok (none, ⟨false, ⟨[], [], .mk none []⟩, []⟩) := by
    simp [Poll.bfsLvAncNext, streamNextE, Poll.bfsLvAncAdvance, Poll.bfsLvAncLoop, hs, hr, Poll.Peek.next, h2, Poll.bfsLvAncGet]
  have c2 : ∀ i, nthCallE (Poll.bfsLvAncNext (f + 2)) i (⟨false, ⟨[], [], .mk none []⟩, []⟩ : Poll.BfsLvAnc N V I) = .ok none := by
    intro i
    have : Poll.bfsLvAncNext (f + 2) (⟨false, ⟨[], [], .mk none []⟩, []⟩ : Poll.BfsLvAnc N V I) =
        .ok (none, ⟨false, ⟨[], [], .mk none []⟩, []⟩) := by
      simp [Poll.bfsLvAncNext, streamNextE, Poll.bfsLvAncAdvance, Poll.bfsLvAncLoop, Poll.bfsLvAncGet]
    induction i with
    | zero => simp [nthCallE, stateAfterE, this]
    | succ i ih => simpa [nthCallE, stateAfterE, this] using ih
  rw [hl]
  match i with
  | 0 => simp [nthCallE, stateAfterE, c0]
  | 1 => simp [nthCallE, stateAfterE, c0, c1]
  | i + 2 =>
    have := c2 i
    simpa [nthCallE, stateAfterE, c0, c1] using this

end

example := @C50_bfs_ancestors_leaves_single_partial (Tree Nat) Nat (List (Tree Nat)) fusedTree (.node 0 []) rfl rfl 2 (by decide)

example : answersE (Poll.lvNext 20) 5 (Poll.Lv.ofPre ⟨some sampleTree, []⟩ :
      Poll.Lv (Tree Nat) Nat (Option (List (Tree Nat)))) =
    some [some 3, some 4, some 5, none, none] := by decide +kernel

example : answersE (Poll.lvAncNext 20) 4 (Poll.LvAnc.ofPre ⟨some sampleTree, [], []⟩ :
      Poll.LvAnc (Tree Nat) Nat (Option (List (Tree Nat)))) =
    some [some [0, 1, 3], some [0, 1, 4], some [0, 2, 5], none] := by decide +kernel

example : answersE (Poll.lvNext 20) 3 (Poll.Lv.ofPre (stateAfter Poll.preNext 1 ⟨some sampleTree, []⟩) :
      Poll.Lv (Tree Nat) Nat (Option (List (Tree Nat)))) =
    some [some 3, some 4, some 5] := by decide +kernel

example : answersE (Poll.lvAncNext 20) 4 (Poll.LvAnc.ofPre (stateAfter Poll.preAncNext 2 ⟨some sampleTree, [], []⟩) :
      Poll.LvAnc (Tree Nat) Nat (Option (List (Tree Nat)))) =
    answersE (fun s => .ok (Leaves.ancNext s)) 4
      (Leaves.ofPreorderAnc (stateAfter Preorder.ancNext 2 (Preorder.AncState.new sampleTree))) := by decide +kernel

example : answersE (Poll.bfsLvNext 20) 4 (Poll.BfsLv.of (stateAfter Poll.bfsNext 4
      (⟨some sampleTree, []⟩ : Poll.Pre (Tree Nat) (Option (List (Tree Nat)))))) =
    some [some 4, some 5, none, none] := by decide +kernel

example : answersE (Poll.bfsLvAncNext 20) 5 (Poll.BfsLvAnc.of (Poll.BfsAnc.new sampleTree) :
      Poll.BfsLvAnc (Tree Nat) Nat (Option (List (Tree Nat)))) =
    some [some [0, 1, 3], some [0, 1, 4], some [0, 2, 5], none, none] := by decide +kernel

/-! ## Collections

The source yields the trees `ns`, then `None`; `ghosts` is what it would answer after that.  Up to and including the
first `None` of the traversal nothing of it is seen.  (Pipelines over collections fuse the source first.) -/

/-- C50, breadth-first traversal of a collection. -/
theorem C50_collection_bfs [TreeNode N V] (ns : List N) (ghosts : List (Option N)) (k : Nat)
    (hk : k ≤ (ns.flatMap fun n => (treeOf n).levelOrder).length) :
    nthCall (Poll.sourceNext Bfs.new Bfs.next) k ⟨ns.map some ++ none :: ghosts, none⟩ =
      (ns.flatMap fun n => (treeOf n).levelOrder)[k]? :=
  Poll.source_calls_of _ _ ns ghosts (C25_bfs ns) k hk

example := C50_collection_bfs [sampleTree, .node 7 []] [some sampleTree, none] 7 (by decide +kernel)

/-- C50, preorder traversal of a collection. -/
theorem C50_collection_preorder [TreeNode N V] (ns : List N) (ghosts : List (Option N)) (k : Nat)
    (hk : k ≤ (ns.flatMap fun n => (treeOf n).preorder).length) :
    nthCall (Poll.sourceNext Preorder.new Preorder.next) k ⟨ns.map some ++ none :: ghosts, none⟩ =
      (ns.flatMap fun n => (treeOf n).preorder)[k]? :=
  Poll.source_calls_of _ _ ns ghosts (C25_preorder ns) k hk

example := C50_collection_preorder [sampleTree, .node 7 []] [some sampleTree, none] 7 (by decide +kernel)

/-- C50, postorder traversal of a collection. -/
theorem C50_collection_postorder [TreeNode N V] (ns : List N) (ghosts : List (Option N)) (k : Nat)
    (hk : k ≤ (ns.flatMap fun n => (treeOf n).postorder).length) :
    nthCall (Poll.sourceNext Postorder.new Postorder.next) k ⟨ns.map some ++ none :: ghosts, none⟩ =
      (ns.flatMap fun n => (treeOf n).postorder)[k]? :=
  Poll.source_calls_of _ _ ns ghosts (C25_postorder ns) k hk

example := C50_collection_postorder [sampleTree, .node 7 []] [some sampleTree, none] 7 (by decide +kernel)

/-- C50, inorder traversal of a collection. -/
theorem C50_collection_inorder [BinNode N V] (ns : List N) (ghosts : List (Option N)) (k : Nat)
    (hk : k ≤ (ns.flatMap fun n => (binTreeOf n).inorder).length) :
    nthCall (Poll.sourceNext Inorder.new Inorder.next) k ⟨ns.map some ++ none :: ghosts, none⟩ =
      (ns.flatMap fun n => (binTreeOf n).inorder)[k]? :=
  Poll.source_calls_of _ _ ns ghosts (C25_inorder ns) k hk

/-- After the `None` a source that goes on makes the traversal go on. -/
example : answers (Poll.sourceNext Preorder.new Preorder.next) 5
      ⟨[Tree.node 10 [], .node 20 [.node 21 []]].map some ++ none :: [some (.node 99 [])], none⟩ =
    [some 10, some 20, some 21, none, some 99] := by decide +kernel

end TreeIter
