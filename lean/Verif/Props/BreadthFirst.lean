import Verif.Lemmas.Bfs
import Verif.Props.Samples

/-! # C04 and C19: the plain breadth-first iterator and its leaves -/

universe u v

namespace TreeIter

variable {N : Type u} {V : Type v}

/-- C04 -/
theorem C04_bfs [TreeNode N V] (n : N) (k : Nat) :
    nthCall Bfs.next k (Bfs.new n) = (treeOf n).levelOrder[k]? := by
  rw [nthCall_spec (fun _ => True) Bfs.rem (fun s _ => by
    obtain ⟨h1, h2⟩ := Bfs.next_spec s
    exact ⟨h1, h2, trivial⟩) trivial]
  simp [Bfs.new, Bfs.rem, bfsF_singleton]

example : answers Bfs.next 8 (Bfs.new sampleTree) =
    [some 0, some 1, some 2, some 3, some 4, some 5, none, none] := by decide +kernel

example : sampleTree.levelOrder = [0, 1, 2, 3, 4, 5] := by decide +kernel

/-- C04 for binary nodes. -/
theorem C04_bfs_binary [BinNode N V] (n : N) (k : Nat) :
    nthCall Bfs.next k (Bfs.new n) = (binTreeOf n).toTree.levelOrder[k]? := by
  rw [C04_bfs, treeOf_eq_toTree]

example : answers Bfs.next 7 (Bfs.new sampleBin) =
    [some 0, some 1, some 2, some 3, some 4, none, none] := by decide +kernel

/-- C19: `leaves()` after `k` calls.  `markLeaves` tells for every node whether it is childless,
`onlyLeaves` keeps the childless ones of the nodes not yet yielded. -/
theorem C19_bfs_leaves [TreeNode N V] (n : N) (k i : Nat) :
    nthCall Bfs.leavesNext i (Bfs.leaves (stateAfter Bfs.next k (Bfs.new n))) =
      (Tree.onlyLeaves ((treeOf n).markLeaves.levelOrder.drop k))[i]? := by
  have key : ∀ s : Bfs.State N, Bfs.markRem (Bfs.leaves (Bfs.next s).2) = (Bfs.markRem (Bfs.leaves s)).tail := by
    rintro ⟨root, queue⟩
    cases root with
    | some r => simp [Bfs.next, Bfs.leaves, Bfs.markRem, -List.map_cons, Bfs.bfsF_mark]
    | none =>
      induction queue with
      | nil => simp [Bfs.next, Bfs.loop, Bfs.leaves, Bfs.markRem]
      | cons ns rest ih =>
        cases ns with
        | nil => simpa [Bfs.next, Bfs.loop, Bfs.leaves, Bfs.markRem] using ih
        | cons m ns => simp [Bfs.next, Bfs.loop, Bfs.leaves, Bfs.markRem, -List.map_cons, Bfs.bfsF_mark]
  have after : ∀ (k : Nat) (s : Bfs.State N),
      Bfs.markRem (Bfs.leaves (stateAfter Bfs.next k s)) = (Bfs.markRem (Bfs.leaves s)).drop k := by
    intro k
    induction k with
    | zero => intro s; simp [stateAfter]
    | succ k ih => intro s; rw [stateAfter, ih, key, List.drop_tail]
  rw [nthCall_spec (fun _ => True) Bfs.leavesRem (fun s _ => by
    obtain ⟨h1, h2⟩ := Bfs.leavesNext_spec s
    exact ⟨h1, h2, trivial⟩) trivial, Bfs.leavesRem, after]
  simp [Bfs.new, Bfs.leaves, Bfs.markRem, bfsF_singleton]

/-- After four calls (`0`, `1`, `2`, `3`) the leaves `4` and `5` remain. -/
example : answers Bfs.leavesNext 4 (Bfs.leaves (stateAfter Bfs.next 4 (Bfs.new sampleTree))) =
    [some 4, some 5, none, none] := by decide +kernel

/-- In an unbalanced tree the leaves come in level order. -/
example : answers Bfs.leavesNext 4
    (Bfs.leaves (stateAfter Bfs.next 1 (Bfs.new (Tree.node 0 [.node 1 [.node 3 []], .node 2 []])))) =
    [some 2, some 3, none, none] := by decide +kernel

end TreeIter
