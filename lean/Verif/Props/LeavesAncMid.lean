import Verif.Lemmas.LeavesAncFirst
import Verif.Lemmas.LeavesAncMid
import Verif.Props.LeavesMid

/-!
# C21: `attach_ancestors().leaves()` in the middle of a depth-first traversal

The documented behaviour fails in all three orders: slices lack ancestors or contain strangers, the order is
not left to right, and `None` may come before the last leaf.  What holds: if the caller goes on calling after
`None`, the slices handed out end in exactly the unvisited leaves, each once.
-/

universe u v

namespace TreeIter

variable {N : Type u} {V : Type v}

/-- The root-to-leaf slices of the leaves not yet visited: what should come after `visited`. -/
def slicesLeft (t : Tree (Pos V)) (visited : List (Pos V)) : List (List V) :=
  (t.leaves.filter fun x => !visited.any fun y => x.path == y.path).map Pos.ancestors

/-- `0` with children `1`, `2` (child `3` with child `5`, and child `4`) and `6`. -/
def midTree : Tree Nat := .node 0 [.node 1 [], .node 2 [.node 3 [.node 5 []], .node 4 []], .node 6 []]

/-- C21 fails in preorder.  After 0, 1, 2, 3 have been visited, the slice of 5 lacks 3, that of 4 lacks
2, then comes `None`, then the slice of 6, lacking 0. -/
theorem C21_preorder_false :
    slicesLeft midTree.located (midTree.located.preorder.take 4) = [[0, 2, 3, 5], [0, 2, 4], [0, 6]] ∧
      answers Leaves.ancNext 5 (Leaves.ofPreorderAnc (stateAfter Preorder.ancNext 4 (Preorder.AncState.new midTree))) =
        [some [0, 2, 5], some [0, 4], none, some [6], none] := by
  decide +kernel

/-- C21 fails in postorder.  After 1 has been visited, 6 comes before 4 and their slices contain strangers. -/
theorem C21_postorder_false :
    slicesLeft midTree.located (midTree.located.postorder.take 1) = [[0, 2, 3, 5], [0, 2, 4], [0, 6]] ∧
      answers Leaves.ancNext 4 (Leaves.ofPostorderAnc (stateAfter Postorder.ancNext 1 (Postorder.AncState.new midTree))) =
        [some [0, 2, 3, 5], some [0, 2, 3, 6], some [0, 2, 3, 4], none] := by
  decide +kernel

/-- `0` with left child `1` (children `3`, `4`) and right child `2` (children `5`, `6`). -/
def fullBin : BinTree Nat :=
  .node 0 (some (.node 1 (some (.node 3 none none)) (some (.node 4 none none))))
    (some (.node 2 (some (.node 5 none none)) (some (.node 6 none none))))

/-- C21 fails in order.  After 3 has been visited, the slice of 4 lacks 1, then comes `None`, then the slices of 5
and 6, lacking 0. -/
theorem C21_inorder_false :
    slicesLeft fullBin.located.toTree (fullBin.located.inorder.take 1) = [[0, 1, 4], [0, 2, 5], [0, 2, 6]] ∧
      (stateAfterE Inorder.ancNext 1 (Inorder.AncState.new fullBin)).toOption.map
        (fun s => answers Leaves.ancNext 5 (Leaves.ofInorderAnc s)) =
        some [some [0, 4], none, some [2, 5], some [2, 6], none] := by
  decide +kernel

theorem leavesLeft_decor (t : Tree (Pos V)) (vis : List (Pos V)) :
    (((t.map Leaves.Pos.pathItem).leaves.filter fun x =>
        !(vis.map Leaves.Pos.pathItem).any fun y => x.1 == y.1).map Prod.snd) = leavesLeft t vis := by
  rw [Tree.leaves_map, List.filter_map, List.map_map, leavesLeft]
  congr 1
  apply List.filter_congr
  intro x _
  simp [Leaves.Pos.pathItem, Function.comp_def]

theorem leavesLeft_nil (t : Tree V) : leavesLeft t.located [] = t.leaves := by
  rw [leavesLeft, List.filter_eq_self.2 (by simp), ← Tree.leaves_map, map_item_located]

/-- C21, preorder, as far as it holds: if calls go on after `None`, the leaves handed out (last elements of the
slices) are the unvisited leaves, each once.  Missing: their order, the rest of each slice, and `None` only at the
end. -/
theorem C21_preorder_partial [TreeNode N V] (n : N) (k : Nat) :
    ∃ m, ∀ j, m ≤ j →
      ((Leaves.outs Leaves.ancNext j
        (Leaves.ofPreorderAnc (stateAfter Preorder.ancNext k (Preorder.AncState.new n)))).filterMap List.getLast?).Perm
      (leavesLeft (treeOf n).located ((treeOf n).located.preorder.take k)) := by
  have hst := Leaves.preAnc_stack k (Preorder.AncState.new n)
  have he : Leaves.ancPend (Leaves.ofPreorderAnc (stateAfter Preorder.ancNext k (Preorder.AncState.new n))) =
      leavesLeft (treeOf n).located ((treeOf n).located.preorder.take k) := by
    cases k with
    | zero =>
      rw [List.take_zero, leavesLeft_nil]
      simp [Leaves.ancPend, Leaves.ofPreorderAnc, stateAfter, Preorder.AncState.new, Leaves.topRem]
    | succ k =>
      obtain ⟨h1, _, h3⟩ := Leaves.preBottom n k
      have e1 := hst.1.trans h1
      have e2 := (congrArg Leaves.topRem hst.2).trans h3
      simp only [Leaves.ancPend, Leaves.ofPreorderAnc, e1, e2]
      rw [Leaves.at_treeOf n [] [], ← leavesLeft_decor, Tree.preorder_map, List.map_take]
      simp [Leaves.topRem, Tree.located]
  rw [← he]
  apply Leaves.ancOuts_perm
  intro h
  cases k with
  | zero => exact ⟨rfl, rfl⟩
  | succ k => exact absurd (hst.1.trans (Leaves.preBottom n k).1) h

/-- The slices of the third state of `C21_preorder_false`: their last elements are 5, 4 and 6. -/
example : (Leaves.outs Leaves.ancNext 5
    (Leaves.ofPreorderAnc (stateAfter Preorder.ancNext 4 (Preorder.AncState.new midTree)))).filterMap List.getLast? =
    [5, 4, 6] := by decide +kernel

/-- C21 fails in preorder at every point but the start: once a node has been visited, and as long as leaves are left,
the first answer is `None` or the expected slice without one of the ancestors, never the expected slice. -/
theorem C21_preorder_always_false [TreeNode N V] (n : N) (k : Nat) (e : List V)
    (h : (slicesLeft (treeOf n).located ((treeOf n).located.preorder.take (k + 1))).head? = some e) :
    let o := nthCall Leaves.ancNext 0
      (Leaves.ofPreorderAnc (stateAfter Preorder.ancNext (k + 1) (Preorder.AncState.new n)))
    o ≠ some e ∧ (o = none ∨ ∃ j, j + 1 < e.length ∧ o = some (e.eraseIdx j)) := by
  obtain ⟨h1, h2, h3⟩ := Leaves.preMarks_calls n k
  rw [slicesLeft, unseen_slices_preorder, ← h3, Leaves.preMarks_leaves] at h
  generalize stateAfter Preorder.ancNext (k + 1) (Preorder.AncState.new n) = s at h h1 h2
  obtain ⟨root, stack, items⟩ := s
  simp only at h h1 h2
  subst h1
  have key : Leaves.ancGet (Leaves.ancLoop stack [] items.tail false) = none ∨ ∃ j, j + 1 < e.length ∧
      Leaves.ancGet (Leaves.ancLoop stack [] items.tail false) = some (e.eraseIdx j) := by
    cases items with
    | nil =>
      obtain rfl : stack = [] := by simpa using h2.symm
      simp [Leaves.slices] at h
    | cons x items => exact Leaves.first_shifted stack x items e h
  refine ⟨?_, key⟩
  show Leaves.ancGet (Leaves.ancLoop stack [] items.tail false) ≠ some e
  rcases key with key | ⟨j, hj, key⟩
  · simp [key]
  · rw [key]
    intro h'
    have := congrArg List.length (Option.some.inj h')
    rw [List.length_eraseIdx_of_lt (by omega)] at this
    omega

example : (slicesLeft midTree.located (midTree.located.preorder.take 4)).head? = some [0, 2, 3, 5] ∧
    nthCall Leaves.ancNext 0 (Leaves.ofPreorderAnc (stateAfter Preorder.ancNext 4 (Preorder.AncState.new midTree))) =
      some ([0, 2, 3, 5].eraseIdx 2) := by decide +kernel

/-- C21, postorder: at every point of the traversal the first answer is right. -/
theorem C21_postorder_first_partial [TreeNode N V] (n : N) (k : Nat) :
    nthCall Leaves.ancNext 0 (Leaves.ofPostorderAnc (stateAfter Postorder.ancNext k (Postorder.AncState.new n))) =
      (slicesLeft (treeOf n).located ((treeOf n).located.postorder.take k)).head? := by
  cases k with
  | zero =>
    obtain ⟨w, -, h1, h2⟩ := Leaves.first_leaf n
    rw [slicesLeft, unseen_slices_postorder, List.drop_zero, onlyLeaves_postorder, h1]
    exact h2 [] [] []
  | succ k =>
    obtain ⟨h1, h2, h3⟩ := Leaves.postMarks_calls n k
    rw [slicesLeft, unseen_slices_postorder, ← h3, Leaves.postMarks_leaves]
    generalize stateAfter Postorder.ancNext (k + 1) (Postorder.AncState.new n) = s at h1 h2
    obtain ⟨root, items, stack⟩ := s
    simp only at h1 h2
    subst h1
    exact Leaves.first_aligned stack items.tail h2

example : nthCall Leaves.ancNext 0
    (Leaves.ofPostorderAnc (stateAfter Postorder.ancNext 2 (Postorder.AncState.new midTree))) = some [0, 2, 4] := by
  decide +kernel

/-- C21, postorder, as far as it holds; see `C21_preorder_partial`. -/
theorem C21_postorder_partial [TreeNode N V] (n : N) (k : Nat) :
    ∃ m, ∀ j, m ≤ j →
      ((Leaves.outs Leaves.ancNext j
        (Leaves.ofPostorderAnc (stateAfter Postorder.ancNext k (Postorder.AncState.new n)))).filterMap
          List.getLast?).Perm
      (leavesLeft (treeOf n).located ((treeOf n).located.postorder.take k)) := by
  have hst := Leaves.postAnc_stack k (Postorder.AncState.new n) []
  have he : Leaves.ancPend (Leaves.ofPostorderAnc (stateAfter Postorder.ancNext k (Postorder.AncState.new n))) =
      leavesLeft (treeOf n).located ((treeOf n).located.postorder.take k) := by
    cases k with
    | zero =>
      rw [List.take_zero, leavesLeft_nil]
      simp [Leaves.ancPend, Leaves.ofPostorderAnc, stateAfter, Postorder.AncState.new, Leaves.topRem]
    | succ k =>
      obtain ⟨h1, _, h3⟩ := Leaves.postBottom n k
      have e1 := hst.1.trans h1
      have e2 := (congrArg Leaves.topRem hst.2).trans h3
      simp only [Leaves.ancPend, Leaves.ofPostorderAnc, e1, e2]
      rw [Leaves.at_treeOf n [] [], ← leavesLeft_decor, Tree.postorder_map, List.map_take]
      simp [Leaves.topRem, Tree.located]
  rw [← he]
  apply Leaves.ancOuts_perm
  intro h
  cases k with
  | zero => exact ⟨rfl, rfl⟩
  | succ k => exact absurd (hst.1.trans (Leaves.postBottom n k).1) h

example : (Leaves.outs Leaves.ancNext 4
    (Leaves.ofPostorderAnc (stateAfter Postorder.ancNext 1 (Postorder.AncState.new midTree)))).filterMap List.getLast? =
    [5, 6, 4] := by decide +kernel

/-- C21, in order, as far as it holds; see `C21_preorder_partial`.  The traversal does not panic before `leaves()`. -/
theorem C21_inorder_partial [BinNode N V] (n : N) (k : Nat) :
    ∃ s, stateAfterE Inorder.ancNext k (Inorder.AncState.new n) = .ok s ∧ ∃ m, ∀ j, m ≤ j →
      ((Leaves.outs Leaves.ancNext j (Leaves.ofInorderAnc s)).filterMap List.getLast?).Perm
      (leavesLeft (binTreeOf n).located.toTree ((binTreeOf n).located.inorder.take k)) := by
  obtain ⟨s, h1, h2⟩ := Leaves.inAnc_stack k (Inorder.AncState.new n) (Inorder.new n)
    ⟨rfl, .inr ⟨rfl, rfl, rfl, .inr ⟨n, rfl⟩⟩⟩
  refine ⟨s, h1, ?_⟩
  have e0 : Leaves.ancPend (Leaves.ofInorderAnc s) = Leaves.topRem (s.right.map Option.toList) := by
    rw [Leaves.ofInorderAnc]
    split
    · next r h => cases r <;> simp [Leaves.ancPend, Leaves.topRem, h]
    · simp [Leaves.ancPend, Leaves.topRem]
  have he : Leaves.ancPend (Leaves.ofInorderAnc s) =
      leavesLeft (binTreeOf n).located.toTree ((binTreeOf n).located.inorder.take k) := by
    rw [e0, h2]
    cases k with
    | zero =>
      rw [List.take_zero, leavesLeft, List.filter_eq_self.2 (by simp), ← Tree.leaves_map, ← BinTree.toTree_map,
        map_item_located2, ← treeOf_eq_toTree]
      simp [stateAfter, Inorder.new, Leaves.topRem]
    | succ k =>
      rw [(Leaves.inBottom n k).2.2, treeOf_eq_toTree, Leaves.at2_binTreeOf n [] [], BinTree.toTree_map,
        ← leavesLeft_decor, BinTree.inorder_map, List.map_take]
      rfl
  rw [← he]
  apply Leaves.ancOuts_perm
  intro h
  revert h
  rw [Leaves.ofInorderAnc]
  split <;> simp

example : (stateAfterE Inorder.ancNext 1 (Inorder.AncState.new fullBin)).toOption.map
    (fun s => (Leaves.outs Leaves.ancNext 5 (Leaves.ofInorderAnc s)).filterMap List.getLast?) = some [4, 5, 6] := by
  decide +kernel

end TreeIter
