import Verif.Lemmas.LeavesMid
import Verif.Props.DepthFirst
import Verif.Props.Leaves
import Verif.Lemmas.Positions

/-!
# C18: `leaves()` in the middle of a depth-first traversal

The documented behaviour (exactly the leaves not yet visited) fails in all three orders.  What the code does
is stated exactly: a leaf that has not been visited is found if and only if no node of the subtree of its
parent has been visited.
-/

universe u v

namespace TreeIter

variable {N : Type u} {V : Type v}

/-- The leaves not yet visited: what `leaves()` should yield after `visited`. -/
def leavesLeft (t : Tree (Pos V)) (visited : List (Pos V)) : List V :=
  (t.leaves.filter fun x => !visited.any fun y => x.path == y.path).map Pos.item

/-- The leaves for which no node in the subtree of the parent has been visited. -/
def leavesFound (t : Tree (Pos V)) (visited : List (Pos V)) : List V :=
  (t.leaves.filter fun x => !visited.any fun y => x.path.dropLast.isPrefixOf y.path).map Pos.item

/-- Leaves of a tree whose root has two childless children. -/
def twoLeaves : Tree Nat := .node 0 [.node 1 [], .node 2 []]

/-- A binary tree whose root has two childless children. -/
def twoLeavesBin : BinTree Nat := .node 0 (some (.node 1 none none)) (some (.node 2 none none))

/-- C18 fails in preorder: after the root has been visited, `leaves()` yields nothing though both leaves are left. -/
theorem C18_preorder_false :
    leavesLeft twoLeaves.located (twoLeaves.located.preorder.take 1) = [1, 2] ∧
      nthCall Leaves.next 0 (Leaves.ofPreorder (stateAfter Preorder.next 1 (Preorder.new twoLeaves))) = none := by
  decide +kernel

/-- C18 fails in postorder: after the first leaf has been visited, `leaves()` does not yield the second. -/
theorem C18_postorder_false :
    leavesLeft twoLeaves.located (twoLeaves.located.postorder.take 1) = [2] ∧
      nthCall Leaves.next 0 (Leaves.ofPostorder (stateAfter Postorder.next 1 (Postorder.new twoLeaves))) = none := by
  decide +kernel

/-- C18 fails in order: after the first leaf has been visited, `leaves()` does not yield the second. -/
theorem C18_inorder_false :
    leavesLeft twoLeavesBin.located.toTree (twoLeavesBin.located.inorder.take 1) = [2] ∧
      (Leaves.ofInorder (stateAfter Inorder.next 1 (Inorder.new twoLeavesBin))).toOption.map (nthCall Leaves.next 0) =
        some none := by
  decide +kernel

theorem leavesFound_decor (t : Tree (Pos V)) (vis : List (Pos V)) :
    (((t.map Leaves.Pos.pathItem).leaves.filter fun x =>
        !(vis.map Leaves.Pos.pathItem).any fun y => x.1.dropLast.isPrefixOf y.1).map Prod.snd) =
      leavesFound t vis := by
  rw [Tree.leaves_map, List.filter_map, List.map_map, leavesFound]
  congr 1
  apply List.filter_congr
  intro x _
  simp [Leaves.Pos.pathItem, Function.comp_def]

theorem leavesFound_nil (t : Tree V) : leavesFound t.located [] = t.leaves := by
  rw [leavesFound, List.filter_eq_self.2 (by simp), ← Tree.leaves_map, map_item_located]

/-- Whatever `leaves()` finds has not been visited, and comes once, left to right. -/
theorem C18_found_are_left (t : Tree (Pos V)) (vis : List (Pos V)) :
    (leavesFound t vis).Sublist (leavesLeft t vis) := by
  apply List.Sublist.map
  apply List.monotone_filter_right
  intro x h
  simp only [Bool.not_eq_eq_eq_not, Bool.not_true, List.any_eq_false] at h ⊢
  intro y hy e
  refine h y hy ?_
  rw [List.isPrefixOf_iff_prefix, ← eq_of_beq e]
  exact List.dropLast_prefix _

/-- C18, preorder, as far as it holds.  Missing: unvisited leaves whose parent has been visited are not found. -/
theorem C18_preorder_partial [TreeNode N V] (n : N) (k i : Nat) :
    nthCall Leaves.next i (Leaves.ofPreorder (stateAfter Preorder.next k (Preorder.new n))) =
      (leavesFound (treeOf n).located ((treeOf n).located.preorder.take k))[i]? := by
  cases k with
  | zero => rw [stateAfter, C17_preorder_leaves, List.take_zero, leavesFound_nil]
  | succ k =>
    obtain ⟨h1, h2, _⟩ := Leaves.preBottom n k
    rw [nthCall_spec Leaves.Inv Leaves.rem Leaves.next_spec (by simp [Leaves.Inv, Leaves.ofPreorder])]
    simp only [Leaves.rem, Leaves.ofPreorder, h1, h2, Leaves.topRem]
    rw [Leaves.at_treeOf n [] [], ← leavesFound_decor, Tree.preorder_map, List.map_take]
    rfl

/-- After 0 and its first child 1 have been visited, the children 3 and 4 of 1 are lost; 5, below the unvisited 2,
is found. -/
example : answers Leaves.next 3 (Leaves.ofPreorder (stateAfter Preorder.next 2 (Preorder.new sampleTree))) =
    [some 5, none, none] := by decide +kernel

/-- C18, postorder, as far as it holds.  Missing: unvisited leaves that have a sibling whose subtree has been
visited, wholly or partly, are not found. -/
theorem C18_postorder_partial [TreeNode N V] (n : N) (k i : Nat) :
    nthCall Leaves.next i (Leaves.ofPostorder (stateAfter Postorder.next k (Postorder.new n))) =
      (leavesFound (treeOf n).located ((treeOf n).located.postorder.take k))[i]? := by
  cases k with
  | zero => rw [stateAfter, C17_postorder_leaves, List.take_zero, leavesFound_nil]
  | succ k =>
    obtain ⟨h1, h2, _⟩ := Leaves.postBottom n k
    rw [nthCall_spec Leaves.Inv Leaves.rem Leaves.next_spec (by simp [Leaves.Inv, Leaves.ofPostorder])]
    simp only [Leaves.rem, Leaves.ofPostorder, h1, h2, Leaves.topRem]
    rw [Leaves.at_treeOf n [] [], ← leavesFound_decor, Tree.postorder_map, List.map_take]
    rfl

example : answers Leaves.next 3 (Leaves.ofPostorder (stateAfter Postorder.next 1 (Postorder.new sampleTree))) =
    [some 5, none, none] := by decide +kernel

/-- C18, in order, as far as it holds.  Missing: an unvisited leaf whose parent or its sibling's subtree has been
visited, wholly or partly, is not found.  `leaves()` does not panic at any point. -/
theorem C18_inorder_partial [BinNode N V] (n : N) (k : Nat) :
    ∃ s, Leaves.ofInorder (stateAfter Inorder.next k (Inorder.new n)) = .ok s ∧
      ∀ i, nthCall Leaves.next i s =
        (leavesFound (binTreeOf n).located.toTree ((binTreeOf n).located.inorder.take k))[i]? := by
  cases k with
  | zero =>
    obtain ⟨s, h1, h2⟩ := C17_inorder_leaves n
    refine ⟨s, h1, fun i => ?_⟩
    rw [h2, List.take_zero, leavesFound, List.filter_eq_self.2 (by simp), ← Tree.leaves_map, ← BinTree.toTree_map,
      map_item_located2]
  | succ k =>
    obtain ⟨h1, h2, _⟩ := Leaves.inBottom n k
    refine ⟨_, by rw [Leaves.ofInorder, if_pos h1], fun i => ?_⟩
    rw [nthCall_spec Leaves.Inv Leaves.rem Leaves.next_spec (by simp [Leaves.Inv])]
    simp only [Leaves.rem, h2, Leaves.topRem]
    rw [treeOf_eq_toTree, Leaves.at2_binTreeOf n [] [], BinTree.toTree_map, ← leavesFound_decor, BinTree.inorder_map,
      List.map_take]
    rfl

/-- After 1, 3 and 0 have been visited, 4 is found below the unvisited 2. -/
example : (Leaves.ofInorder (stateAfter Inorder.next 3 (Inorder.new sampleBin))).toOption.map (answers Leaves.next 3) =
    some [some 4, none, none] := by decide +kernel

end TreeIter
