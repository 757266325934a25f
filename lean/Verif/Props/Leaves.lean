import Verif.Lemmas.Leaves
import Verif.Lemmas.Located
import Verif.Props.Samples

/-! # C17, C20: leaves from the start of a depth-first traversal -/

universe u v

namespace TreeIter

variable {N : Type u} {V : Type v}

/-- C17, preorder. -/
theorem C17_preorder_leaves [TreeNode N V] (n : N) (i : Nat) :
    nthCall Leaves.next i (Leaves.ofPreorder (Preorder.new n)) = (treeOf n).leaves[i]? := by
  rw [nthCall_spec Leaves.Inv Leaves.rem Leaves.next_spec (by simp [Leaves.Inv, Leaves.ofPreorder, Preorder.new])]
  simp [Leaves.rem, Leaves.ofPreorder, Preorder.new, Leaves.topRem, Leaves.botRem]

example : answers Leaves.next 5 (Leaves.ofPreorder (Preorder.new sampleTree)) =
    [some 3, some 4, some 5, none, none] := by decide +kernel

/-- C17, postorder. -/
theorem C17_postorder_leaves [TreeNode N V] (n : N) (i : Nat) :
    nthCall Leaves.next i (Leaves.ofPostorder (Postorder.new n)) = (treeOf n).leaves[i]? := by
  rw [nthCall_spec Leaves.Inv Leaves.rem Leaves.next_spec (by simp [Leaves.Inv, Leaves.ofPostorder, Postorder.new])]
  simp [Leaves.rem, Leaves.ofPostorder, Postorder.new, Leaves.topRem, Leaves.botRem]

example : answers Leaves.next 5 (Leaves.ofPostorder (Postorder.new sampleTree)) =
    [some 3, some 4, some 5, none, none] := by decide +kernel

/-- C17, inorder. -/
theorem C17_inorder_leaves [BinNode N V] (n : N) :
    ∃ s, Leaves.ofInorder (Inorder.new n) = .ok s ∧
      ∀ i, nthCall Leaves.next i s = (binTreeOf n).toTree.leaves[i]? := by
  refine ⟨_, rfl, fun i => ?_⟩
  rw [nthCall_spec Leaves.Inv Leaves.rem Leaves.next_spec (by simp [Leaves.Inv, Inorder.new])]
  simp [Leaves.rem, Leaves.topRem, Leaves.botRem, treeOf_eq_toTree]

example : (Leaves.ofInorder (Inorder.new sampleBin)).toOption.map (answers Leaves.next 4) =
    some [some 3, some 4, none, none] := by decide +kernel

/-- C20, preorder. -/
theorem C20_preorder_leaves_ancestors [TreeNode N V] (n : N) :
    ∃ s, Preorder.attachAncestors (Preorder.new n) = .ok s ∧
      ∀ i, nthCall Leaves.ancNext i (Leaves.ofPreorderAnc s) =
        ((treeOf n).located.leaves.map Pos.ancestors)[i]? := by
  refine ⟨_, rfl, fun i => ?_⟩
  rw [nthCall_spec Leaves.AncInv Leaves.ancRem Leaves.ancNext_spec
    (by simp [Leaves.AncInv, Leaves.ofPreorderAnc, Preorder.AncState.new]), ← Tree.leaves_map, Tree.located,
    map_ancestors_withPos]
  simp [Leaves.ancRem, Leaves.ofPreorderAnc, Preorder.AncState.new]

example : answers Leaves.ancNext 5 (Leaves.ofPreorderAnc (Preorder.AncState.new sampleTree)) =
    [some [0, 1, 3], some [0, 1, 4], some [0, 2, 5], none, none] := by decide +kernel

/-- C20, postorder. -/
theorem C20_postorder_leaves_ancestors [TreeNode N V] (n : N) :
    ∃ s, Postorder.attachAncestors (Postorder.new n) = .ok s ∧
      ∀ i, nthCall Leaves.ancNext i (Leaves.ofPostorderAnc s) =
        ((treeOf n).located.leaves.map Pos.ancestors)[i]? := by
  refine ⟨_, rfl, fun i => ?_⟩
  rw [nthCall_spec Leaves.AncInv Leaves.ancRem Leaves.ancNext_spec
    (by simp [Leaves.AncInv, Leaves.ofPostorderAnc, Postorder.AncState.new]), ← Tree.leaves_map, Tree.located,
    map_ancestors_withPos]
  simp [Leaves.ancRem, Leaves.ofPostorderAnc, Postorder.AncState.new]

example : answers Leaves.ancNext 5 (Leaves.ofPostorderAnc (Postorder.AncState.new sampleTree)) =
    [some [0, 1, 3], some [0, 1, 4], some [0, 2, 5], none, none] := by decide +kernel

/-- C20, inorder. -/
theorem C20_inorder_leaves_ancestors [BinNode N V] (n : N) :
    ∃ s, Inorder.attachAncestors (Inorder.new n) = .ok s ∧
      ∀ i, nthCall Leaves.ancNext i (Leaves.ofInorderAnc s) =
        ((binTreeOf n).toTree.located.leaves.map Pos.ancestors)[i]? := by
  refine ⟨_, rfl, fun i => ?_⟩
  rw [nthCall_spec Leaves.AncInv Leaves.ancRem Leaves.ancNext_spec
    (by simp [Leaves.AncInv, Leaves.ofInorderAnc, Inorder.AncState.new]), ← Tree.leaves_map, Tree.located,
    map_ancestors_withPos, ← treeOf_eq_toTree]
  simp [Leaves.ancRem, Leaves.ofInorderAnc, Inorder.AncState.new]

example : answers Leaves.ancNext 4 (Leaves.ofInorderAnc (Inorder.AncState.new sampleBin)) =
    [some [0, 1, 3], some [0, 2, 4], none, none] := by decide +kernel

end TreeIter
