import Verif.Lemmas.Inorder
import Verif.Lemmas.Located
import Verif.Props.Samples

/-!
# C01-C03, C06-C08, C10-C13: the depth-first iterators

`treeOf n` (`binTreeOf n`) is the tree of values denoted by a user node, `unfold n` (`unfold2 n`) the tree of
the nodes themselves.  `located` decorates each node with its path and its ancestors.
`nthCall next k s` is the answer to call number `k`, counting from 0.
-/

universe u v

namespace TreeIter

variable {N : Type u} {V : Type v}

/-! ## Plain iterators -/

/-- C01 -/
theorem C01_preorder [TreeNode N V] (n : N) (k : Nat) :
    nthCall Preorder.next k (Preorder.new n) = (treeOf n).preorder[k]? := by
  rw [nthCall_spec (fun _ => True) Preorder.rem (fun s _ => by
    obtain ⟨h1, h2⟩ := Preorder.next_spec s
    exact ⟨h1, h2, trivial⟩) trivial]
  simp [Preorder.new, Preorder.rem]

example : answers Preorder.next 8 (Preorder.new sampleTree) =
    [some 0, some 1, some 3, some 4, some 2, some 5, none, none] := by decide +kernel

example : sampleTree.preorder = [0, 1, 3, 4, 2, 5] := by decide +kernel

/-- C01 for binary nodes: their children are the present slots from left to right. -/
theorem C01_preorder_binary [BinNode N V] (n : N) (k : Nat) :
    nthCall Preorder.next k (Preorder.new n) = (binTreeOf n).toTree.preorder[k]? := by
  rw [C01_preorder, treeOf_eq_toTree]

example : answers Preorder.next 7 (Preorder.new sampleBin) =
    [some 0, some 1, some 3, some 2, some 4, none, none] := by decide +kernel

/-- C02 -/
theorem C02_postorder [TreeNode N V] (n : N) (k : Nat) :
    nthCall Postorder.next k (Postorder.new n) = (treeOf n).postorder[k]? := by
  rw [nthCall_spec Postorder.Inv Postorder.rem Postorder.next_spec (by simp [Postorder.Inv, Postorder.new])]
  simp [Postorder.new, Postorder.rem]

example : answers Postorder.next 8 (Postorder.new sampleTree) =
    [some 3, some 4, some 1, some 5, some 2, some 0, none, none] := by decide +kernel

/-- C02 for binary nodes. -/
theorem C02_postorder_binary [BinNode N V] (n : N) (k : Nat) :
    nthCall Postorder.next k (Postorder.new n) = (binTreeOf n).toTree.postorder[k]? := by
  rw [C02_postorder, treeOf_eq_toTree]

example : answers Postorder.next 7 (Postorder.new sampleBin) =
    [some 3, some 1, some 4, some 2, some 0, none, none] := by decide +kernel

/-- C03 -/
theorem C03_inorder [BinNode N V] (n : N) (k : Nat) :
    nthCall Inorder.next k (Inorder.new n) = (binTreeOf n).inorder[k]? := by
  rw [nthCall_spec Inorder.Inv Inorder.rem Inorder.next_spec (by simp [Inorder.Inv, Inorder.new])]
  simp [Inorder.new, Inorder.rem, Inorder.remZ, Inorder.inO]

example : answers Inorder.next 7 (Inorder.new sampleBin) =
    [some 1, some 3, some 0, some 4, some 2, none, none] := by decide +kernel

/-! ## `attach_ancestors` -/

/-- C06 -/
theorem C06_preorder_ancestors [TreeNode N V] (n : N) :
    ∃ s, Preorder.attachAncestors (Preorder.new n) = .ok s ∧
      ∀ k, nthCall Preorder.ancNext k s = ((treeOf n).located.preorder.map Pos.ancestors)[k]? := by
  refine ⟨_, rfl, fun k => ?_⟩
  rw [nthCall_spec Preorder.AncInv Preorder.ancRem Preorder.ancNext_spec
    (by simp [Preorder.AncInv, Preorder.AncState.new]), ← Tree.preorder_map, Tree.located, map_ancestors_withPos]
  simp [Preorder.AncState.new, Preorder.ancRem, Preorder.ancRemS]

example : answers Preorder.ancNext 8 (Preorder.AncState.new sampleTree) =
    [some [0], some [0, 1], some [0, 1, 3], some [0, 1, 4], some [0, 2], some [0, 2, 5], none, none] := by
  decide +kernel

/-- C07 -/
theorem C07_postorder_ancestors [TreeNode N V] (n : N) :
    ∃ s, Postorder.attachAncestors (Postorder.new n) = .ok s ∧
      ∀ k, nthCall Postorder.ancNext k s = ((treeOf n).located.postorder.map Pos.ancestors)[k]? := by
  refine ⟨_, rfl, fun k => ?_⟩
  rw [nthCall_spec Postorder.AncInv Postorder.ancRem Postorder.ancNext_spec
    (by simp [Postorder.AncInv, Postorder.AncState.new]), ← Tree.postorder_map, Tree.located,
    map_ancestors_withPos]
  simp [Postorder.AncState.new, Postorder.ancRem]

example : answers Postorder.ancNext 8 (Postorder.AncState.new sampleTree) =
    [some [0, 1, 3], some [0, 1, 4], some [0, 1], some [0, 2, 5], some [0, 2], some [0], none, none] := by
  decide +kernel

/-! ## `attach_context` -/

/-- C10 -/
theorem C10_preorder_context [TreeNode N V] (n : N) (h : ArityOk n) :
    ∃ s, Preorder.attachContext (Preorder.new n) = .ok s ∧
      ∀ k, nthCallE Preorder.ctxNext k s = .ok ((unfold n).located.preorder.map Pos.ctx)[k]? := by
  refine ⟨_, rfl, fun k => ?_⟩
  rw [nthCallE_spec Preorder.CtxInv Preorder.ctxRem Preorder.ctxNext_spec
    (by simpa [Preorder.CtxInv, Preorder.CtxState.new] using h), ← Tree.preorder_map, Tree.located,
    map_ctx_withPos]
  simp [Preorder.CtxState.new, Preorder.ctxRem]

example : ArityOk sampleTree ∧
    (answersE Preorder.ctxNext 7 (Preorder.CtxState.new sampleTree [])).map (·.map (·.map Ctx.brief)) =
    some [some ⟨[], [0], some 2⟩, some ⟨[0], [0, 1], some 2⟩, some ⟨[0, 0], [0, 1, 3], some 0⟩,
      some ⟨[0, 1], [0, 1, 4], some 0⟩, some ⟨[1], [0, 2], some 1⟩, some ⟨[1, 0], [0, 2, 5], some 0⟩, none] :=
  ⟨sampleTree_arity, by decide +kernel⟩

/-- C11 -/
theorem C11_preorder_context_binary [BinNode N V] (n : N) :
    ∃ s, Preorder.binAttachContext (Preorder.new n) = .ok s ∧
      ∀ k, nthCallE Preorder.binCtxNext k s = .ok ((unfold2 n).located.toTree.preorder.map Pos.ctx2)[k]? := by
  refine ⟨_, rfl, fun k => ?_⟩
  rw [nthCallE_spec Preorder.BinCtxInv Preorder.binCtxRem Preorder.binCtxNext_spec
    (by simp [Preorder.BinCtxInv, Preorder.BinCtxState.new]), ← Tree.preorder_map, ← BinTree.toTree_map,
    BinTree.located, map_ctx2_withPos]
  simp [Preorder.BinCtxState.new, Preorder.binCtxRem]

example : (answersE Preorder.binCtxNext 6 (Preorder.BinCtxState.new sampleBin [])).map (·.map (·.map Ctx.brief2)) =
    some [some ⟨[], [0], some (true, true)⟩, some ⟨[0], [0, 1], some (false, true)⟩,
      some ⟨[0, 1], [0, 1, 3], some (false, false)⟩, some ⟨[1], [0, 2], some (true, false)⟩,
      some ⟨[1, 0], [0, 2, 4], some (false, false)⟩, none] := by decide +kernel

/-- C12, borrowed (and mutably borrowed) general nodes. -/
theorem C12_postorder_context [TreeNode N V] (n : N) (h : ArityOk n) :
    ∃ s, Postorder.attachContext (Postorder.new n) = .ok s ∧
      ∀ k, nthCallE Postorder.ctxNext k s = .ok ((unfold n).located.postorder.map Pos.ctx)[k]? := by
  refine ⟨_, rfl, fun k => ?_⟩
  rw [nthCallE_spec Postorder.CtxInv Postorder.ctxRem Postorder.ctxNext_spec
    (by simpa [Postorder.CtxInv, Postorder.CtxState.new] using h), ← Tree.postorder_map, Tree.located,
    map_ctx_withPos]
  simp [Postorder.CtxState.new, Postorder.ctxRem]

example : ArityOk sampleTree ∧
    (answersE Postorder.ctxNext 7 (Postorder.CtxState.new sampleTree [])).map (·.map (·.map Ctx.brief)) =
    some [some ⟨[0, 0], [0, 1, 3], some 0⟩, some ⟨[0, 1], [0, 1, 4], some 0⟩, some ⟨[0], [0, 1], some 2⟩,
      some ⟨[1, 0], [0, 2, 5], some 0⟩, some ⟨[1], [0, 2], some 1⟩, some ⟨[], [0], some 2⟩, none] :=
  ⟨sampleTree_arity, by decide +kernel⟩

/-- C12, owned general nodes: the children have been consumed. -/
theorem C12_postorder_context_owned [TreeNode N V] (n : N) (h : ArityOk n) :
    ∃ s, Postorder.ownAttachContext (Postorder.new n) = .ok s ∧
      ∀ k, nthCallE Postorder.ownCtxNext k s =
        .ok ((unfold n).located.postorder.map fun p => p.ctx.noChildren)[k]? := by
  refine ⟨_, rfl, fun k => ?_⟩
  obtain ⟨s, hs, hk⟩ := C12_postorder_context n h
  cases hs
  have := nthCallE_sim (next' := Postorder.ownCtxNext) Postorder.CtxState.own Ctx.noChildren
    (fun s o s1 => Postorder.ownCtxNext_sim s s1 o) k _ _ (hk k)
  simpa [Postorder.CtxState.own, Postorder.CtxState.new, Postorder.OwnCtxState.new, Function.comp_def] using this

example : ArityOk sampleTree ∧
    (answersE Postorder.ownCtxNext 7 (Postorder.OwnCtxState.new sampleTree [])).map (·.map (·.map Ctx.brief)) =
    some [some ⟨[0, 0], [0, 1, 3], none⟩, some ⟨[0, 1], [0, 1, 4], none⟩, some ⟨[0], [0, 1], none⟩,
      some ⟨[1, 0], [0, 2, 5], none⟩, some ⟨[1], [0, 2], none⟩, some ⟨[], [0], none⟩, none] :=
  ⟨sampleTree_arity, by decide +kernel⟩

/-- C12, borrowed binary nodes. -/
theorem C12_postorder_context_binary [BinNode N V] (n : N) :
    ∃ s, Postorder.binAttachContext (Postorder.new n) = .ok s ∧
      ∀ k, nthCallE Postorder.binCtxNext k s = .ok ((unfold2 n).located.toTree.postorder.map Pos.ctx2)[k]? := by
  refine ⟨_, rfl, fun k => ?_⟩
  rw [nthCallE_spec Postorder.BinCtxInv Postorder.binCtxRem Postorder.binCtxNext_spec
    (by simp [Postorder.BinCtxInv, Postorder.BinCtxState.new]), ← Tree.postorder_map, ← BinTree.toTree_map,
    BinTree.located, map_ctx2_withPos]
  simp [Postorder.BinCtxState.new, Postorder.binCtxRem]

example : (answersE Postorder.binCtxNext 6 (Postorder.BinCtxState.new sampleBin [])).map (·.map (·.map Ctx.brief2)) =
    some [some ⟨[0, 1], [0, 1, 3], some (false, false)⟩, some ⟨[0], [0, 1], some (false, true)⟩,
      some ⟨[1, 0], [0, 2, 4], some (false, false)⟩, some ⟨[1], [0, 2], some (true, false)⟩,
      some ⟨[], [0], some (true, true)⟩, none] := by decide +kernel

/-- C12, mutably borrowed binary nodes. -/
theorem C12_postorder_context_binary_mut [BinNode N V] (n : N) :
    ∃ s, Postorder.binAttachContext (Postorder.new n) = .ok s ∧
      ∀ k, nthCallE Postorder.mutBinCtxNext k s =
        .ok ((unfold2 n).located.toTree.postorder.map Pos.ctx2)[k]? := by
  refine ⟨_, rfl, fun k => ?_⟩
  rw [nthCallE_spec Postorder.BinCtxInv Postorder.binCtxRem Postorder.mutBinCtxNext_spec
    (by simp [Postorder.BinCtxInv, Postorder.BinCtxState.new]), ← Tree.postorder_map, ← BinTree.toTree_map,
    BinTree.located, map_ctx2_withPos]
  simp [Postorder.BinCtxState.new, Postorder.binCtxRem]

example : (answersE Postorder.mutBinCtxNext 6 (Postorder.BinCtxState.new sampleBin [])).map (·.map (·.map Ctx.brief2)) =
    some [some ⟨[0, 1], [0, 1, 3], some (false, false)⟩, some ⟨[0], [0, 1], some (false, true)⟩,
      some ⟨[1, 0], [0, 2, 4], some (false, false)⟩, some ⟨[1], [0, 2], some (true, false)⟩,
      some ⟨[], [0], some (true, true)⟩, none] := by decide +kernel

/-- C12, owned binary nodes. -/
theorem C12_postorder_context_binary_owned [BinNode N V] (n : N) :
    ∃ s, Postorder.ownBinAttachContext (Postorder.new n) = .ok s ∧
      ∀ k, nthCallE Postorder.ownBinCtxNext k s =
        .ok ((unfold2 n).located.toTree.postorder.map fun p => p.ctx2.noChildren)[k]? := by
  refine ⟨_, rfl, fun k => ?_⟩
  obtain ⟨s, hs, hk⟩ := C12_postorder_context_binary n
  cases hs
  have := nthCallE_sim (next' := Postorder.ownBinCtxNext) Postorder.BinCtxState.own Ctx.noChildren
    (fun s o s1 => Postorder.ownBinCtxNext_sim s s1 o) k _ _ (hk k)
  simpa [Postorder.BinCtxState.own, Postorder.BinCtxState.new, Postorder.OwnBinCtxState.new,
    Function.comp_def] using this

example : (answersE Postorder.ownBinCtxNext 6 (Postorder.OwnBinCtxState.new sampleBin [])).map
      (·.map (·.map fun c => (c.path, c.ancestors))) =
    some [some ([0, 1], [0, 1, 3]), some ([0], [0, 1]), some ([1, 0], [0, 2, 4]), some ([1], [0, 2]), some ([], [0]), none] := by
  decide +kernel

/-- C13, borrowed and mutably borrowed. -/
theorem C13_inorder_context [BinNode N V] (n : N) :
    ∃ s, Inorder.attachContext (Inorder.new n) = .ok s ∧
      ∀ k, nthCallE Inorder.ctxNext k s = .ok ((unfold2 n).located.inorder.map Pos.ctx2)[k]? := by
  refine ⟨_, rfl, fun k => ?_⟩
  rw [nthCallE_spec Inorder.CtxInv Inorder.ctxRem Inorder.ctxNext_spec
    (by simp [Inorder.CtxInv, Inorder.CtxState.new]), ← BinTree.inorder_map,
    BinTree.located, map_ctx2_withPos]
  simp [Inorder.CtxState.new, Inorder.ctxRem, Inorder.remR, Inorder.inCtx]

example : (answersE Inorder.ctxNext 6 (Inorder.CtxState.new sampleBin [])).map (·.map (·.map Ctx.brief2)) =
    some [some ⟨[0], [0, 1], some (false, true)⟩, some ⟨[0, 1], [0, 1, 3], some (false, false)⟩,
      some ⟨[], [0], some (true, true)⟩, some ⟨[1, 0], [0, 2, 4], some (false, false)⟩,
      some ⟨[1], [0, 2], some (true, false)⟩, none] := by decide +kernel

/-- C13, owned. -/
theorem C13_inorder_context_owned [BinNode N V] (n : N) :
    ∃ s, Inorder.ownAttachContext (Inorder.new n) = .ok s ∧
      ∀ k, nthCallE Inorder.ownNext k s =
        .ok ((unfold2 n).located.inorder.map fun p => p.ctx2.noChildren)[k]? := by
  refine ⟨_, rfl, fun k => ?_⟩
  obtain ⟨s, hs, hk⟩ := C13_inorder_context n
  cases hs
  have := nthCallE_sim (next' := Inorder.ownNext) Inorder.CtxState.own Ctx.noChildren
    (fun s o s1 => Inorder.ownNext_sim s s1 o) k _ _ (hk k)
  simpa [Inorder.CtxState.own, Inorder.CtxState.new, Inorder.OwnCtxState.new,
    Function.comp_def] using this

example : (answersE Inorder.ownNext 6 (Inorder.OwnCtxState.new sampleBin [])).map
      (·.map (·.map fun c => (c.path, c.ancestors))) =
    some [some ([0], [0, 1]), some ([0, 1], [0, 1, 3]), some ([], [0]), some ([1, 0], [0, 2, 4]), some ([1], [0, 2]), none] := by
  decide +kernel

/-- C08 -/
theorem C08_inorder_ancestors [BinNode N V] (n : N) :
    ∃ s, Inorder.attachAncestors (Inorder.new n) = .ok s ∧
      ∀ k, nthCallE Inorder.ancNext k s = .ok ((binTreeOf n).located.inorder.map Pos.ancestors)[k]? := by
  refine ⟨_, rfl, fun k => ?_⟩
  obtain ⟨s, hs, hk⟩ := C13_inorder_context_owned n
  cases hs
  have := nthCallE_sim (next' := Inorder.ancNext) Inorder.OwnCtxState.anc Ctx.ancestors
    (fun s o s1 => Inorder.ancNext_sim s s1 o) k _ _ (hk k)
  rw [binTreeOf, BinTree.located_map, BinTree.inorder_map]
  simpa [Inorder.OwnCtxState.anc, Inorder.AncState.new, Inorder.OwnCtxState.new, Function.comp_def,
    Pos.ctx2, Ctx.noChildren, Pos.map] using this

example : answersE Inorder.ancNext 6 (Inorder.AncState.new sampleBin) =
    some [some [0, 1], some [0, 1, 3], some [0], some [0, 2, 4], some [0, 2], none] := by decide +kernel

end TreeIter
