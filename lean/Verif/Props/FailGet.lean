import Verif.Spec.FailGet
import Verif.Lemmas.FailGet
import Verif.Lemmas.FailGetAnc
import Verif.Lemmas.FailGetIn
import Verif.Lemmas.MutRef
import Verif.Props.Fail
import Verif.Props.FailPostBin

/-! # C78: what `get` shows when a panic of `next` has been caught -/

universe u v

namespace TreeIter

variable {N : Type u} {V : Type v}

/-! ## Contexts -/

/-- C78 fails for contexts: `get` answers with the path of the node that panicked, the ancestors without it and no
children, or (postorder) the children of the node answered before. -/
theorem C78_context_false :
    (stateAfterE (Fail.preCtxNext badNine) 2
        (Preorder.CtxState.new (.node 0 [.node 9 [], .node 1 []] : Tree Nat) [])).toOption.map
      (fun s => (Preorder.ctxGet s).map Ctx.brief) = some (some ⟨[0], [0], none⟩) ∧
    (stateAfterE (Fail.bfsCtxNext badNine) 2
        (Bfs.CtxState.new (.node 0 [.node 9 [], .node 1 []] : Tree Nat) [])).toOption.map
      (fun s => (Bfs.ctxGet s).map Ctx.brief) = some (some ⟨[0], [0], none⟩) ∧
    (stateAfterE (Fail.postCtxNext badNine) 3
        (Postorder.CtxState.new (.node 0 [.node 1 [.node 2 []], .node 9 []] : Tree Nat) [])).toOption.map
      (fun s => (Postorder.ctxGet s).map Ctx.brief) = some (some ⟨[1], [0], some 1⟩) := by decide +kernel

/-- C78 fails for contexts of every tree at the first panic: what is left does not describe one node. -/
theorem unopened_not_whole [TreeNode N V] (n : N) (bad : N → Bool) (p : Pos N)
    (hp : p ∈ ((unfold n).crop bad).located.preorder) (ch : Option (List N)) (c : Ctx V (List N)) (h : p.unopened ch = some c) :
    ¬ c.Whole := by
  obtain ⟨h1, -⟩ := Fail.located_shape _ _ hp
  rw [Pos.unopened] at h
  split at h
  · cases h
  · cases h
    rintro ⟨h2, -⟩
    simp only [List.length_map, List.length_dropLast] at h2
    omega

/-- The positions of the cropped tree. -/
theorem located_crop [TreeNode N V] (bad : N → Bool) (n : N) :
    (unfold (Fail.Crop.mk n : Fail.Crop bad)).located = ((unfold n).crop bad).located.map (Pos.map Fail.Crop.mk) := by
  rw [Fail.unfold_crop, Tree.located_map]

theorem located2_crop [BinNode N V] (bad : N → Bool) (n : N) :
    (unfold2 (Fail.CropB.mk n : Fail.CropB bad)).located.toTree =
      ((unfold2 n).crop bad).located.toTree.map (Pos.map Fail.CropB.mk) := by
  rw [Fail.unfold2_crop, BinTree.located_map, BinTree.toTree_map]

/-- C78, preorder with context: what is true at the first panic.  The path leads to the node that panicked, the ancestors
end with its parent, and there are no children (`children()` of such a context panics). -/
theorem C78_preorder_context_partial [TreeNode N V] (bad : N → Bool) (n : N) (h : ArityOk n) (k : Nat) (p : Pos N)
    (hk : ∀ j < k, ∀ q, ((unfold n).crop bad).located.preorder[j]? = some q → bad q.item = false)
    (hp : ((unfold n).crop bad).located.preorder[k]? = some p) (hb : bad p.item = true) :
    ∃ s s', Preorder.attachContext (Preorder.new n) = .ok s ∧ stateAfterE (Fail.preCtxNext bad) (k + 1) s = .ok s' ∧
      Preorder.ctxGet s' = p.unopened none := by
  obtain ⟨c, hc, hl⟩ := C10_preorder_context (Fail.Crop.mk n : Fail.Crop bad) (Fail.arityOk_crop bad n h)
  cases hc
  rw [located_crop, Tree.preorder_map] at hl
  obtain ⟨c', s', -, h1, h2⟩ := Fail.left_of (ch := fun _ => none) (Fail.preCtx_step' bad) (Fail.preCtx_left bad) _
    (Fail.located_shape _) k _ (Preorder.CtxState.new n [])
    ⟨⟨rfl, by simp [Preorder.CtxState.new]⟩, by simp [Preorder.CtxState.new]⟩ hl hk p hp hb
  exact ⟨_, s', rfl, h1, h2⟩

/-- The node 1, at the path `[0]`, panics in the second call. -/
example : ArityOk sampleTree ∧
    ((unfold sampleTree).crop sampleBad).located.preorder.map (fun p => (p.path, sampleBad p.item)) =
      [([], false), ([0], true), ([1], false), ([1, 0], true)] ∧
    (stateAfterE (Fail.preCtxNext sampleBad) 2 (Preorder.CtxState.new sampleTree [])).toOption.map
      (fun s => (Preorder.ctxGet s).map Ctx.brief) = some (some ⟨[0], [0], none⟩) :=
  ⟨sampleTree_arity, by decide +kernel, by decide +kernel⟩

/-- C78, binary preorder with context, at the first panic. -/
theorem C78_preorder_context_binary_partial [BinNode N V] (bad : N → Bool) (n : N) (k : Nat) (p : Pos N)
    (hk : ∀ j < k, ∀ q, ((unfold2 n).crop bad).located.toTree.preorder[j]? = some q → bad q.item = false)
    (hp : ((unfold2 n).crop bad).located.toTree.preorder[k]? = some p) (hb : bad p.item = true) :
    ∃ s s', Preorder.binAttachContext (Preorder.new n) = .ok s ∧
      stateAfterE (Fail.preBinCtxNext bad) (k + 1) s = .ok s' ∧ Preorder.binCtxGet s' = p.unopened2 none := by
  obtain ⟨c, hc, hl⟩ := C11_preorder_context_binary (Fail.CropB.mk n : Fail.CropB bad)
  cases hc
  rw [located2_crop, Tree.preorder_map] at hl
  obtain ⟨c', s', -, h1, h2⟩ := Fail.left2_of (ch := fun _ => none) (Fail.preBinCtx_step' bad) (Fail.preBinCtx_left bad) _
    (Fail.located2_shape _) k _ (Preorder.BinCtxState.new n [])
    ⟨⟨rfl, by simp [Preorder.BinCtxState.new]⟩, by simp [Preorder.BinCtxState.new]⟩ hl hk p hp hb
  exact ⟨_, s', rfl, h1, h2⟩

/-- C78, breadth-first with context, at the first panic. -/
theorem C78_bfs_context_partial [TreeNode N V] (bad : N → Bool) (n : N) (h : ArityLt n) (hn : bad n = false) (k : Nat)
    (p : Pos N) (hk : ∀ j < k, ∀ q, ((unfold n).crop bad).located.levelOrder[j]? = some q → bad q.item = false)
    (hp : ((unfold n).crop bad).located.levelOrder[k]? = some p) (hb : bad p.item = true) :
    ∃ s s', Bfs.attachContext (Bfs.new n) = .ok s ∧ stateAfterE (Fail.bfsCtxNext bad) (k + 1) s = .ok s' ∧
      Bfs.ctxGet s' = p.unopened none := by
  obtain ⟨c, hc, hl⟩ := C14_bfs_context (Fail.Crop.mk n : Fail.Crop bad) (Fail.arityLt_crop bad n h)
  cases hc
  rw [located_crop, Tree.levelOrder_map] at hl
  obtain ⟨c', s', -, h1, h2⟩ := Fail.left_of (ch := fun _ => none) (Fail.bfsCtx_step bad) (Fail.bfsCtx_left bad) _
    (fun q hq => Fail.located_shape _ q ((levelOrder_perm_preorder _).mem_iff.1 hq)) k _ (Bfs.CtxState.new n [])
    (bfsCtxR_new bad n hn) hl hk p hp hb
  exact ⟨_, s', rfl, h1, h2⟩

/-- C78, binary breadth-first with context, at the first panic. -/
theorem C78_bfs_context_binary_partial [BinNode N V] (bad : N → Bool) (n : N) (hn : bad n = false) (k : Nat) (p : Pos N)
    (hk : ∀ j < k, ∀ q, ((unfold2 n).crop bad).located.toTree.levelOrder[j]? = some q → bad q.item = false)
    (hp : ((unfold2 n).crop bad).located.toTree.levelOrder[k]? = some p) (hb : bad p.item = true) :
    ∃ s s', Bfs.binAttachContext (Bfs.new n) = .ok s ∧ stateAfterE (Fail.bfsBinCtxNext bad) (k + 1) s = .ok s' ∧
      Bfs.ctxGet s' = p.unopened2 none := by
  obtain ⟨c, hc, hl⟩ := C14_bfs_context_binary (Fail.CropB.mk n : Fail.CropB bad)
  cases hc
  rw [located2_crop, Tree.levelOrder_map] at hl
  obtain ⟨c', s', -, h1, h2⟩ := Fail.left2_of (ch := fun _ => none) (Fail.bfsBinCtx_step bad) (Fail.bfsBinCtx_left bad) _
    (fun q hq => Fail.located2_shape _ q ((levelOrder_perm_preorder _).mem_iff.1 hq)) k _ (Bfs.CtxState.binNew n [])
    (Fail.bfsBinCtxR_new bad n hn) hl hk p hp hb
  exact ⟨_, s', rfl, h1, h2⟩

example : (stateAfterE (Fail.bfsBinCtxNext sampleBadBin) 3 (Bfs.CtxState.binNew sampleBin [])).toOption.map
    (fun s => (Bfs.ctxGet s).map Ctx.brief2) = some (some ⟨[1], [0], none⟩) := by decide +kernel

/-- The state after a call shows the answer of the call. -/
theorem get_after {S O : Type*} {advance : S → Except Panic S} {get : S → Option O} (j : Nat) (c c' : S) (o : Option O)
    (ho : nthCallE (streamNextE advance get) j c = .ok o) (hs : stateAfterE (streamNextE advance get) (j + 1) c = .ok c') :
    get c' = o := by
  rw [nthCallE] at ho
  cases h1 : stateAfterE (streamNextE advance get) j c with
  | error e => rw [h1] at ho; cases ho
  | ok c1 =>
    rw [h1] at ho
    simp only at ho
    cases h2 : streamNextE advance get c1 with
    | error e => rw [h2] at ho; cases ho
    | ok r =>
      obtain ⟨o', c2⟩ := r
      rw [h2] at ho
      cases ho
      have := stateAfterE_succ h1 h2
      rw [hs] at this
      cases this
      exact (Fail.streamNextE_some h2).2

/-- C78, postorder with context, at the first panic: the children are those of the node answered before. -/
theorem C78_postorder_context_partial [TreeNode N V] (bad : N → Bool) (n : N) (h : ArityOk n) (k : Nat) (p : Pos N)
    (hk : ∀ j < k, ∀ q, ((unfold n).crop bad).located.postorder[j]? = some q → bad q.item = false)
    (hp : ((unfold n).crop bad).located.postorder[k]? = some p) (hb : bad p.item = true) :
    ∃ s s', Postorder.attachContext (Postorder.new n) = .ok s ∧ stateAfterE (Fail.postCtxNext bad) (k + 1) s = .ok s' ∧
      Postorder.ctxGet s' = p.unopened
        (if k = 0 then none else ((unfold n).crop bad).located.postorder[k - 1]?.map fun q => kids q.item) := by
  obtain ⟨c, hc, hl⟩ := C12_postorder_context (Fail.Crop.mk n : Fail.Crop bad) (Fail.arityOk_crop bad n h)
  cases hc
  rw [located_crop, Tree.postorder_map] at hl
  obtain ⟨c', s', h0, h1, h2⟩ := Fail.left_of (ch := fun c => c.children.map (List.map Fail.Crop.node))
    (Fail.postCtx_step' bad) (Fail.postCtx_left bad) _
    (fun q hq => Fail.located_shape _ q ((postorder_perm_preorder _).mem_iff.1 hq)) k _ (Postorder.CtxState.new n [])
    ⟨⟨rfl, by simp [Postorder.CtxState.new]⟩, by simp [Postorder.CtxState.new]⟩ hl hk p hp hb
  refine ⟨_, s', rfl, h1, ?_⟩
  rw [h2]
  congr 1
  cases k with
  | zero => cases h0; rfl
  | succ j =>
    have hg := get_after _ _ _ _ (hl j) h0
    rw [List.getElem?_map, List.getElem?_map] at hg
    obtain ⟨q, hq⟩ : ∃ q, ((unfold n).crop bad).located.postorder[j]? = some q := by
      have := (List.getElem?_eq_some_iff.1 hp).1
      exact ⟨_, List.getElem?_eq_getElem (by omega)⟩
    have hqb := hk j (by omega) q hq
    rw [hq] at hg
    simp only [Postorder.ctxGet, Option.map_some] at hg
    split at hg
    · cases hg
    · cases hg' : c'.children with
      | none => rw [hg'] at hg; simp [Pos.ctx] at hg
      | some cs =>
        rw [hg'] at hg
        simp only [Pos.ctx, Option.some.injEq, Ctx.mk.injEq] at hg
        simp only [Option.map_some, Nat.succ_ne_zero, if_false, Nat.add_sub_cancel, hq, Option.some.injEq]
        rw [hg.2.2]
        exact Fail.kids_good (Fail.Crop.mk q.item : Fail.Crop bad) hqb

/-! ## Ancestors -/

/-- C78, preorder with ancestors, after every call: `get` shows the slice of the node answered, or that of the parent of
the node that panicked (nothing if this is the root). -/
theorem C78_preorder_ancestors [TreeNode N V] (bad : N → Bool) (n : N) (k : Nat) (p : Pos N)
    (hp : ((unfold n).crop bad).located.preorder[k]? = some p) :
    ∃ s, Preorder.attachAncestors (Preorder.new n) = .ok s ∧
      Preorder.ancGet (stateAfter (Fail.preAncNext bad) (k + 1) s) =
        if bad p.item then p.parentSlice else some (p.ancestors.map val) := by
  refine ⟨_, rfl, ?_⟩
  have h1 := nthCall_spec Preorder.AncInv (Fail.preShwRem bad) (Fail.preShowNext_spec bad)
    (s := Preorder.AncState.new n) (by simp [Preorder.AncInv, Preorder.AncState.new]) k
  have h2 : Fail.preShwRem bad (Preorder.AncState.new (V := V) n) =
      ((unfold n).crop bad).located.preorder.map (Fail.shownPos bad) := by
    rw [← Tree.preorder_map, Fail.located_shwA]
    simp [Fail.preShwRem, Preorder.AncState.new, Fail.preShwRemS]
  rw [h2, List.getElem?_map, hp, nthCall, Fail.preShowNext] at h1
  simp only [Option.map_some] at h1
  rw [← Fail.stateAfter_congr (Fail.preAncNext bad) (Fail.preShowNext bad) (fun _ => rfl)] at h1
  have h3 := Fail.stateAfter_succ_last (Fail.preAncNext bad) k (Preorder.AncState.new (V := V) n)
  rw [show stateAfter (Fail.preAncNext bad) (k + 1) (Preorder.AncState.new (V := V) n) = _ from h3]
  cases h4 : (Fail.preAncNext bad (stateAfter (Fail.preAncNext bad) k (Preorder.AncState.new n))).1 with
  | none => rw [h4] at h1; cases h1
  | some o =>
    rw [h4] at h1
    exact Option.some.inj h1

/-- 1 and 5 panic; 5 is below 2. -/
example : (List.range 5).map (fun k => Preorder.ancGet (stateAfter (Fail.preAncNext sampleBad) k
      (Preorder.AncState.new sampleTree))) = [none, some [0], some [0], some [0, 2], some [0, 2]] := by decide +kernel

/-- C78, breadth-first with ancestors, after every call before the end (C24 tells what comes after). -/
theorem C78_bfs_ancestors [TreeNode N V] (bad : N → Bool) (n : N) (hn : bad n = false) (k : Nat) (p : Pos N)
    (hp : ((unfold n).crop bad).located.levelOrder[k]? = some p) :
    ∃ s s', Bfs.attachAncestors (Bfs.new n) = .ok s ∧ stateAfterE (Fail.bfsAncNext bad) (k + 1) s = .ok s' ∧
      Bfs.ancGet s' = if bad p.item then p.parentSlice else some (p.ancestors.map val) := by
  have e : ((unfold n).crop bad).located.levelOrder.map (Fail.shownPos bad) =
      some [val n] :: bfsF ((kids n).map (Fail.shwA bad [val n])) := by
    rw [← Tree.levelOrder_map, Fail.located_shwA, ← bfsF_singleton, Fail.shwA_eq, hn]
    simp [bfsF_cons]
  have h0 : Fail.BfsShowRel bad (Bfs.AncState.new n) (some [val n] :: bfsF ((kids n).map (Fail.shwA bad [val n]))) :=
    ⟨val n, kids n, rfl, rfl, rfl⟩
  rw [← e] at h0
  have hk := (List.getElem?_eq_some_iff.1 hp).1
  obtain ⟨h1, s1, h2, h3⟩ := nthCallE_until (Fail.BfsShowRel bad) (Fail.bfsShowNext_spec bad) h0 k
    (by rw [List.length_map]; omega)
  rw [nthCallE, h2, List.getElem?_map, hp] at h1
  rw [← Fail.stateAfterE_congr (Fail.bfsAncNext bad) (Fail.bfsShowNext bad) (fun s => by
    rw [Fail.bfsShowNext]
    rcases Fail.bfsAncNext bad s with _ | ⟨_, _⟩ <;> rfl)] at h2
  simp only [Fail.bfsShowNext] at h1
  cases h4 : Fail.bfsAncNext bad s1 with
  | error e => rw [h4] at h1; cases h1
  | ok r =>
    obtain ⟨o, s2⟩ := r
    rw [h4] at h1
    refine ⟨_, s2, rfl, stateAfterE_succ h2 h4, ?_⟩
    cases o with
    | none => cases h1
    | some o =>
      simp only [Option.map_some, Except.ok.injEq] at h1
      exact Option.some.inj h1

example : (List.range 4).map (fun k => (stateAfterE (Fail.bfsAncNext sampleBad) (k + 1)
      (Bfs.AncState.new sampleTree)).toOption.map Bfs.ancGet) =
    [some (some [0]), some (some [0]), some (some [0, 2]), some (some [0, 2])] := by decide +kernel

/-- The positions of the cropped tree of values. -/
theorem treeOf_crop [TreeNode N V] (bad : N → Bool) (n : N) :
    treeOf (Fail.Crop.mk n : Fail.Crop bad) = (unfold n).crop bad := by
  rw [treeOf, Fail.unfold_crop, Tree.map_map]
  generalize (unfold n).crop bad = t
  induction t using Tree.ind with
  | h m cs ih =>
    rw [Tree.map_node, List.map_congr_left ih, List.map_id']
    rfl

/-- C78, postorder with ancestors, at the first panic: the slice of the parent. -/
theorem C78_postorder_ancestors_partial [TreeNode N V] (bad : N → Bool) (n : N) (k : Nat) (p : Pos N)
    (hk : ∀ j < k, ∀ q, ((unfold n).crop bad).located.postorder[j]? = some q → bad q.item = false)
    (hp : ((unfold n).crop bad).located.postorder[k]? = some p) (hb : bad p.item = true) :
    ∃ s, Postorder.attachAncestors (Postorder.new n) = .ok s ∧
      Postorder.ancGet (stateAfter (Fail.postAncNext bad) (k + 1) s) = p.parentSlice := by
  refine ⟨_, rfl, ?_⟩
  obtain ⟨c, hc, hl⟩ := C07_postorder_ancestors (Fail.Crop.mk n : Fail.Crop bad)
  cases hc
  rw [treeOf_crop] at hl
  exact Fail.leftL_of (Fail.postAnc_step' bad) (Fail.postAnc_left bad) _
    (fun q hq => Fail.located_shape _ q ((postorder_perm_preorder _).mem_iff.1 hq)) k _ (Postorder.AncState.new n)
    ⟨⟨rfl, by simp [Postorder.AncState.new]⟩, by simp [Postorder.AncState.new]⟩ hl hk p hp hb

/-- 3, 4 and 1 are answered before 5 panics: the slice of 2 is left. -/
example : Postorder.ancGet (stateAfter (Fail.postAncNext fun t => val t == 5) 4 (Postorder.AncState.new sampleTree)) =
    some [0, 2] := by decide +kernel

/-- C78, leaves with ancestors of a preorder traversal, at the first panic: the slice of the parent. -/
theorem C78_leaves_ancestors_partial [TreeNode N V] (bad : N → Bool) (n : N) (k : Nat) (p : Pos N)
    (hk : ∀ j < k, ∀ q, ((unfold n).crop bad).located.leaves[j]? = some q → bad q.item = false)
    (hp : ((unfold n).crop bad).located.leaves[k]? = some p) (hb : bad p.item = true) :
    ∃ s, Preorder.attachAncestors (Preorder.new n) = .ok s ∧
      Leaves.ancGet (stateAfter (Fail.leavesAncNext bad) (k + 1) (Leaves.ofPreorderAnc s)) = p.parentSlice := by
  refine ⟨_, rfl, ?_⟩
  obtain ⟨c, hc, hl⟩ := C20_preorder_leaves_ancestors (Fail.Crop.mk n : Fail.Crop bad)
  cases hc
  rw [treeOf_crop] at hl
  exact Fail.leftL_of (Fail.leavesAnc_step' bad) (Fail.leavesAnc_left bad) _
    (fun q hq => Fail.located_shape _ q ((leaves_sublist_preorder _).subset hq)) k _
    (Leaves.ofPreorderAnc (Preorder.AncState.new n))
    ⟨⟨rfl, by simp [Leaves.ofPreorderAnc, Preorder.AncState.new]⟩, by simp [Leaves.ofPreorderAnc, Preorder.AncState.new]⟩
    hl hk p hp hb

/-! ## In order -/

/-- C78 fails for in-order contexts: when 9 panics, `get` shows 2 with the children of 0, which was answered before. -/
theorem C78_inorder_context_false :
    (stateAfterE (Fail.inCtxNext badNineBin) 3 (Inorder.CtxState.new
        (.node 0 (some (.node 1 none none)) (some (.node 2 (some (.node 9 none none)) none)) : BinTree Nat) [])).toOption.map
      (fun s => (Inorder.ctxGet s).map Ctx.brief2) = some (some ⟨[1], [0, 2], some (true, true)⟩) := by decide +kernel

/-- The states of the in-order iterator: what they show but for the children, and the children. -/
theorem inorder_shown [BinNode N V] (bad : N → Bool) (n : N) (k : Nat) (l : List (Pos N))
    (hl : l = ((unfold2 n).crop bad).located.inorder) (hk : k ≤ l.length) :
    ∃ s, stateAfterE (Fail.inCtxNext bad) k (Inorder.CtxState.new (V := V) n []) = .ok s ∧
      s.children = lastOpened bad (l.take k) ∧
      ∀ p, l[k]? = some p → ∃ s', Fail.inCtxNext bad s = .ok (some (replyPos bad Pos.ctx2 p), s') ∧
        (Inorder.ctxGet s').map Ctx.noChildren = Fail.shownPos2 bad p ∧
        (bad p.item = true → s'.children = s.children) := by
  have hshow : Fail.inShwRem bad (Inorder.CtxState.new (V := V) n []) = l.map (Fail.shownPos2 bad) := by
    rw [hl, ← BinTree.inorder_map, BinTree.located, Fail.shownPos2_withPos _ _ _ _ (by simp)]
    simp [Inorder.CtxState.new, Fail.inShwRem, Fail.remS, Fail.inS]
  have cong : ∀ k s, stateAfterE (Fail.inCtxNext bad) k s = stateAfterE (Fail.inShowNext (V := V) bad) k s :=
    fun k s => Fail.stateAfterE_congr _ _ (fun s => by
      rw [Fail.inShowNext]
      rcases Fail.inCtxNext bad s with _ | ⟨_, _⟩ <;> rfl) k s
  have step : ∀ k s, stateAfterE (Fail.inCtxNext bad) k (Inorder.CtxState.new (V := V) n []) = .ok s →
      ∀ p, l[k]? = some p → ∃ s', Fail.inCtxNext bad s = .ok (some (replyPos bad Pos.ctx2 p), s') ∧
        (Inorder.ctxGet s').map Ctx.noChildren = Fail.shownPos2 bad p ∧ (bad p.item = true → s'.children = s.children) := by
    intro k s hs p hp
    obtain ⟨s0, h0, h1⟩ := C62_inorder_context (V := V) bad n
    cases h0
    have h2 := h1 k
    rw [← hl, List.getElem?_map, hp, nthCallE,
      show stateAfterE (Fail.inCtxNext bad) k (Inorder.CtxState.new (V := V) n []) = .ok s from hs] at h2
    simp only at h2
    obtain ⟨s1, e1, e2, e3⟩ := stateAfterE_spec Inorder.CtxInv (Fail.inShwRem (V := V) bad)
      (fun s h => by
        obtain ⟨s', a1, a2, a3, -⟩ := Fail.inShowNext_spec bad s h
        exact ⟨s', a1, a2, a3⟩) (s := Inorder.CtxState.new n []) (by simp [Inorder.CtxInv, Inorder.CtxState.new]) k
    rw [← cong, hs] at e1
    cases e1
    obtain ⟨s2, f1, -, -, f4⟩ := Fail.inShowNext_spec bad s e2
    rw [e3, hshow, List.head?_drop, List.getElem?_map, hp] at f1
    cases hn : Fail.inCtxNext bad s with
    | error e => rw [hn] at h2; cases h2
    | ok r =>
      obtain ⟨o, s'⟩ := r
      rw [hn] at h2
      simp only [Except.ok.injEq, Option.map_some] at h2
      subst h2
      rw [Fail.inShowNext, hn] at f1
      simp only [Option.map_some, Except.ok.injEq, Prod.mk.injEq, Option.some.injEq] at f1
      refine ⟨s', rfl, f1.1, fun hb => f4 s' ?_⟩
      rw [hn, replyPos, hb]
      rfl
  suffices h : ∃ s, stateAfterE (Fail.inCtxNext bad) k (Inorder.CtxState.new (V := V) n []) = .ok s ∧
      s.children = lastOpened bad (l.take k) by
    obtain ⟨s, h1, h2⟩ := h
    exact ⟨s, h1, h2, step k s h1⟩
  induction k with
  | zero => exact ⟨_, rfl, rfl⟩
  | succ k ih =>
    obtain ⟨s, h1, h2⟩ := ih (by omega)
    have hp := List.getElem?_eq_getElem (l := l) (i := k) (by omega)
    obtain ⟨s', i1, i2, i3⟩ := step k s h1 _ hp
    refine ⟨s', stateAfterE_succ h1 i1, ?_⟩
    have ht : l.take (k + 1) = l.take k ++ [l[k]] := by rw [List.take_add_one, hp]; rfl
    by_cases hb : bad l[k].item = true
    · rw [i3 hb, h2, ht, lastOpened, lastOpened, List.reverse_append]
      simp only [List.reverse_cons, List.reverse_nil, List.nil_append, List.cons_append, List.find?_cons, hb, Bool.not_true]
    · have hb' : bad l[k].item = false := by simpa using hb
      rw [ht, lastOpened]
      simp only [List.reverse_append, List.reverse_cons, List.reverse_nil, List.nil_append, List.cons_append,
        List.find?_cons, hb', Bool.not_false, Option.map_some]
      have hg := i1
      rw [Fail.inCtxNext, Fail.streamNextE] at hg
      cases ha : Fail.inCtxAdvance bad s with
      | error e => rw [ha] at hg; cases hg
      | ok r =>
        obtain ⟨b, s2⟩ := r
        rw [ha] at hg
        cases b with
        | true =>
          simp only [Except.ok.injEq, Prod.mk.injEq, Option.some.injEq, replyPos, hb', Bool.false_eq_true, if_false] at hg
          cases hg.1
        | false =>
          simp only [Except.ok.injEq, Prod.mk.injEq, replyPos, hb', Bool.false_eq_true, if_false] at hg
          obtain ⟨hg, rfl⟩ := hg
          rw [Inorder.ctxGet] at hg
          split at hg
          · cases hg
          · simp only [Option.map_some, Option.some.injEq, Pos.ctx2, Ctx.mk.injEq] at hg
            exact hg.2.2

/-- C78, in-order with context (borrowed and mutably borrowed nodes), after every call: when a node panics, `get` shows the
path and the ancestors of its parent, with the children of the node answered last. -/
theorem C78_inorder_context_partial [BinNode N V] (bad : N → Bool) (n : N) (k : Nat) (p : Pos N)
    (hp : ((unfold2 n).crop bad).located.inorder[k]? = some p) :
    ∃ s s', Inorder.attachContext (Inorder.new n) = .ok s ∧ stateAfterE (Fail.inCtxNext bad) (k + 1) s = .ok s' ∧
      Inorder.ctxGet s' =
        if bad p.item then p.parentCtx2 (lastOpened bad (((unfold2 n).crop bad).located.inorder.take k)) else some p.ctx2 := by
  have hk := (List.getElem?_eq_some_iff.1 hp).1
  obtain ⟨s, h1, h2, h3⟩ := inorder_shown (V := V) bad n k _ rfl (by omega)
  obtain ⟨s', i1, i2, i3⟩ := h3 p hp
  obtain ⟨s1, j1, j2, -⟩ := inorder_shown (V := V) bad n (k + 1) _ rfl (by omega)
  have j3 := stateAfterE_succ h1 i1
  rw [j1] at j3
  obtain rfl : s1 = s' := by simpa using j3
  refine ⟨_, s1, rfl, j1, ?_⟩
  have hc : ∀ x, (Inorder.ctxGet s1).map Ctx.noChildren = some x → Inorder.ctxGet s1 = some { x with children := s1.children } := by
    intro x hx
    rw [Inorder.ctxGet] at hx ⊢
    split at hx
    · cases hx
    · rename_i ha
      rw [if_neg ha]
      simp only [Option.map_some, Option.some.injEq] at hx
      rw [← hx]
      rfl
  rw [Fail.shownPos2] at i2
  by_cases hb : bad p.item = true
  · rw [if_pos hb] at i2 ⊢
    rw [Pos.parentCtx2] at i2 ⊢
    split at i2
    · rename_i hpath
      rw [if_pos hpath]
      simpa using i2
    · rename_i hpath
      rw [if_neg hpath, hc _ i2, i3 hb, h2]
  · rw [if_neg hb] at i2 ⊢
    rw [hc _ i2, j2, List.take_add_one, hp]
    simp [lastOpened, hb, Ctx.noChildren, Pos.ctx2]

/-- The owned and the ancestor iterators show what the borrowed one shows, without the children and without the path. -/
theorem inorder_states [BinNode N V] (bad : N → Bool) (k : Nat) (s s' : Inorder.CtxState N V)
    (h : stateAfterE (Fail.inCtxNext bad) k s = .ok s') :
    stateAfterE (Fail.inOwnNext bad) k s.own = .ok s'.own ∧ stateAfterE (Fail.inAncNext bad) k s.own.anc = .ok s'.own.anc := by
  induction k generalizing s with
  | zero => cases h; exact ⟨rfl, rfl⟩
  | succ k ih =>
    rw [stateAfterE] at h
    cases hn : Fail.inCtxNext bad s with
    | error e => rw [hn] at h; cases h
    | ok r =>
      obtain ⟨o, s1⟩ := r
      rw [hn] at h
      obtain ⟨h1, h2⟩ := ih s1 h
      have e1 := Fail.inOwnNext_sim bad s s1 o hn
      have e2 := Fail.inAncNext_sim bad s.own s1.own _ e1
      rw [stateAfterE, stateAfterE, e1, e2]
      exact ⟨h1, h2⟩

/-- C78, in-order with context, owned nodes (which never shows children), after every call. -/
theorem C78_inorder_context_owned [BinNode N V] (bad : N → Bool) (n : N) (k : Nat) (p : Pos N)
    (hp : ((unfold2 n).crop bad).located.inorder[k]? = some p) :
    ∃ s s', Inorder.ownAttachContext (Inorder.new n) = .ok s ∧ stateAfterE (Fail.inOwnNext bad) (k + 1) s = .ok s' ∧
      Inorder.ownGet s' = if bad p.item then p.parentCtx2 none else some p.ctx2.noChildren := by
  obtain ⟨s, s', h1, h2, h3⟩ := C78_inorder_context_partial (V := V) bad n k p hp
  cases h1
  refine ⟨_, s'.own, rfl, (inorder_states bad _ _ _ h2).1, ?_⟩
  have e : Inorder.ownGet s'.own = (Inorder.ctxGet s').map Ctx.noChildren := by
    by_cases hc : s'.ancestors.isEmpty = true <;>
      simp [Inorder.ownGet, Inorder.ctxGet, Inorder.CtxState.own, hc, Ctx.noChildren]
  rw [e, h3]
  split
  · rw [Pos.parentCtx2, Pos.parentCtx2]
    split <;> rfl
  · rfl

/-- C78, in-order with ancestors, after every call. -/
theorem C78_inorder_ancestors [BinNode N V] (bad : N → Bool) (n : N) (k : Nat) (p : Pos N)
    (hp : ((unfold2 n).crop bad).located.inorder[k]? = some p) :
    ∃ s s', Inorder.attachAncestors (Inorder.new n) = .ok s ∧ stateAfterE (Fail.inAncNext bad) (k + 1) s = .ok s' ∧
      Inorder.ancGet s' = if bad p.item then p.parentSlice2 else some (p.ancestors.map val2) := by
  obtain ⟨s, s', h1, h2, h3⟩ := C78_inorder_context_partial (V := V) bad n k p hp
  cases h1
  refine ⟨_, s'.own.anc, rfl, (inorder_states bad _ _ _ h2).2, ?_⟩
  have e : Inorder.ancGet s'.own.anc = (Inorder.ctxGet s').map Ctx.ancestors := by
    cases hc : s'.ancestors <;>
      simp [Inorder.ancGet, Inorder.ctxGet, Inorder.CtxState.own, Inorder.OwnCtxState.anc, hc]
  rw [e, h3]
  split
  · rw [Pos.parentCtx2, Pos.parentSlice2]
    split <;> rfl
  · rfl

/-- 2 and 3 panic: in order the calls answer 1, panic at 3 (below 1), answer 0 and panic at 2. -/
example : (List.range 4).map (fun k => (stateAfterE (Fail.inAncNext sampleBadBin) (k + 1)
      (Inorder.AncState.new sampleBin)).toOption.map Inorder.ancGet) =
    [some (some [0, 1]), some (some [0, 1]), some (some [0]), some (some [0])] := by decide +kernel

end TreeIter
