import Verif.Lemmas.Edit
import Verif.Lemmas.EditCut
import Verif.Props.Samples
import Verif.Props.BreadthFirstCtx

/-! # C39: editing a context redirects the traversal

`e` is the client: given its world and the context it answers with its new world and what it leaves in the context
(`ancestors` and `children` in preorder, `children` in breadth-first order).  `EditRoot`, `EditRoot2`, `EditBfs` and
`EditBfs2` (`Spec/Edit.lean`) say, without mentioning the iterators, which contexts a finite traversal with these edits
shows. -/

universe u v w

namespace TreeIter

variable {N : Type u} {V : Type v} {σ : Type w}

/-- C39, preorder: the calls of a client that edits the children and the ancestors return the contexts `out`, then `None`
for ever, with no panic; at the end the client's world is `wf`. -/
theorem C39_preorder [TreeNode N V] (e : σ → Ctx V (List N) → σ × List V × List N) (n : N) (w wf : σ)
    (out : List (Ctx V (List N))) (h : EditRoot e n w wf out) :
    ∃ s, Preorder.attachContext (Preorder.new n) = .ok s ∧ ∀ k,
      nthCallE (editNext Preorder.ctxNext Preorder.putCtx e) k (s, w) = .ok out[k]? ∧
      (out.length ≤ k → ∃ s', stateAfterE (editNext Preorder.ctxNext Preorder.putCtx e) k (s, w) = .ok (s', wf)) :=
  ⟨_, rfl, Preorder.editRoot_shows h⟩

/-- C39, preorder, binary nodes. -/
theorem C39_preorder_binary [BinNode N V] (e : σ → Ctx V (Option N × Option N) → σ × List V × Option N × Option N) (n : N)
    (w wf : σ) (out : List (Ctx V (Option N × Option N))) (h : EditRoot2 e n w wf out) :
    ∃ s, Preorder.binAttachContext (Preorder.new n) = .ok s ∧ ∀ k,
      nthCallE (editNext Preorder.binCtxNext Preorder.putBinCtx e) k (s, w) = .ok out[k]? ∧
      (out.length ≤ k → ∃ s', stateAfterE (editNext Preorder.binCtxNext Preorder.putBinCtx e) k (s, w) = .ok (s', wf)) :=
  ⟨_, rfl, Preorder.editRoot2_shows h⟩

/-- C39, breadth first. -/
theorem C39_bfs [TreeNode N V] (e : σ → Ctx V (List N) → σ × List N) (n : N) (w wf : σ)
    (out : List (Ctx V (List N))) (h : EditBfs e w [⟨[], [], n⟩] wf out) :
    ∃ s, Bfs.attachContext (Bfs.new n) = .ok s ∧ ∀ k,
      nthCallE (editNext Bfs.ctxNext Bfs.putChildren e) k (s, w) = .ok out[k]? ∧
      (out.length ≤ k → ∃ s', stateAfterE (editNext Bfs.ctxNext Bfs.putChildren e) k (s, w) = .ok (s', wf)) :=
  ⟨_, rfl, Bfs.editBfs_shows h⟩

/-- C39, breadth first, binary nodes. -/
theorem C39_bfs_binary [BinNode N V] (e : σ → Ctx V (Option N × Option N) → σ × Option N × Option N) (n : N) (w wf : σ)
    (out : List (Ctx V (Option N × Option N))) (h : EditBfs2 e w [⟨[], [], n⟩] wf out) :
    ∃ s, Bfs.binAttachContext (Bfs.new n) = .ok s ∧ ∀ k,
      nthCallE (editNext Bfs.binCtxNext Bfs.putChildren e) k (s, w) = .ok out[k]? ∧
      (out.length ≤ k → ∃ s', stateAfterE (editNext Bfs.binCtxNext Bfs.putChildren e) k (s, w) = .ok (s', wf)) :=
  ⟨_, rfl, Bfs.editBfs2_shows h⟩

/-! Concrete cases.  The preorder client counts the nodes it sees, gives `1` the new child `9` (with child `8`) in place of its
children, and adds `100` to the value of the root when it is at `9`. -/

/-- The client. -/
def replaceOne (w : Nat) (c : Ctx Nat (List (Tree Nat))) : Nat × List Nat × List (Tree Nat) :=
  (w + 1, if c.ancestors.getLast? = some 9 then c.ancestors.modifyHead (· + 100) else c.ancestors,
    if c.ancestors.getLast? = some 1 then [.node 9 [.node 8 []]] else c.children.getD [])

example : ∃ out, EditRoot replaceOne sampleTree 0 6 out ∧ out.map Ctx.brief =
    [⟨[], [0], some 2⟩, ⟨[0], [0, 1], some 2⟩, ⟨[0, 0], [0, 1, 9], some 1⟩, ⟨[0, 0, 0], [100, 1, 9, 8], some 0⟩,
      ⟨[1], [100, 2], some 1⟩, ⟨[1, 0], [100, 2, 5], some 0⟩] :=
  ⟨_, .mk rfl rfl (by decide)
    (.cons rfl rfl (by decide) (.cons rfl rfl (by decide) (.cons rfl rfl (by decide) .nil .nil) .nil)
      (.cons rfl rfl (by decide) (.cons rfl rfl (by decide) .nil .nil) .nil)), rfl⟩

example : (answersE (editNext Preorder.ctxNext Preorder.putCtx replaceOne) 7
      (Preorder.CtxState.new sampleTree [], 0)).map (·.map (·.map Ctx.brief)) =
    some [some ⟨[], [0], some 2⟩, some ⟨[0], [0, 1], some 2⟩, some ⟨[0, 0], [0, 1, 9], some 1⟩,
      some ⟨[0, 0, 0], [100, 1, 9, 8], some 0⟩, some ⟨[1], [100, 2], some 1⟩, some ⟨[1, 0], [100, 2, 5], some 0⟩, none] := by
  decide +kernel

/-- A client that exchanges the slots of the root and gives `3` a left child `7`. -/
def swapRoot (w : Nat) (c : Ctx Nat (Option (BinTree Nat) × Option (BinTree Nat))) :
    Nat × Option (BinTree Nat) × Option (BinTree Nat) :=
  (w + 1, if c.path = [] then (c.children.getD (none, none)).swap
    else if c.ancestors.getLast? = some 3 then (some (.node 7 none none), none) else c.children.getD (none, none))

example : ∃ out, EditRoot2 (fun w c => ((swapRoot w c).1, c.ancestors, (swapRoot w c).2)) sampleBin 0 6 out ∧
    out.map Ctx.brief2 =
    [⟨[], [0], some (true, true)⟩, ⟨[0], [0, 2], some (true, false)⟩, ⟨[0, 0], [0, 2, 4], some (false, false)⟩,
      ⟨[1], [0, 1], some (false, true)⟩, ⟨[1, 1], [0, 1, 3], some (false, false)⟩,
      ⟨[1, 1, 0], [0, 1, 3, 7], some (false, false)⟩] :=
  ⟨_, .mk rfl rfl
    (.some rfl rfl (.some rfl rfl (.none (.none .nil)) (.none .nil))
      (.some rfl rfl (.none (.some rfl rfl (.some rfl rfl (.none (.none .nil)) (.none .nil)) .nil)) .nil)), rfl⟩

example : (answersE (editNext Preorder.binCtxNext Preorder.putBinCtx
      fun w c => ((swapRoot w c).1, c.ancestors, (swapRoot w c).2)) 7
      (Preorder.BinCtxState.new sampleBin [], 0)).map (·.map (·.map Ctx.brief2)) =
    some [some ⟨[], [0], some (true, true)⟩, some ⟨[0], [0, 2], some (true, false)⟩,
      some ⟨[0, 0], [0, 2, 4], some (false, false)⟩, some ⟨[1], [0, 1], some (false, true)⟩,
      some ⟨[1, 1], [0, 1, 3], some (false, false)⟩, some ⟨[1, 1, 0], [0, 1, 3, 7], some (false, false)⟩, none] := by
  decide +kernel

/-- A client that turns the children round, and gives `5` a child `6`. -/
def turnRound (w : Nat) (c : Ctx Nat (List (Tree Nat))) : Nat × List (Tree Nat) :=
  (w + 1, if c.ancestors.getLast? = some 5 then [.node 6 []] else (c.children.getD []).reverse)

instance [TreeNode N V] (e : σ → Ctx V (List N) → σ × List N) (w : σ) (level : List (Spot N V)) :
    Decidable (levelOk e w level) := by
  induction level generalizing w with
  | nil => exact isTrue trivial
  | cons sp sps ih => exact @instDecidableAnd _ _ _ (ih _)

example : ∃ out, EditBfs turnRound 0 [⟨[], [], sampleTree⟩] 7 out ∧ out.map Ctx.brief =
    [⟨[], [0], some 2⟩, ⟨[0], [0, 2], some 1⟩, ⟨[1], [0, 1], some 2⟩, ⟨[0, 0], [0, 2, 5], some 0⟩,
      ⟨[1, 0], [0, 1, 4], some 0⟩, ⟨[1, 1], [0, 1, 3], some 0⟩, ⟨[0, 0, 0], [0, 2, 5, 6], some 0⟩] :=
  ⟨_, .level (List.cons_ne_nil _ _) (by decide +kernel) (.level (List.cons_ne_nil _ _) (by decide +kernel)
    (.level (List.cons_ne_nil _ _) (by decide +kernel) (.level (List.cons_ne_nil _ _) (by decide +kernel) .nil))), rfl⟩

example : (answersE (editNext Bfs.ctxNext Bfs.putChildren turnRound) 8
      (Bfs.CtxState.new sampleTree [], 0)).map (·.map (·.map Ctx.brief)) =
    some [some ⟨[], [0], some 2⟩, some ⟨[0], [0, 2], some 1⟩, some ⟨[1], [0, 1], some 2⟩, some ⟨[0, 0], [0, 2, 5], some 0⟩,
      some ⟨[1, 0], [0, 1, 4], some 0⟩, some ⟨[1, 1], [0, 1, 3], some 0⟩, some ⟨[0, 0, 0], [0, 2, 5, 6], some 0⟩, none] := by
  decide +kernel

example : ∃ out, EditBfs2 swapRoot 0 [⟨[], [], sampleBin⟩] 6 out ∧ out.map Ctx.brief2 =
    [⟨[], [0], some (true, true)⟩, ⟨[0], [0, 2], some (true, false)⟩, ⟨[1], [0, 1], some (false, true)⟩,
      ⟨[0, 0], [0, 2, 4], some (false, false)⟩, ⟨[1, 1], [0, 1, 3], some (false, false)⟩,
      ⟨[1, 1, 0], [0, 1, 3, 7], some (false, false)⟩] :=
  ⟨_, .level (List.cons_ne_nil _ _) (.level (List.cons_ne_nil _ _) (.level (List.cons_ne_nil _ _)
    (.level (List.cons_ne_nil _ _) .nil))), rfl⟩

example : (answersE (editNext Bfs.binCtxNext Bfs.putChildren swapRoot) 7
      (Bfs.CtxState.binNew sampleBin [], 0)).map (·.map (·.map Ctx.brief2)) =
    some [some ⟨[], [0], some (true, true)⟩, some ⟨[0], [0, 2], some (true, false)⟩, some ⟨[1], [0, 1], some (false, true)⟩,
      some ⟨[0, 0], [0, 2, 4], some (false, false)⟩, some ⟨[1, 1], [0, 1, 3], some (false, false)⟩,
      some ⟨[1, 1, 0], [0, 1, 3, 7], some (false, false)⟩, none] := by
  decide +kernel

/-! ## Clients that remove children come to an end -/

/-- A client that leaves some of the children only (in any order) sees finitely many contexts. -/
theorem C39_preorder_ends [TreeNode N V] (e : σ → Ctx V (List N) → σ × List V × List N)
    (hlen : ∀ w c, (e w c).2.1.length = c.ancestors.length)
    (hsub : ∀ w c cs, c.children = some cs → (∀ x ∈ (e w c).2.2, x ∈ cs) ∧ (e w c).2.2.length ≤ cs.length)
    (n : N) (h : ArityOk n) (w : σ) :
    ∃ s, Preorder.attachContext (Preorder.new n) = .ok s ∧ ∃ wf out, EditRoot e n w wf out ∧ ∀ k,
      nthCallE (editNext Preorder.ctxNext Preorder.putCtx e) k (s, w) = .ok out[k]? := by
  obtain ⟨wf, out, h1⟩ := editRoot_ends hlen hsub n h w
  obtain ⟨s, h2, h3⟩ := C39_preorder e n w wf out h1
  exact ⟨s, h2, wf, out, h1, fun k => (h3 k).1⟩

example := C39_preorder_ends (fun w c => (w + 1, c.ancestors.map (· + 1), (c.children.getD []).take 1)) (fun _ _ => by simp)
  (fun _ _ cs h => by rw [h]; exact ⟨fun x hx => List.mem_of_mem_take hx, by simp; omega⟩) sampleTree sampleTree_arity 0

/-- The same for binary nodes. -/
theorem C39_preorder_binary_ends [BinNode N V] (e : σ → Ctx V (Option N × Option N) → σ × List V × Option N × Option N)
    (hlen : ∀ w c, (e w c).2.1.length = c.ancestors.length)
    (hsub : ∀ w c cs, c.children = some cs → SlotsSub (e w c).2.2 cs) (n : N) (w : σ) :
    ∃ s, Preorder.binAttachContext (Preorder.new n) = .ok s ∧ ∃ wf out, EditRoot2 e n w wf out ∧ ∀ k,
      nthCallE (editNext Preorder.binCtxNext Preorder.putBinCtx e) k (s, w) = .ok out[k]? := by
  obtain ⟨wf, out, h1⟩ := editRoot2_ends hlen hsub n w
  obtain ⟨s, h2, h3⟩ := C39_preorder_binary e n w wf out h1
  exact ⟨s, h2, wf, out, h1, fun k => (h3 k).1⟩

example := C39_preorder_binary_ends (fun w c => (w + 1, c.ancestors.map (· + 1), none, (c.children.getD (none, none)).2))
  (fun _ _ => by simp) (fun _ _ cs h => by rw [h]; simp only [SlotsSub, Option.getD_some]; simp; exact fun _ => .inr) sampleBin 0

/-- The same breadth first. -/
theorem C39_bfs_ends [TreeNode N V] (e : σ → Ctx V (List N) → σ × List N)
    (hsub : ∀ w c cs, c.children = some cs → (∀ x ∈ (e w c).2, x ∈ cs) ∧ (e w c).2.length ≤ cs.length)
    (n : N) (h : ArityLt n) (w : σ) :
    ∃ s, Bfs.attachContext (Bfs.new n) = .ok s ∧ ∃ wf out, EditBfs e w [⟨[], [], n⟩] wf out ∧ ∀ k,
      nthCallE (editNext Bfs.ctxNext Bfs.putChildren e) k (s, w) = .ok out[k]? := by
  obtain ⟨wf, out, h1⟩ := editBfs_ends hsub (TreeNode.size n + 1) [⟨[], [], n⟩] (by simp) (by simpa using h) w
  obtain ⟨s, h2, h3⟩ := C39_bfs e n w wf out h1
  exact ⟨s, h2, wf, out, h1, fun k => (h3 k).1⟩

example := C39_bfs_ends (fun w c => (w + 1, (c.children.getD []).take 1))
  (fun _ _ cs h => by rw [h]; exact ⟨fun x hx => List.mem_of_mem_take hx, by simp; omega⟩) sampleTree sampleTree_arityLt 0

/-- The same breadth first, binary nodes. -/
theorem C39_bfs_binary_ends [BinNode N V] (e : σ → Ctx V (Option N × Option N) → σ × Option N × Option N)
    (hsub : ∀ w c cs, c.children = some cs → SlotsSub (e w c).2 cs) (n : N) (w : σ) :
    ∃ s, Bfs.binAttachContext (Bfs.new n) = .ok s ∧ ∃ wf out, EditBfs2 e w [⟨[], [], n⟩] wf out ∧ ∀ k,
      nthCallE (editNext Bfs.binCtxNext Bfs.putChildren e) k (s, w) = .ok out[k]? := by
  obtain ⟨wf, out, h1⟩ := editBfs2_ends hsub (BinNode.size2 n + 1) [⟨[], [], n⟩] (by simp) w
  obtain ⟨s, h2, h3⟩ := C39_bfs_binary e n w wf out h1
  exact ⟨s, h2, wf, out, h1, fun k => (h3 k).1⟩

/-- A client that drops the first child, turns the others round and changes the values: it meets the hypotheses. -/
example (w : Nat) (c : Ctx Nat (List (Tree Nat))) (cs : List (Tree Nat)) (hc : c.children = some cs) :
    let e : Nat → Ctx Nat (List (Tree Nat)) → Nat × List Nat × List (Tree Nat) :=
      fun w c => (w + 1, c.ancestors.map (· + w), (c.children.getD []).tail.reverse)
    (e w c).2.1.length = c.ancestors.length ∧ (∀ x ∈ (e w c).2.2, x ∈ cs) ∧ (e w c).2.2.length ≤ cs.length := by
  refine ⟨by simp, fun x hx => ?_, by simp [hc]⟩
  simp only [hc, Option.getD_some, List.mem_reverse] at hx
  exact List.mem_of_mem_tail hx

/-! ## A client that takes away all children where `p` holds -/

/-- It sees the contexts of the tree cut below those nodes, in preorder. -/
theorem C39_preorder_cut [TreeNode N V] (p : Ctx V (List N) → Bool) (n : N) (h : ArityOk n) :
    ∃ s, Preorder.attachContext (Preorder.new n) = .ok s ∧ ∀ k,
      nthCallE (editNext Preorder.ctxNext Preorder.putCtx
        fun _ c => ((), c.ancestors, if p c then [] else c.children.getD [])) k (s, ()) =
      .ok (((unfold n).located.map Pos.ctx).cut p).preorder[k]? := by
  obtain ⟨s, h1, h2⟩ := C39_preorder _ n () () _ (editRoot_cut (p := p) (fun _ _ => rfl) () n h)
  refine ⟨s, h1, fun k => ?_⟩
  rw [Tree.located, map_ctx_withPos]
  exact (h2 k).1

example := C39_preorder_cut (fun c => c.path == [0]) sampleTree sampleTree_arity

/-- The same for binary nodes. -/
theorem C39_preorder_binary_cut [BinNode N V] (p : Ctx V (Option N × Option N) → Bool) (n : N) :
    ∃ s, Preorder.binAttachContext (Preorder.new n) = .ok s ∧ ∀ k,
      nthCallE (editNext Preorder.binCtxNext Preorder.putBinCtx
        fun _ c => ((), c.ancestors, if p c then (none, none) else c.children.getD (none, none))) k (s, ()) =
      .ok (((unfold2 n).located.toTree.map Pos.ctx2).cut p).preorder[k]? := by
  obtain ⟨s, h1, h2⟩ := C39_preorder_binary _ n () () _ (editRoot2_cut (p := p) (fun _ _ => rfl) () n)
  refine ⟨s, h1, fun k => ?_⟩
  rw [← BinTree.toTree_map, BinTree.located, map_ctx2_withPos]
  exact (h2 k).1

/-- It sees the contexts of the tree cut below those nodes, level by level. -/
theorem C39_bfs_cut [TreeNode N V] (p : Ctx V (List N) → Bool) (n : N) (h : ArityLt n) :
    ∃ s, Bfs.attachContext (Bfs.new n) = .ok s ∧ ∀ k,
      nthCallE (editNext Bfs.ctxNext Bfs.putChildren fun _ c => ((), if p c then [] else c.children.getD [])) k (s, ()) =
      .ok (((unfold n).located.map Pos.ctx).cut p).levelOrder[k]? := by
  obtain ⟨s, h1, h2⟩ := C39_bfs _ n () () _ (editBfs_cut (p := p) (fun _ _ => rfl) () (TreeNode.size n + 1) _ (by simp)
    (by simpa using h))
  refine ⟨s, h1, fun k => ?_⟩
  rw [Tree.located, map_ctx_withPos, ← bfsF_singleton]
  exact (h2 k).1

example := C39_bfs_cut (fun c => c.path == [0]) sampleTree sampleTree_arityLt

/-- The same for binary nodes. -/
theorem C39_bfs_binary_cut [BinNode N V] (p : Ctx V (Option N × Option N) → Bool) (n : N) :
    ∃ s, Bfs.binAttachContext (Bfs.new n) = .ok s ∧ ∀ k,
      nthCallE (editNext Bfs.binCtxNext Bfs.putChildren
        fun _ c => ((), if p c then (none, none) else c.children.getD (none, none))) k (s, ()) =
      .ok (((unfold2 n).located.toTree.map Pos.ctx2).cut p).levelOrder[k]? := by
  obtain ⟨s, h1, h2⟩ := C39_bfs_binary _ n () () _ (editBfs2_cut (p := p) (fun _ _ => rfl) () (BinNode.size2 n + 1) _
    (by simp))
  refine ⟨s, h1, fun k => ?_⟩
  rw [← BinTree.toTree_map, BinTree.located, map_ctx2_withPos, ← bfsF_singleton]
  exact (h2 k).1

/-- C39: until the next call the context shows what was written. -/
theorem C39_written (s : Preorder.CtxState N V) (b : Preorder.BinCtxState N V) {C : Type w} {I : Type u}
    (q : Bfs.CtxState V C I) (a : V) (anc : List V) (cs : List N) (ds : Option N × Option N) (c : C)
    (hs : Preorder.ctxGet s ≠ none) (hb : Preorder.binCtxGet b ≠ none) :
    Preorder.ctxGet (Preorder.putCtx s (a :: anc, cs)) =
      (Preorder.ctxGet s).map (fun x => ⟨x.path, a :: anc, some cs⟩) ∧
    Preorder.binCtxGet (Preorder.putBinCtx b (a :: anc, ds)) =
      (Preorder.binCtxGet b).map (fun x => ⟨x.path, a :: anc, some ds⟩) ∧
    Bfs.ctxGet (Bfs.putChildren q c) = (Bfs.ctxGet q).map (fun x => { x with children := some c }) := by
  refine ⟨?_, ?_, ?_⟩
  · simp only [Preorder.ctxGet, Preorder.putCtx] at hs ⊢
    split at hs
    · exact absurd rfl hs
    · next h => simp [h]
  · simp only [Preorder.binCtxGet, Preorder.putBinCtx] at hb ⊢
    split at hb
    · exact absurd rfl hb
    · next h => simp [h]
  · simp only [Bfs.ctxGet, Bfs.putChildren]
    split <;> simp_all

/-- A context of the traversal of `sampleTree`, before and after. -/
example : (Preorder.ctxGet ⟨none, [], [], [0], some [sampleTree]⟩).map Ctx.brief = some ⟨[], [0], some 1⟩ ∧
    (Preorder.ctxGet (Preorder.putCtx ⟨none, [], [], [0], some [sampleTree]⟩ ([7], []))).map Ctx.brief =
      some ⟨[], [7], some 0⟩ := by decide +kernel

/-- Cut below `1`: seen in preorder and level by level. -/
example : ArityLt sampleTree ∧
    ((((unfold sampleTree).located.map Pos.ctx).cut fun c => c.ancestors.getLast? = some 1).preorder.map Ctx.brief,
      (((unfold sampleTree).located.map Pos.ctx).cut fun c => c.ancestors.getLast? = some 1).levelOrder.map Ctx.brief) =
    ([⟨[], [0], some 2⟩, ⟨[0], [0, 1], some 2⟩, ⟨[1], [0, 2], some 1⟩, ⟨[1, 0], [0, 2, 5], some 0⟩],
      [⟨[], [0], some 2⟩, ⟨[0], [0, 1], some 2⟩, ⟨[1], [0, 2], some 1⟩, ⟨[1, 0], [0, 2, 5], some 0⟩]) :=
  ⟨sampleTree_arityLt, by decide +kernel⟩

end TreeIter
