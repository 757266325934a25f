import Verif.Lemmas.LazyIn
import Verif.Props.DepthFirst

/-!
# C47: in-order traversals of trees that are infinite to the right

`LeftNode` requires only that every walk to the left ends: an in-order iterator walks to the left inside one call.
`cutR d n` holds the nodes reached with at most `d` steps to the right.
-/

universe u v

namespace TreeIter

variable {N : Type u} {V : Type v}

/-- C47, in-order: call `k` returns the `k`-th value of the tree cut after more than `k` steps to the right. -/
theorem C47_inorder [LeftNode N V] (n : N) (k d : Nat) (h : k < d) :
    nthCall Inorder.next k (Inorder.new n) = ((cutR d n).inorder.map val2)[k]? := by
  have := nthCall_lazy Inorder.State.strip (id : V → V) Inorder.State.good Inorder.next_strip k
    (s := Inorder.new (⟨n, d⟩ : CutR N)) (by simpa [Inorder.State.good, Inorder.new, DeepR] using Nat.succ_le_of_lt h)
  rw [C03_inorder, CutR.binTreeOf_eq, BinTree.inorder_map, Option.map_id, id] at this
  exact this

theorem ctxR_list_strip [LeftNode N V] (d k : Nat) (h : k < d) (n : N) :
    ((unfold2 (⟨n, d⟩ : CutR N)).located.inorder.map Pos.ctx2)[k]?.map Ctx.stripR =
      ((cutR d n).located.inorder.map Pos.ctx2)[k]? := by
  rw [← CutR.unfold_node, BinTree.located_map, BinTree.inorder_map]
  simp only [List.getElem?_map]
  cases hp : (unfold2 (⟨n, d⟩ : CutR N)).located.inorder[k]? with
  | none => rfl
  | some p =>
    have h1 := CutR.budget_inorder _ _ _ k p hp
    simp only [Option.map_some]
    rw [CutR.ctx_strip p (by simp only at h1; omega)]

/-- C47, in-order with contexts, borrowed and mutably borrowed: both slots of the whole tree are shown. -/
theorem C47_inorder_context [LeftNode N V] (n : N) :
    ∃ s, Inorder.attachContext (Inorder.new n) = .ok s ∧ ∀ k d, k < d →
      nthCallE Inorder.ctxNext k s = .ok ((cutR d n).located.inorder.map Pos.ctx2)[k]? := by
  refine ⟨_, rfl, fun k d h => ?_⟩
  obtain ⟨s, h1, h2⟩ := C13_inorder_context (⟨n, d⟩ : CutR N)
  cases h1
  have := nthCallE_lazy Inorder.CtxState.strip Ctx.stripR Inorder.CtxState.good Inorder.ctxNext_strip k
    (s := Inorder.CtxState.new (⟨n, d⟩ : CutR N) [])
    (by simpa [Inorder.CtxState.good, Inorder.CtxState.new, DeepR] using Nat.succ_le_of_lt h) (h2 k)
  rw [ctxR_list_strip d k h n] at this
  exact this

/-- C47, in-order with contexts, owned. -/
theorem C47_inorder_context_owned [LeftNode N V] (n : N) :
    ∃ s, Inorder.ownAttachContext (Inorder.new n) = .ok s ∧ ∀ k d, k < d →
      nthCallE Inorder.ownNext k s = .ok ((cutR d n).located.inorder.map fun p => p.ctx2.noChildren)[k]? := by
  refine ⟨_, rfl, fun k d h => ?_⟩
  obtain ⟨s, hs, hk⟩ := C47_inorder_context n
  cases hs
  have := nthCallE_sim (next' := Inorder.ownNext) Inorder.CtxState.own Ctx.noChildren
    (fun s o s1 => Inorder.ownNext_sim s s1 o) k _ _ (hk k d h)
  simpa [Inorder.CtxState.own, Inorder.CtxState.new, Inorder.OwnCtxState.new, Function.comp_def] using this

/-- C47, in-order with ancestors. -/
theorem C47_inorder_ancestors [LeftNode N V] (n : N) :
    ∃ s, Inorder.attachAncestors (Inorder.new n) = .ok s ∧ ∀ k d, k < d →
      nthCallE Inorder.ancNext k s = .ok ((cutR d n).located.inorder.map fun p => p.ancestors.map val2)[k]? := by
  refine ⟨_, rfl, fun k d h => ?_⟩
  obtain ⟨s, hs, hk⟩ := C47_inorder_context_owned n
  cases hs
  have := nthCallE_sim (next' := Inorder.ancNext) Inorder.OwnCtxState.anc Ctx.ancestors
    (fun s o s1 => Inorder.ancNext_sim s s1 o) k _ _ (hk k d h)
  simpa [Inorder.OwnCtxState.anc, Inorder.AncState.new, Inorder.OwnCtxState.new, Function.comp_def, Pos.ctx2,
    Ctx.noChildren, Pos.map] using this

theorem inorder_cutR [LeftNode N V] (P : N → Prop) (h : ∀ m, P m → ∃ c, (split2 m).2.2 = some c ∧ P c) (d : Nat) (n : N)
    (hn : P n) : d < (cutR d n).inorder.length := by
  induction d generalizing n with
  | zero =>
    rw [cutR_zero, BinTree.inorder]
    simp only [List.length_append, List.length_cons]
    omega
  | succ d ih =>
    obtain ⟨c, hc, hp⟩ := h n hn
    have := ih c hp
    rw [cutR_succ, BinTree.inorder]
    simp only [hc, Option.map_some, BinTree.inorderO, List.length_append, List.length_cons]
    omega

/-- C47: where one can go on to the right for ever, the in-order traversal never ends. -/
theorem C47_inorder_endless [LeftNode N V] (P : N → Prop) (h : ∀ m, P m → ∃ c, (split2 m).2.2 = some c ∧ P c) (n : N)
    (hn : P n) (k : Nat) : nthCall Inorder.next k (Inorder.new n) ≠ none := by
  have := inorder_cutR P h (k + 1) n hn
  rw [C47_inorder _ k (k + 1) (by omega)]
  simp only [ne_eq, List.getElem?_eq_none_iff, List.length_map]
  omega

/-! ## An infinite tree -/

/-- An infinite search tree: every node has a right child, and those called by an even number a left one without
children of its own. -/
inductive Vine where
  /-- a node of the spine -/
  | spine (i : Nat)
  /-- the left child of a node of the spine -/
  | side (i : Nat)
  deriving DecidableEq

instance : LeftNode Vine Nat where
  split2
    | .spine i => (2 * i + 1, if i % 2 = 0 then some (.side i) else none, some (.spine (i + 1)))
    | .side i => (2 * i, none, none)
  leftSize
    | .spine _ => 1
    | .side _ => 0
  leftSize_lt := by
    rintro (i | i) c h
    · simp only at h
      split at h <;> cases h
      exact Nat.zero_lt_one
    · cases h

example : answers Inorder.next 7 (Inorder.new (Vine.spine 0)) = [0, 1, 3, 4, 5, 7, 8].map some := by decide +kernel

example : answersE Inorder.ancNext 4 (Inorder.AncState.new (Vine.spine 0)) =
    some [some [1, 0], some [1], some [1, 3], some [1, 3, 5, 4]] := by decide +kernel

example : (answersE Inorder.ctxNext 4 (Inorder.CtxState.new (Vine.spine 0) [])).map (·.map (·.map Ctx.brief2)) =
    some [some ⟨[0], [1, 0], some (false, false)⟩, some ⟨[], [1], some (true, true)⟩,
      some ⟨[1], [1, 3], some (false, true)⟩, some ⟨[1, 1, 0], [1, 3, 5, 4], some (false, false)⟩] := by decide +kernel

example := C47_inorder (Vine.spine 0) 6 7 (by decide)

example := C47_inorder_context (Vine.spine 0)

example := C47_inorder_endless (fun v => ∃ i, v = Vine.spine i) (by rintro _ ⟨i, rfl⟩; exact ⟨_, rfl, _, rfl⟩)
  (Vine.spine 0) ⟨0, rfl⟩

end TreeIter
