import Verif.Lemmas.BfsCtx
import Verif.Lemmas.BfsWide
import Verif.Props.Positions
import Verif.Props.Attach

/-! # C14, C15 and C23 for the breadth-first iterators -/

universe u v

namespace TreeIter

variable {N : Type u} {V : Type v}

/-- No node of `sampleTree` has too many children. -/
theorem sampleTree_arityLt : ArityLt sampleTree := by
  intro m hm
  have h : ∀ m ∈ (unfold sampleTree).preorder, (kids m).length ≤ 3 := by decide +kernel
  have := h m hm
  omega

/-- C14 -/
theorem C14_bfs_context [TreeNode N V] (n : N) (h : ArityLt n) :
    ∃ s, Bfs.attachContext (Bfs.new n) = .ok s ∧
      ∀ k, nthCallE Bfs.ctxNext k s = .ok ((unfold n).located.levelOrder.map Pos.ctx)[k]? := by
  refine ⟨_, rfl, fun k => ?_⟩
  rw [Bfs.ctx_calls k _ _ (Bfs.ctxRel_new n [] h), bfsF_singleton, ← Tree.levelOrder_map, Tree.located, map_ctx_withPos]
  rfl

example : ArityLt sampleTree ∧
    (answersE Bfs.ctxNext 8 (Bfs.CtxState.new sampleTree [])).map (·.map (·.map Ctx.brief)) =
    some [some ⟨[], [0], some 2⟩, some ⟨[0], [0, 1], some 2⟩, some ⟨[1], [0, 2], some 1⟩,
      some ⟨[0, 0], [0, 1, 3], some 0⟩, some ⟨[0, 1], [0, 1, 4], some 0⟩, some ⟨[1, 0], [0, 2, 5], some 0⟩,
      none, none] :=
  ⟨sampleTree_arityLt, by decide +kernel⟩

/-- C14: the bound on the number of children is sharp.  Whatever the tree below, a root with 2^64 children or more
makes the traversal panic with an overflow at its child number 2^64 - 1, whose index would still fit. -/
theorem C14_bfs_context_overflow [SplitNode N V] (n : N) (h : 2 ^ 64 ≤ (kids n).length) :
    (∀ i c, i + 1 < 2 ^ 64 → (kids n)[i]? = some c → nthCallE Bfs.ctxNext (i + 1) (Bfs.CtxState.new n []) =
      .ok (some ⟨[i], [val n, val c], some (kids c)⟩)) ∧
      nthCallE Bfs.ctxNext (2 ^ 64) (Bfs.CtxState.new n []) = .error .overflow := by
  constructor
  · intro i c hi hc
    obtain ⟨s, h1, h2⟩ := Bfs.wide_state n h i (by omega)
    obtain ⟨s', h3, -⟩ := (h2.advance c hc).1 hi
    rw [nthCallE, h1]
    simp only [h3]
  · obtain ⟨s, h1, h2⟩ := Bfs.wide_state n h (2 ^ 64 - 1) (by omega)
    have h3 := (h2.advance ((kids n)[2 ^ 64 - 1]'(by omega)) (by simp)).2 (by omega)
    rw [nthCallE, show (2 : Nat) ^ 64 = 2 ^ 64 - 1 + 1 from rfl, h1]
    simp only [h3]

example : 2 ^ 64 ≤ (kids (Tree.node 0 (List.replicate (2 ^ 64) (.node 1 [])))).length := by
  show 2 ^ 64 ≤ (List.replicate _ _).length
  rw [List.length_replicate]
  exact Nat.le_refl _

/-- C14 for binary nodes. -/
theorem C14_bfs_context_binary [BinNode N V] (n : N) :
    ∃ s, Bfs.binAttachContext (Bfs.new n) = .ok s ∧
      ∀ k, nthCallE Bfs.binCtxNext k s = .ok ((unfold2 n).located.toTree.levelOrder.map Pos.ctx2)[k]? := by
  refine ⟨_, rfl, fun k => ?_⟩
  rw [Bfs.binCtx_calls k _ _ (Bfs.binCtxRel_new n []), bfsF_singleton, ← Tree.levelOrder_map, ← BinTree.toTree_map,
    BinTree.located, map_ctx2_withPos]
  rfl

example : (answersE Bfs.binCtxNext 7 (Bfs.CtxState.binNew sampleBin [])).map (·.map (·.map Ctx.brief2)) =
    some [some ⟨[], [0], some (true, true)⟩, some ⟨[0], [0, 1], some (false, true)⟩,
      some ⟨[1], [0, 2], some (true, false)⟩, some ⟨[0, 1], [0, 1, 3], some (false, false)⟩,
      some ⟨[1, 0], [0, 2, 4], some (false, false)⟩, none, none] := by decide +kernel

/-- C15, breadth first. -/
theorem C15_bfs [TreeNode N V] (n : N) (ha : ArityLt n) :
    ∃ s, Bfs.attachContext (Bfs.new n) = .ok s ∧
      ∀ k c, nthCallE Bfs.ctxNext k s = .ok (some c) → CtxLeadsBack n c := by
  obtain ⟨s, h1, h2⟩ := C14_bfs_context n ha
  refine ⟨s, h1, fun k c hc => of_nthCallE (h2 k) hc ?_⟩
  intro c hc
  obtain ⟨p, hp, rfl⟩ := List.mem_map.1 hc
  exact ctx_leads_back n p ((levelOrder_perm_preorder _).mem_iff.1 hp)

example := C15_bfs sampleTree sampleTree_arityLt

/-- C15, breadth first on binary nodes. -/
theorem C15_bfs_binary [BinNode N V] (n : N) :
    ∃ s, Bfs.binAttachContext (Bfs.new n) = .ok s ∧
      ∀ k c, nthCallE Bfs.binCtxNext k s = .ok (some c) → CtxLeadsBack2 n c := by
  obtain ⟨s, h1, h2⟩ := C14_bfs_context_binary n
  refine ⟨s, h1, fun k c hc => of_nthCallE (h2 k) hc ?_⟩
  intro c hc
  obtain ⟨p, hp, rfl⟩ := List.mem_map.1 hc
  exact ctx2_leads_back n p ((levelOrder_perm_preorder _).mem_iff.1 hp)

theorem bfs_started [TreeNode N V] (n : N) (k : Nat) :
    (stateAfter Bfs.next k (Bfs.new n)).root = none ↔ k ≠ 0 :=
  stateAfter_flag Bfs.next (fun s => s.root = none) (fun s => by
    obtain ⟨root, queue⟩ := s
    cases root with
    | some r => rfl
    | none =>
      show (Bfs.loop queue).2.root = none
      fun_induction Bfs.loop queue <;> simp_all) _ (by simp [Bfs.new]) k

/-- C23, breadth-first `attach_ancestors`. -/
theorem C23_bfs_ancestors [TreeNode N V] (n : N) (k : Nat) :
    (k = 0 → ∃ s, Bfs.attachAncestors (V := V) (stateAfter Bfs.next k (Bfs.new n)) = .ok s) ∧
      (k ≠ 0 → Bfs.attachAncestors (V := V) (stateAfter Bfs.next k (Bfs.new n)) = .error .attachMidTraversal) := by
  refine ⟨?_, fun h => ?_⟩
  · rintro rfl
    exact ⟨_, rfl⟩
  · have := (bfs_started n k).2 h
    simp [Bfs.attachAncestors, this]

example : (Bfs.attachAncestors (V := Nat) (stateAfter Bfs.next 2 (Bfs.new sampleTree))).toBool = false := by
  decide +kernel

/-- C23, breadth-first `attach_context`. -/
theorem C23_bfs_context [TreeNode N V] (n : N) (k : Nat) :
    (k = 0 → ∃ s, Bfs.attachContext (V := V) (stateAfter Bfs.next k (Bfs.new n)) = .ok s) ∧
      (k ≠ 0 → Bfs.attachContext (V := V) (stateAfter Bfs.next k (Bfs.new n)) = .error .attachMidTraversal) := by
  refine ⟨?_, fun h => ?_⟩
  · rintro rfl
    exact ⟨_, rfl⟩
  · have := (bfs_started n k).2 h
    simp [Bfs.attachContext, this]

example : (Bfs.attachContext (V := Nat) (stateAfter Bfs.next 2 (Bfs.new sampleTree))).toBool = false := by
  decide +kernel

/-- C23, breadth-first `attach_context` on binary nodes. -/
theorem C23_bfs_context_binary [BinNode N V] (n : N) (k : Nat) :
    (k = 0 → ∃ s, Bfs.binAttachContext (V := V) (stateAfter Bfs.next k (Bfs.new n)) = .ok s) ∧
      (k ≠ 0 → Bfs.binAttachContext (V := V) (stateAfter Bfs.next k (Bfs.new n)) = .error .attachMidTraversal) := by
  refine ⟨?_, fun h => ?_⟩
  · rintro rfl
    exact ⟨_, rfl⟩
  · have := (bfs_started n k).2 h
    simp [Bfs.binAttachContext, this]

example : (Bfs.binAttachContext (V := Nat) (stateAfter Bfs.next 2 (Bfs.new sampleBin))).toBool = false := by
  decide +kernel

end TreeIter
