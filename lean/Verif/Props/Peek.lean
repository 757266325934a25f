import Verif.Lemmas.Peek
import Verif.Props.DepthFirst
import Verif.Props.BreadthFirst
import Verif.Props.BreadthFirstAnc
import Verif.Props.BreadthFirstCtx

/-!
# C61: preorder and breadth-first traversals ask only for what they need

The child iterators are arbitrary state machines and nothing bounds them: a node may have infinitely many children and
the tree may be infinitely deep.  Call number `k` nevertheless returns, and what it returns is read off a finite piece of
the tree (`Peek`): any piece that tells more than `k` children of the root.  That every larger piece gives the same answer
is part of the statements.
-/

universe u v w

namespace TreeIter

variable {N : Type u} {V : Type v} {I : Type w}

/-! ## A sample: infinitely many children, infinitely deep -/

/-- Node `n` has the value `n` and the children `n + 1`, `n + 2`, … -/
@[reducible] def endlessNode : PollNode Nat Nat Nat where
  splitI n := (n, n + 1)
  poll i := (some i, i + 1)

section
variable [PollNode N V I]

/-- C61, preorder. -/
theorem C61_preorder (n : N) (k j : Nat) (h : k < j) :
    nthCall Poll.preNext k (⟨some n, []⟩ : Poll.Pre N I) = (treeOf (⟨j, n⟩ : Peek N)).preorder[k]? := by
  rw [Peek.nthCall_peek Peek.PreR Peek.preNext_peek k (t := Preorder.new (⟨j, n⟩ : Peek N))
    ⟨.inr ⟨⟨j, n⟩, rfl, rfl, h⟩, .nil⟩, C01_preorder]

/-- C61, preorder with ancestors. -/
theorem C61_preorder_ancestors (n : N) (k j : Nat) (h : k < j) :
    nthCall Poll.preAncNext k (⟨some n, [], []⟩ : Poll.PreAnc N V I) =
      ((treeOf (⟨j, n⟩ : Peek N)).located.preorder.map Pos.ancestors)[k]? := by
  rw [Peek.nthCall_peek Peek.PreAncR Peek.preAncNext_peek k (t := Preorder.AncState.new (⟨j, n⟩ : Peek N))
    ⟨.inr ⟨⟨j, n⟩, rfl, rfl, h⟩, .nil, rfl⟩]
  obtain ⟨s, h1, h2⟩ := C06_preorder_ancestors (⟨j, n⟩ : Peek N)
  cases h1
  exact h2 k

theorem ctx_children (l : List (Pos (Peek N))) (k : Nat) (d : Ctx V (List (Peek N)))
    (h : (l.map Pos.ctx)[k]? = some d) : d.children ≠ none := by
  rw [List.getElem?_map, Option.map_eq_some_iff] at h
  obtain ⟨p, -, rfl⟩ := h
  simp [Pos.ctx]

/-- C61, preorder with context: call number `k` does not panic, and its answer has the path and the ancestors that a piece
with more than `k` children of the root shows; the child iterator handed out is untouched as far as the piece tells. -/
theorem C61_preorder_context (n : N) (k : Nat) (hk : k < 2 ^ 64) :
    ∃ o, nthCallE Poll.preCtxNext k (⟨some n, [], [], [], none⟩ : Poll.PreCtx N V I) = .ok o ∧
      ∀ j, j + 1 + k ≤ 2 ^ 64 →
        CtxShows j o ((unfold (⟨j + 1 + k, n⟩ : Peek N)).located.preorder.map Pos.ctx)[k]? := by
  have main : ∀ j, j + 1 + k ≤ 2 ^ 64 →
      ∃ o, CtxShows j o ((unfold (⟨j + 1 + k, n⟩ : Peek N)).located.preorder.map Pos.ctx)[k]? ∧
        nthCallE Poll.preCtxNext k (⟨some n, [], [], [], none⟩ : Poll.PreCtx N V I) = .ok o := by
    intro j hj
    obtain ⟨s, h1, h2⟩ := C10_preorder_context (⟨j + 1 + k, n⟩ : Peek N)
      (fun m hm => Nat.le_trans (Peek.length_kids _ m hm) hj)
    cases h1
    obtain ⟨o, hq, ho⟩ := Peek.nthCallE_peek Peek.PreCtxR Peek.CtxR Peek.preCtxNext_peek k j
      (s := (⟨some n, [], [], [], none⟩ : Poll.PreCtx N V I))
      ⟨.inr ⟨⟨j + 1 + k, n⟩, rfl, rfl, Nat.le_refl _⟩, .nil, rfl, rfl, Peek.kids_none _⟩ (h2 k)
    exact ⟨o, hq.shows (ctx_children _ k), ho⟩
  obtain ⟨o, -, ho⟩ := main 0 (by omega)
  refine ⟨o, ho, fun j hj => ?_⟩
  obtain ⟨o', h1, h2⟩ := main j hj
  rw [ho] at h2
  cases h2
  exact h1

/-- C61, breadth first. -/
theorem C61_bfs (n : N) (k j : Nat) (h : k < j) :
    nthCall Poll.bfsNext k (⟨some n, []⟩ : Poll.Pre N I) = (treeOf (⟨j, n⟩ : Peek N)).levelOrder[k]? := by
  rw [Peek.nthCall_peek Peek.BfsR Peek.bfsNext_peek k (t := Bfs.new (⟨j, n⟩ : Peek N))
    ⟨.inr ⟨⟨j, n⟩, rfl, rfl, h⟩, .nil⟩, C04_bfs]

theorem bfs_front (k : Nat) : ∀ (i : I) (rest : List I) (c : N), (polls (k + 1) i)[k]? = some c →
    nthCall Poll.bfsNext k (⟨none, i :: rest⟩ : Poll.Pre N I) = some (splitI c).1 := by
  induction k with
  | zero =>
    intro i rest c h
    rw [polls] at h
    rcases hp : poll (N := N) i with ⟨_ | n, i'⟩
    · simp [hp] at h
    · simp only [hp, List.getElem?_cons_zero, Option.some.injEq] at h
      subst h
      simp only [nthCall, stateAfter, Poll.bfsNext, Poll.bfsLoop, hp]
  | succ k ih =>
    intro i rest c h
    rw [polls] at h
    rcases hp : poll (N := N) i with ⟨_ | n, i'⟩
    · simp [hp] at h
    · simp only [hp, List.getElem?_cons_succ] at h
      have e : (Poll.bfsNext (⟨none, i :: rest⟩ : Poll.Pre N I)).2 = ⟨none, i' :: (rest ++ [(splitI n).2])⟩ := by
        simp only [Poll.bfsNext, Poll.bfsLoop, hp, List.cons_append]
      rw [← ih i' (rest ++ [(splitI n).2]) c h, ← e]
      rfl

/-- C61: breadth first gives the children of the root right after the root, however many there are.  With infinitely many
the traversal never gets any further. -/
theorem C61_bfs_children (n : N) (k : Nat) (c : N) (h : (polls (k + 1) (splitI n).2)[k]? = some c) :
    nthCall Poll.bfsNext (k + 1) (⟨some n, []⟩ : Poll.Pre N I) = some (splitI c).1 :=
  bfs_front k (splitI n).2 [] c h

/-- C61, breadth first with ancestors, up to and including the first `None` (after it this iterator panics, C24). -/
theorem C61_bfs_ancestors (n : N) (k j : Nat) (h : k < j) (hk : k ≤ (treeOf (⟨j, n⟩ : Peek N)).size) :
    nthCallE (Poll.bfsAncNext N) k (Poll.BfsAnc.new n : Poll.BfsAnc V I) =
      .ok ((treeOf (⟨j, n⟩ : Peek N)).located.levelOrder.map Pos.ancestors)[k]? := by
  obtain ⟨s, h1, h2⟩ := C09_bfs_ancestors (⟨j, n⟩ : Peek N)
  cases h1
  obtain ⟨o, rfl, ho⟩ := Peek.nthCallE_peek Peek.BfsAncR (fun _ => Eq) Peek.bfsAncNext_peek k (j - 1 - k)
    (s := (Poll.BfsAnc.new n : Poll.BfsAnc V I)) (t := Bfs.AncState.new (⟨j, n⟩ : Peek N))
    ⟨rfl, rfl, .cons (Peek.it_kids (⟨j, n⟩ : Peek N) (by simp only; omega)) .nil⟩ (h2 k hk)
  exact ho

/-- C61, breadth first with context. -/
theorem C61_bfs_context (n : N) (k : Nat) (hk : k + 1 < 2 ^ 64) :
    ∃ o, nthCallE (Poll.bfsCtxNext N) k (Poll.BfsCtx.new n : Poll.BfsCtx V I) = .ok o ∧
      ∀ j, j + 1 + k < 2 ^ 64 →
        CtxShows j o ((unfold (⟨j + 1 + k, n⟩ : Peek N)).located.levelOrder.map Pos.ctx)[k]? := by
  have main : ∀ j, j + 1 + k < 2 ^ 64 →
      ∃ o, CtxShows j o ((unfold (⟨j + 1 + k, n⟩ : Peek N)).located.levelOrder.map Pos.ctx)[k]? ∧
        nthCallE (Poll.bfsCtxNext N) k (Poll.BfsCtx.new n : Poll.BfsCtx V I) = .ok o := by
    intro j hj
    obtain ⟨s, h1, h2⟩ := C14_bfs_context (⟨j + 1 + k, n⟩ : Peek N)
      (fun m hm => Nat.lt_of_le_of_lt (Peek.length_kids _ m hm) hj)
    cases h1
    obtain ⟨o, hq, ho⟩ := Peek.nthCallE_peek Peek.BfsCtxR Peek.CtxR Peek.bfsCtxNext_peek k j
      (s := (Poll.BfsCtx.new n : Poll.BfsCtx V I)) (t := Bfs.CtxState.new (⟨j + 1 + k, n⟩ : Peek N) [])
      ⟨rfl, rfl, Peek.kids_some (Peek.it_kids (⟨j + 1 + k, n⟩ : Peek N) (Nat.le_refl _)), .nil, rfl⟩ (h2 k)
    exact ⟨o, hq.shows (ctx_children _ k), ho⟩
  obtain ⟨o, -, ho⟩ := main 0 (by omega)
  refine ⟨o, ho, fun j hj => ?_⟩
  obtain ⟨o', h1, h2⟩ := main j hj
  rw [ho] at h2
  cases h2
  exact h1

end

section Endless

attribute [local instance] endlessNode

/-- Preorder on the endless sample goes down the first children for ever. -/
example : answers Poll.preNext 5 (⟨some 0, []⟩ : Poll.Pre Nat Nat) = [some 0, some 1, some 2, some 3, some 4] ∧
    (treeOf (⟨5, 0⟩ : Peek Nat)).preorder.take 5 = [0, 1, 2, 3, 4] := by decide +kernel

/-- Breadth first on the endless sample goes through the children of the root for ever. -/
example : answers Poll.bfsNext 5 (⟨some 7, []⟩ : Poll.Pre Nat Nat) = [some 7, some 8, some 9, some 10, some 11] ∧
    (treeOf (⟨5, 7⟩ : Peek Nat)).levelOrder.take 5 = [7, 8, 9, 10, 11] := by decide +kernel

example : (polls (N := Nat) 4 (splitI 7).2)[3]? = some 11 := by decide +kernel

example : answers Poll.preAncNext 3 (⟨some 0, [], []⟩ : Poll.PreAnc Nat Nat Nat) =
    [some [0], some [0, 1], some [0, 1, 2]] := by decide +kernel

example : answersE (Poll.bfsAncNext Nat) 4 (Poll.BfsAnc.new 0 : Poll.BfsAnc Nat Nat) =
    some [some [0], some [0, 1], some [0, 2], some [0, 3]] ∧ 3 ≤ (treeOf (⟨4, 0⟩ : Peek Nat)).size := by decide +kernel

example : (answersE Poll.preCtxNext 3 (⟨some 0, [], [], [], none⟩ : Poll.PreCtx Nat Nat Nat)).map
      (List.map (Option.map fun c => (c.path, c.ancestors, c.children.map (polls (N := Nat) 3)))) =
    some [some ([], [0], some [1, 2, 3]), some ([0], [0, 1], some [2, 3, 4]),
      some ([0, 0], [0, 1, 2], some [3, 4, 5])] := by decide +kernel

example : (answersE (Poll.bfsCtxNext Nat) 3 (Poll.BfsCtx.new 0 : Poll.BfsCtx Nat Nat)).map
      (List.map (Option.map fun c => (c.path, c.ancestors, c.children.map (polls (N := Nat) 3)))) =
    some [some ([], [0], some [1, 2, 3]), some ([0], [0, 1], some [2, 3, 4]),
      some ([1], [0, 2], some [3, 4, 5])] := by decide +kernel

example := C61_preorder (V := Nat) (I := Nat) (0 : Nat) 3 4 (by decide)

example := C61_preorder_ancestors (V := Nat) (I := Nat) (0 : Nat) 3 4 (by decide)

example := C61_preorder_context (V := Nat) (I := Nat) (0 : Nat) 3 (by decide)

example := C61_bfs (V := Nat) (I := Nat) (7 : Nat) 3 4 (by decide)

example := C61_bfs_children (V := Nat) (I := Nat) (7 : Nat) 3 11 (by decide +kernel)

example := C61_bfs_ancestors (V := Nat) (I := Nat) (0 : Nat) 3 4 (by decide) (by decide +kernel)

end Endless

end TreeIter
