import Verif.Lemmas.SharedWide
import Verif.Props.SharedCtx

/-!
# C81: breadth-first ancestors and contexts
-/

universe u v w x y

namespace TreeIter

open Shared

variable {W : Type x} {N : Type u} {V : Type v} {C : Type y} {I : Type w}

/-- C81, breadth first with ancestors: a loop over the slices ends as the visitor does that goes level by level and carries the
ancestors of each node along.  The root is asked when the ancestors are attached.  Neither panics. -/
theorem C81_bfs_ancestors [SharedNode W N V I] (body : Body W (List V)) (n : N) (w : W) (r : Ending W) :
    (∃ k, wideAncWhile N body k (WideAnc.new n w).1 (WideAnc.new n w).2 = some r) ↔ VisitWideAnc body n w r := by
  rcases hs : splitW n w with ⟨v, i, w1⟩
  have hn : WideAnc.new n w = (⟨true, ⟨[v], [], .mk none []⟩, [i]⟩, w1) := by rw [WideAnc.new, hs]
  rw [hn]
  constructor
  · rintro ⟨_ | k, h⟩
    · simp [wideAncWhile] at h
    · simp only [wideAncWhile, wideAncAdvance, wideAncConclude, if_true, List.length_singleton, Nat.one_ne_zero, if_false,
        List.reverse_singleton] at h
      rcases hb : body [v] w1 with ⟨_ | _, w2⟩
      · simp only [hb, Option.some.injEq] at h
        subst h
        exact .halt hs hb
      · simp only [hb] at h
        cases k with
        | zero => simp [wideAncWhile] at h
        | succ k =>
          simp only [wideAncWhile, wideAncAdvance, Bool.false_eq_true, if_false] at h
          exact .node hs hb (visit_of_runWideAnc (wideAnc_sound k _ _ _ _ _ (wideInv_root v i) h) _ _ (by simp))
  · intro h
    cases h with
    | halt h1 h2 =>
      obtain ⟨rfl, rfl, rfl⟩ : v = _ ∧ i = _ ∧ w1 = _ := by simpa [hs] using h1
      exact ⟨1, by simp [wideAncWhile, wideAncAdvance, wideAncConclude, h2]⟩
    | node h1 h2 h3 =>
      obtain ⟨rfl, rfl, rfl⟩ : v = _ ∧ i = _ ∧ w1 = _ := by simpa [hs] using h1
      obtain ⟨k, hk⟩ := wideAnc_complete (runWideAnc_of_visit h3) _ _ (wideInv_root v i)
      exact ⟨k + 2, by simpa [wideAncWhile, wideAncAdvance, wideAncConclude, h2] using hk⟩

/-- C81, breadth first with context, general and binary nodes: a loop whose body is given each context, reads path and ancestors
and may write to the children, ends as the visitor does that goes level by level through the children that the body leaves
behind.  It panics if and only if the slots seen of one node come to 2^64. -/
theorem C81_bfs_context [CtxNode W N V C I] (body : WideBody W V C) (n : N) (w : W) (r : Ending W) :
    (∃ fuel k, wideCtxWhile N fuel body k (WideCtx.new (C := C) (I := I) n w).1 (WideCtx.new (C := C) (I := I) n w).2 = some r) ↔
      VisitWideCtx body n w r := by
  rcases hs : splitC n w with ⟨v, c, w1⟩
  have hn : WideCtx.new (C := C) (I := I) n w = (⟨true, ⟨[v], [], [], .mk none []⟩, some c, [], 0⟩, w1) := by
    rw [WideCtx.new, hs]
  rw [hn]
  have h1 : ∀ fuel k, wideCtxWhile N fuel body (k + 1)
      (⟨true, ⟨[v], [], [], .mk none []⟩, some c, [], 0⟩ : WideCtx V C I) w1 =
      match body [] [v] c w1 with
      | (false, _, w) => some (.broke w)
      | (true, c, w) => wideCtxWhile N fuel body k ⟨false, ⟨[v], [], [], .mk none []⟩, some c, [], 0⟩ w := by
    intro fuel k
    rw [wideCtxWhile, wideCtxAdvance]
    exact wideCtx_found (as := []) rfl rfl
  constructor
  · rintro ⟨fuel, _ | k, h⟩
    · simp [wideCtxWhile] at h
    · rw [h1] at h
      rcases hb : body [] [v] c w1 with ⟨_ | _, c1, w2⟩
      · simp only [hb, Option.some.injEq] at h
        subst h
        exact .halt hs hb
      · simp only [hb] at h
        cases k with
        | zero => simp [wideCtxWhile] at h
        | succ k =>
          rw [wideCtx_again (as := []) (v := v) rfl] at h
          exact .node hs hb rfl
            (visit_of_runWideCtx (wideCtx_sound fuel k _ _ rfl _ _ _ _ _ (wideCtxInv_root v _) h) _ _ rfl)
  · intro h
    cases h with
    | halt h2 h3 =>
      obtain ⟨rfl, rfl, rfl⟩ : v = _ ∧ c = _ ∧ w1 = _ := by simpa [hs] using h2
      exact ⟨0, 1, by rw [h1, h3]⟩
    | node h2 h3 h4 h5 =>
      obtain ⟨rfl, rfl, rfl⟩ : v = _ ∧ c = _ ∧ w1 = _ := by simpa [hs] using h2
      obtain ⟨f, k, hk⟩ := wideCtx_complete (runWideCtx_of_visit h5) _ _ _ (wideCtxInv_root v _)
      refine ⟨f, k + 2, ?_⟩
      rw [h1, h3]
      simp only
      rw [wideCtx_again (as := []) (v := v) rfl, h4]
      exact hk

/-! ## A case -/

/-- The slice is noted; at node 1 node 5 is given a child; the loop stops at node 9. -/
def wideAncBody : Body Table (List Nat) := fun as w =>
  (as.getLast? != some 9, ⟨if as.getLast? = some 1 then w.rows.set 5 [9, 7] else w.rows, as.foldl (10 * · + ·) 1 :: w.log⟩)

/-- It notes path and ancestors; at node 1 it takes the first child away and gives node 5 children; it stops at node 9. -/
def wideBody : WideBody Table Nat (List Nat) := fun p as c w =>
  (as.getLast? != some 9, if as.getLast? = some 1 then c.tail else c,
    ⟨if as.getLast? = some 1 then w.rows.set 5 [9, 7] else w.rows, (p ++ as).foldl (10 * · + ·) 1000 :: w.log⟩)

/-- Below the root 3 are node 1, with the children 4 and 5, and node 2, with the child 6.  Nodes are asked (100 and up), iterators too
(200 and up); after a 1 come the ancestors.  Node 5 is asked after node 1 was shown, so it has the children given to it there. -/
example : wideAncWhile Nat wideAncBody 12 (WideAnc.new 3 (⟨[[], [4, 5], [6], [1, 2], [], [], []], []⟩ : Table)).1
      (WideAnc.new 3 (⟨[[], [4, 5], [6], [1, 2], [], [], []], []⟩ : Table)).2 =
    some (.broke ⟨[[], [4, 5], [6], [1, 2], [], [9, 7], []], [103, 13, 203, 101, 131, 203, 102, 132, 203, 201, 104, 1314, 201,
      105, 1315, 201, 202, 106, 1326, 202, 204, 205, 109, 13159].reverse⟩) := by decide +kernel

/-- With empty slots (0) and the first child of node 1 taken away by the body: after a 1000 come the path and the ancestors; node 5,
behind an empty slot of what is left, has the index 1, and its own children, made an iterator (300) after the body, were given to
it at node 1. -/
example : wideCtxWhile Nat 9 wideBody 12 (WideCtx.new 3 (⟨[[], [4, 0, 5], [6], [1, 0, 2], [], [], []], []⟩ : Table)).1
      (WideCtx.new 3 (⟨[[], [4, 0, 5], [6], [1, 0, 2], [], [], []], []⟩ : Table)).2 =
    some (.broke ⟨[[], [4, 0, 5], [6], [1, 0, 2], [], [9, 7], []], [103, 10003, 300, 101, 1000031, 300, 102, 1000232, 300, 105,
      100001315, 300, 106, 100020326, 300, 109, 10000103159].reverse⟩) := by decide +kernel

end TreeIter
