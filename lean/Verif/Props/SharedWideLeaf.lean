import Verif.Lemmas.SharedWideLeaf
import Verif.Props.SharedWide

/-!
# C81: breadth-first leaves with ancestors
-/

universe u v w x

namespace TreeIter

open Shared

variable {W : Type x} {N : Type u} {V : Type v} {I : Type w}

/-- C81, `bfs().attach_ancestors().leaves()`: a loop over the slices ends as the visitor does that goes level by level, asks each
node it meets at once for its first child, and calls the body if there is none; the iterator of a root that gave no child is asked
once more after the body.  Neither panics. -/
theorem C81_bfs_leaves_ancestors [SharedNode W N V I] (body : Body W (List V)) (n : N) (w : W) (r : Ending W) :
    (∃ fuel k, wlAncWhile fuel body k ((WideAnc.new n w).1.leaves : WlAnc N V I) (WideAnc.new (I := I) n w).2 = some r) ↔
      VisitWideLeavesAnc body n w r := by
  rcases hs : splitW (I := I) n w with ⟨v, i, w1⟩
  have hn : WideAnc.new n w = (⟨true, ⟨[v], [], .mk none []⟩, [i]⟩, w1) := by rw [WideAnc.new, hs]
  rw [hn]
  have h0 : ∀ f, wlAncLoop (N := N) (f + 1) true [⟨none, i⟩] (⟨[v], [], .mk none []⟩ : Bfs.CacheState V) w1 =
      match pollW (N := N) i w1 with
      | (some _, _, _) => wlAncLoop (f + 1) false [⟨none, i⟩] ⟨[v], [], .mk none []⟩ w1
      | (none, i, w) => some (.ok (⟨false, ⟨[v], [], .mk none []⟩, [⟨none, i⟩]⟩, w)) := by
    intro f
    rcases hp : pollW (N := N) i w1 with ⟨_ | c, i', w2⟩
    · simp [wlAncLoop, Bfs.settle, Peeked.next, hp]
    · simp [wlAncLoop, Bfs.settle, Peeked.next, hp]
  rcases hp : pollW (N := N) i w1 with ⟨_ | c, i', w2⟩
  · simp only [hp] at h0
    have h1 : ∀ f k, wlAncWhile (N := N) (f + 1) body (k + 1) ⟨true, ⟨[v], [], .mk none []⟩, [⟨none, i⟩]⟩ w1 =
        match body [v] w2 with
        | (false, w) => some (.broke w)
        | (true, w) => wlAncWhile (N := N) (f + 1) body k ⟨false, ⟨[v], [], .mk none []⟩, [⟨none, i'⟩]⟩ w := by
      intro f k
      rw [wlAncWhile]
      simp only [h0]
      exact wlAnc_found (as := []) rfl
    constructor
    · rintro ⟨_ | fuel, _ | k, h⟩
      · simp [wlAncWhile] at h
      · simp [wlAncWhile, wlAncLoop, wlAncConclude] at h
      · simp [wlAncWhile] at h
      · have h : wlAncWhile (N := N) (fuel + 1) body (k + 1) ⟨true, ⟨[v], [], .mk none []⟩, [⟨none, i⟩]⟩ w1 = some r := h
        rw [h1] at h
        rcases hb : body [v] w2 with ⟨_ | _, w3⟩
        · simp only [hb, Option.some.injEq] at h
          subst h
          exact .stop hs hp hb
        · simp only [hb] at h
          exact .leaf hs hp hb
            (visit_of_runWl (wlAnc_frames_all body _ k _ _ _ _ _ (wlInv_root v i') h) _ _ rfl)
    · intro h
      cases h with
      | inner h2 h3 _ =>
        rw [hs] at h2
        cases h2
        rw [hp] at h3
        cases h3
      | stop h2 h3 h4 =>
        rw [hs] at h2
        cases h2
        rw [hp] at h3
        cases h3
        refine ⟨1, 1, ?_⟩
        show wlAncWhile (N := N) 1 body 1 ⟨true, ⟨[v], [], .mk none []⟩, [⟨none, i⟩]⟩ w1 = _
        rw [h1, h4]
      | leaf h2 h3 h4 h5 =>
        rw [hs] at h2
        cases h2
        rw [hp] at h3
        cases h3
        obtain ⟨f, k, hk⟩ := wlAnc_loop (runWl_of_visit h5) _ _ (wlInv_root v i')
        refine ⟨f + 1, k + 2, ?_⟩
        show wlAncWhile (N := N) (f + 1) body (k + 2) ⟨true, ⟨[v], [], .mk none []⟩, [⟨none, i⟩]⟩ w1 = _
        rw [h1, h4]
        simp only [wlAncWhile]
        exact wlAncConclude_mono (wlAncWhile_mono f k) (wlAncLoop_mono f _ _ _ _) hk
  · simp only [hp] at h0
    constructor
    · rintro ⟨_ | fuel, _ | k, h⟩
      · simp [wlAncWhile] at h
      · simp [wlAncWhile, wlAncLoop, wlAncConclude] at h
      · simp [wlAncWhile] at h
      · have h : wlAncConclude (wlAncWhile (N := N) (fuel + 1) body k) body
            (wlAncLoop (fuel + 1) true [⟨none, i⟩] ⟨[v], [], .mk none []⟩ w1) = some r := h
        rw [h0] at h
        have hr := wlAnc_frames body _ k (wlAnc_frames_all body _ k) _ _ _ _ _ _ (wlInv_root v i) h
        exact .inner hs hp (visit_of_runWl ((runWl_known hp).1 hr) _ _ rfl)
    · intro h
      cases h with
      | inner h2 h3 h4 =>
        rw [hs] at h2
        cases h2
        rw [hp] at h3
        cases h3
        obtain ⟨f, k, hk⟩ := wlAnc_loop ((runWl_known hp).2 (runWl_of_visit h4)) _ _ (wlInv_root v i)
        refine ⟨f + 1, k + 1, ?_⟩
        show wlAncConclude (wlAncWhile (N := N) (f + 1) body k) body
            (wlAncLoop (f + 1) true [⟨none, i⟩] ⟨[v], [], .mk none []⟩ w1) = some r
        rw [h0]
        exact wlAncConclude_mono (wlAncWhile_mono f k) (wlAncLoop_mono f _ _ _ _) hk
      | stop h2 h3 _ =>
        rw [hs] at h2
        cases h2
        rw [hp] at h3
        cases h3
      | leaf h2 h3 _ _ =>
        rw [hs] at h2
        cases h2
        rw [hp] at h3
        cases h3

/-- It notes the ancestors; at node 2 it gives node 5 children, at node 3 node 3; it stops at node 9. -/
def wideLeafBody : Body Table (List Nat) := fun as w =>
  (as.getLast? != some 9, ⟨if as.getLast? = some 2 then w.rows.set 5 [9, 7] else if as = [3] then w.rows.set 3 [7, 8] else w.rows,
    as.foldl (10 * · + ·) 1 :: w.log⟩)

/-- Below the root 3 are node 1, with the children 4 and 5, and the leaf 2, at which node 5 is given children before it is asked. -/
example : wlAncWhile (N := Nat) 20 wideLeafBody 12 (WideAnc.new 3 (⟨[[], [4, 5], [], [1, 2], [], [], []], []⟩ : Table)).1.leaves
      (WideAnc.new 3 (⟨[[], [4, 5], [], [1, 2], [], [], []], []⟩ : Table)).2 =
    some (.broke ⟨[[], [4, 5], [], [1, 2], [], [9, 7], []], [103, 203, 101, 201, 203, 102, 202, 132, 203, 104, 204, 1314, 201, 105,
      205, 201, 109, 209, 13159].reverse⟩) := by decide +kernel

/-- A root without children is shown, and then its iterator is asked again: children that the body gave it meanwhile are met, the
first one left out as the iterator is past it. -/
example : wlAncWhile (N := Nat) 20 wideLeafBody 12 (WideAnc.new 3 (⟨[[], [], [], []], []⟩ : Table)).1.leaves
      (WideAnc.new 3 (⟨[[], [], [], []], []⟩ : Table)).2 =
    some (.ended ⟨[[], [], [], [7, 8]], [103, 203, 13, 203, 108, 208, 138, 203].reverse⟩) := by decide +kernel

end TreeIter
