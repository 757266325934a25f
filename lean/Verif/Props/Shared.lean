import Verif.Lemmas.SharedMore
import Verif.Props.Samples
import Verif.Model.Postorder

/-!
# C81: a `for` loop does what a recursive visitor does, whatever state the nodes and the body share
-/

universe u v w x

namespace TreeIter

open Shared

variable {W : Type x} {N : Type u} {V : Type v} {I : Type w}

/-- C81, preorder: a `for` loop over the traversal ends, with or without a `break`, exactly when the recursive visitor does
that calls the body before it goes to the children, and both leave the same world behind. -/
theorem C81_preorder [SharedNode W N V I] (body : Body W V) (n : N) (w : W) (b : Bool) (w' : W) :
    (∃ k, forLoop preNext body k (Pre.new (I := I) n) w = some (b, w')) ↔
      Visit (.before fun v _ => body v) (.node [] n) w b w' := by
  rcases hs : splitW (I := I) n w with ⟨v, i, w1⟩
  have hn : preNext (Pre.new (I := I) n) w = some (some v, ⟨none, [i]⟩, w1) := by
    simp only [preNext, Pre.new, hs]
  constructor
  · rintro ⟨_ | k, h⟩
    · simp [forLoop] at h
    · rw [forLoop, hn, conclude] at h
      rcases hb : body v w1 with ⟨_ | _, w2⟩
      · simp only [hb, Option.some.injEq, Prod.mk.injEq] at h
        obtain ⟨rfl, rfl⟩ := h
        exact .halt hs hb
      · simp only [hb] at h
        exact .node hs hb (visit_root_iff.2 (pre_frames body k [⟨v, false, i⟩] w2 b w' h))
  · intro h
    cases h with
    | halt h1 h2 =>
      rw [hs] at h1
      cases h1
      have h2 : body _ _ = _ := h2
      exact ⟨1, by rw [forLoop, hn, conclude, h2]⟩
    | node h1 h2 h3 =>
      rw [hs] at h1
      cases h1
      have h2 : body _ _ = _ := h2
      obtain ⟨k, hk⟩ := pre_loop (visit_root_iff.1 h3)
      exact ⟨k + 2, by rw [forLoop, hn, conclude, h2]; exact hk⟩

/-- C81, preorder with ancestors: the body is given the values from the root to the node. -/
theorem C81_preorder_ancestors [SharedNode W N V I] (body : Body W (List V)) (n : N) (w : W) (b : Bool) (w' : W) :
    (∃ k, forLoop preAncNext body k (PreAnc.new (I := I) n) w = some (b, w')) ↔
      Visit (.before fun v as => body (v :: as).reverse) (.node [] n) w b w' := by
  rcases hs : splitW (I := I) n w with ⟨v, i, w1⟩
  have hn : preAncNext (PreAnc.new (I := I) n) w = some (some [v], ⟨none, [i], [v]⟩, w1) := by
    simp [preAncNext, preAncAdvance, PreAnc.new, hs]
  constructor
  · rintro ⟨_ | k, h⟩
    · simp [forLoop] at h
    · rw [forLoop, hn, conclude] at h
      rcases hb : body [v] w1 with ⟨_ | _, w2⟩
      · simp only [hb, Option.some.injEq, Prod.mk.injEq] at h
        obtain ⟨rfl, rfl⟩ := h
        exact .halt hs hb
      · simp only [hb] at h
        exact .node hs hb (visit_root_iff.2 (preAnc_frames body k [⟨v, false, i⟩] w2 b w' h))
  · intro h
    cases h with
    | halt h1 h2 =>
      rw [hs] at h1
      cases h1
      have h2 : body [_] _ = _ := h2
      exact ⟨1, by rw [forLoop, hn, conclude, h2]⟩
    | node h1 h2 h3 =>
      rw [hs] at h1
      cases h1
      have h2 : body [_] _ = _ := h2
      obtain ⟨k, hk⟩ := preAnc_loop (visit_root_iff.1 h3)
      exact ⟨k + 2, by rw [forLoop, hn, conclude, h2]; exact hk⟩

/-- C81, postorder: the body comes after the children. -/
theorem C81_postorder [SharedNode W N V I] (body : Body W V) (n : N) (w : W) (b : Bool) (w' : W) :
    (∃ fuel k, forLoop (postNext fuel) body k (Post.new (I := I) n) w = some (b, w')) ↔
      Visit (.after fun v _ => body v) (.node [] n) w b w' := by
  rcases hs : splitW (I := I) n w with ⟨v, i, w1⟩
  have hn : ∀ fuel, postNext fuel (Post.new (I := I) n) w = postLoop fuel [i] [v] w1 := fun fuel => by
    simp only [postNext, Post.new, hs]
  constructor
  · rintro ⟨fuel, _ | k, h⟩
    · simp [forLoop] at h
    · rw [forLoop, hn] at h
      exact .node hs rfl (visit_root_iff.2 (post_frames body fuel k fuel [⟨v, false, i⟩] w1 b w' h))
  · intro h
    cases h with
    | halt _ h2 => cases h2
    | node h1 h2 h3 =>
      rw [hs] at h1
      cases h1
      cases h2
      obtain ⟨fuel, k, hk⟩ := post_loop (visit_root_iff.1 h3)
      exact ⟨fuel, k + 1, by rw [forLoop] at hk ⊢; rw [hn]; exact hk⟩

/-- C81, postorder with ancestors. -/
theorem C81_postorder_ancestors [SharedNode W N V I] (body : Body W (List V)) (n : N) (w : W) (b : Bool) (w' : W) :
    (∃ fuel k, forLoop (postAncNext fuel) body k (Post.new (I := I) n) w = some (b, w')) ↔
      Visit (.after fun v as => body (v :: as).reverse) (.node [] n) w b w' := by
  rcases hs : splitW (I := I) n w with ⟨v, i, w1⟩
  have hn : ∀ fuel, postAncNext fuel (Post.new (I := I) n) w = postAncShow (postAncLoop fuel [i] [v] w1) := fun fuel => by
    rw [postAncNext_eq]
    simp only [postAncAdvance, Post.new, hs]
  constructor
  · rintro ⟨fuel, _ | k, h⟩
    · simp [forLoop] at h
    · rw [forLoop, hn] at h
      exact .node hs rfl (visit_root_iff.2 (postAnc_frames body fuel k fuel [⟨v, false, i⟩] w1 b w' h))
  · intro h
    cases h with
    | halt _ h2 => cases h2
    | node h1 h2 h3 =>
      rw [hs] at h1
      cases h1
      cases h2
      obtain ⟨fuel, k, hk⟩ := postAnc_loop (visit_root_iff.1 h3)
      exact ⟨fuel, k + 1, by rw [forLoop, hn]; exact hk⟩

/-- C81, depth-first leaves: the body is called for the nodes whose iterator gave no child. -/
theorem C81_leaves [SharedNode W N V I] (body : Body W V) (n : N) (w : W) (b : Bool) (w' : W) :
    (∃ fuel k, forLoop (leavesNext fuel) body k (Pre.new (I := I) n).leaves w = some (b, w')) ↔
      Visit (.childless fun v _ => body v) (.node [] n) w b w' := by
  rcases hs : splitW (I := I) n w with ⟨v, i, w1⟩
  have hn : ∀ fuel, leavesNext fuel (Pre.new (I := I) n).leaves w = leavesLoop fuel [] [i] [v] true w1 := fun fuel => by
    simp only [leavesNext, Pre.leaves, Pre.new, hs]
  have hf : Fine true [(⟨v, false, i⟩ : Frame V I)] := ⟨rfl, fun _ h => by cases h⟩
  constructor
  · rintro ⟨fuel, _ | k, h⟩
    · simp [forLoop] at h
    · rw [forLoop, hn] at h
      exact .node hs rfl (visit_root_iff.2
        (leaves_frames body fuel k (leaves_frames_all body fuel k) fuel [⟨v, false, i⟩] true w1 b w' hf h))
  · intro h
    cases h with
    | halt _ h2 => cases h2
    | node h1 h2 h3 =>
      rw [hs] at h1
      cases h1
      cases h2
      obtain ⟨fuel, k, hk⟩ := leaves_loop (visit_root_iff.1 h3) true hf
      exact ⟨fuel, k + 1, by rw [forLoop, hn]; exact hk⟩

/-- C81, in order. -/
theorem C81_inorder [SharedBin W N V] (body : Body W V) (n : N) (w : W) (b : Bool) (w' : W) :
    (∃ fuel k, forLoop (inNext fuel) body k (Inorder.new n) w = some (b, w')) ↔ VisitIn body (some n) w b w' := by
  rw [visitIn_iff]
  constructor
  · rintro ⟨fuel, k, h⟩
    exact in_frames_all body fuel k false (some n) [] w b w' h
  · intro h
    obtain ⟨fuel, k, hk⟩ := in_loop h
    refine ⟨fuel + 1, k + 1, ?_⟩
    have := inNext_cases (fuel + 1) (some n) ([] : List (V × Option N)) false w
    rw [forLoop]
    change conclude _ _ (inNext _ ⟨[some n], [], false⟩ w) = _
    rw [List.map_nil, List.map_nil, if_neg (by simp)] at this
    rw [this]
    exact hk

/-- C81, breadth first: the same as going through the tree level by level. -/
theorem C81_bfs [SharedNode W N V I] (body : Body W V) (n : N) (w : W) (b : Bool) (w' : W) :
    (∃ k, forLoop bfsNext body k (Wide.new (I := I) n) w = some (b, w')) ↔ VisitWide body n w b w' := by
  rcases hs : splitW (I := I) n w with ⟨v, i, w1⟩
  have hn : bfsNext (Wide.new (I := I) n) w = some (some v, ⟨none, [i]⟩, w1) := by
    simp only [bfsNext, Wide.new, hs, List.nil_append]
  constructor
  · rintro ⟨_ | k, h⟩
    · simp [forLoop] at h
    · rw [forLoop, hn, conclude] at h
      rcases hb : body v w1 with ⟨_ | _, w2⟩
      · simp only [hb, Option.some.injEq, Prod.mk.injEq] at h
        obtain ⟨rfl, rfl⟩ := h
        exact .halt hs hb
      · simp only [hb] at h
        exact .node hs hb (bfs_frames_all body k [i] [] w2 b w' h)
  · intro h
    cases h with
    | halt h1 h2 =>
      rw [hs] at h1
      cases h1
      exact ⟨1, by rw [forLoop, hn, conclude, h2]⟩
    | node h1 h2 h3 =>
      rw [hs] at h1
      cases h1
      obtain ⟨k, hk⟩ := bfs_loop h3
      exact ⟨k + 2, by rw [forLoop, hn, conclude, h2]; exact hk⟩

/-! ## A case: nodes in a shared table to which the body adds -/

/-- A graph held in a shared table: the children of node `n` are the numbers in row `n`; a child iterator is the row and how
far it has come, and looks into the table at each call. -/
structure Table where
  rows : List (List Nat)
  /-- calls of the nodes' code and of the body, latest first -/
  log : List Nat
  deriving DecidableEq

instance : SharedNode Table Nat Nat (Nat × Nat) where
  splitW n w := (n, (n, 0), { w with log := (100 + n) :: w.log })
  pollW i w := (((w.rows[i.1]?).getD [])[i.2]?, (i.1, i.2 + 1), { w with log := (200 + i.1) :: w.log })

instance : SharedBin Table Nat Nat where
  split2W n w :=
    (n, ((w.rows[n]?).getD [])[0]?, ((w.rows[n]?).getD [])[1]?, { w with log := (100 + n) :: w.log })

/-- At node 1 the body gives node 2 a child; it stops at node 9. -/
def addBody : Body Table Nat := fun v w =>
  (v != 9, ⟨if v = 1 then w.rows.set 2 [5] else w.rows, v :: w.log⟩)

def table : Table := ⟨[[1, 2], [3], []], []⟩

/-- Preorder comes to node 1 before it asks node 2, and so meets the new child 5; postorder does too; the leaves do not, as the
body is never called for node 1. -/
example : ((forLoop preNext addBody 9 (Pre.new 0) table).map fun r => (r.1, r.2.log.reverse.filter (· < 100))) =
      some (true, [0, 1, 3, 2, 5]) ∧
    ((forLoop (postNext 9) addBody 9 (Post.new 0) table).map fun r => (r.1, r.2.log.reverse.filter (· < 100))) =
      some (true, [3, 1, 5, 2, 0]) ∧
    ((forLoop (leavesNext 9) addBody 9 (Pre.new 0).leaves table).map fun r => (r.1, r.2.log.reverse.filter (· < 100))) =
      some (true, [3, 2]) ∧
    ((forLoop (inNext 9) addBody 9 (Inorder.new 0) table).map fun r => (r.1, r.2.log.reverse.filter (· < 100))) =
      some (true, [3, 1, 0, 5, 2]) ∧
    ((forLoop bfsNext addBody 9 (Wide.new 0) table).map fun r => (r.1, r.2.log.reverse.filter (· < 100))) =
      some (true, [0, 1, 2, 3, 5]) := by decide +kernel

/-- Nodes whose children have no end: node `n` has the child `n + 1`; the body stops at 9. -/
example : ((forLoop preNext addBody 20 (Pre.new 0) ⟨(List.range 20).map fun n => [n + 1], []⟩).map fun r => r.1) = some false ∧
    (forLoop preNext addBody 5 (Pre.new 0) ⟨(List.range 20).map fun n => [n + 1], []⟩).isNone := by decide +kernel

end TreeIter
