import Verif.Lemmas.SharedIn
import Verif.Props.SharedPost

/-!
# C81: in-order contexts and ancestors
-/

universe u v w x y

namespace TreeIter

open Shared

variable {W : Type x} {N : Type u} {V : Type v}

/-- C81, in order with context, owned and borrowed: a loop whose body is given each context mutably, and may write to the
ancestors (a slice, so their number stays), ends as the recursive visitor does that asks a node for both children, visits the left
one, calls the body, visits the right one, and holds the ancestors in a variable.  With `keep` (borrowed and mutably borrowed) the
body is shown the two children of the node, without it (owned) none.  Neither panics. -/
theorem C81_inorder_context [SharedBin W N V] (keep : Bool) (body : PostBody W V (Option N × Option N))
    (hlen : ∀ p as c w, (body p as c w).2.1.length = as.length) (n : N) (w : W) (r : Ending W) :
    (∃ fuel k, inWhile keep fuel body k (InCtx.new n) w = some r) ↔ VisitTreeIn keep body n w r := by
  rw [visitTreeIn_iff]
  constructor
  · rintro ⟨fuel, _ | k, h⟩
    · simp [inWhile] at h
    · rw [inWhile, inAdvance_new] at h
      exact inC_frames_all hlen fuel k fuel (some n) [] [] none w r rfl h
  · intro h
    obtain ⟨fuel, k, hk⟩ := inC_loop hlen h rfl none
    exact ⟨fuel, k + 1, by rw [inWhile, inAdvance_new]; exact hk⟩

/-- C81, in order with ancestors: likewise, and the body is given the slice only. -/
theorem C81_inorder_ancestors [SharedBin W N V] (body : SliceBody W V)
    (hlen : ∀ as w, (body as w).2.1.length = as.length) (n : N) (w : W) (r : Ending W) :
    (∃ fuel k, inAncWhile fuel body k (Inorder.AncState.new n) w = some r) ↔ VisitTreeIn false (sliceOnly body) n w r := by
  rw [← C81_inorder_context false (sliceOnly body) fun _ as _ w => hlen as w]
  refine exists_congr fun fuel => exists_congr fun k => ?_
  rw [inAncWhile_same k (Inorder.AncState.new n) [] w]
  rfl

/-! ## A case -/

/-- It notes path, ancestors and the children it is shown (7 for none shown); at node 4 it gives node 2 a left child and writes 8
over the root; it stops at node 9. -/
def inBody : PostBody Table Nat (Option Nat × Option Nat) := fun p as c w =>
  (as.getLast? != some 9, if as.getLast? = some 4 then 8 :: as.tail else as, none,
    ⟨if as.getLast? = some 4 then w.rows.set 2 [9] else w.rows,
      ((match c with
        | none => [7]
        | some (l, r) => [l.getD 0, r.getD 0]) ++ p ++ as).foldl (10 * · + ·) 1 :: w.log⟩)

theorem inBody_length : ∀ p as c w, (inBody p as c w).2.1.length = as.length := by
  intro p as c w
  cases as with
  | nil => rfl
  | cons a as => simp only [inBody]; split <;> rfl

/-- The slice is noted; at node 4 the body writes 8 over the root. -/
def sliceBody : SliceBody Table Nat := fun as w =>
  (as.getLast? != some 9, if as.getLast? = some 4 then 8 :: as.tail else as,
    ⟨if as.getLast? = some 4 then w.rows.set 2 [9] else w.rows, as.foldl (10 * · + ·) 1 :: w.log⟩)

theorem sliceBody_length : ∀ as w, (sliceBody as w).2.1.length = as.length := by
  intro as w
  cases as with
  | nil => rfl
  | cons a as => simp only [sliceBody]; split <;> rfl

/-- Below the root 3 are node 1, with the children 4 and 5, and node 2.  After a 1 come the children (0 for none), the path and the
ancestors: the root reads 8 from node 4 on, and node 2 has the child that it was given at node 4. -/
example : inWhile true 9 inBody 9 (InCtx.new 3) ⟨[[], [4, 5], [], [1, 2]], []⟩ = some (.broke ⟨[[], [4, 5], [9], [1, 2]],
    [103, 101, 104, 10000314, 145081, 105, 10001815, 1128, 102, 109, 10010829].reverse⟩) := by decide +kernel

example : inWhile false 9 inBody 9 (InCtx.new 3) ⟨[[], [4, 5], [], [1, 2]], []⟩ = some (.broke ⟨[[], [4, 5], [9], [1, 2]],
    [103, 101, 104, 1700314, 17081, 105, 1701815, 178, 102, 109, 1710829].reverse⟩) := by decide +kernel

example : inAncWhile 9 sliceBody 9 (Inorder.AncState.new 3) ⟨[[], [4, 5], [], [1, 2]], []⟩ =
    some (.broke ⟨[[], [4, 5], [9], [1, 2]], [103, 101, 104, 1314, 181, 105, 1815, 18, 102, 109, 1829].reverse⟩) := by
  decide +kernel

end TreeIter
