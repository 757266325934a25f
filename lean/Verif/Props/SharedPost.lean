import Verif.Lemmas.SharedPost
import Verif.Props.SharedCtx

/-!
# C81: postorder contexts
-/

universe u v w x y

namespace TreeIter

open Shared

variable {W : Type x} {N : Type u} {V : Type v} {C : Type y} {I : Type w}

/-- C81, postorder with context, general and binary nodes, owned and borrowed: a loop whose body is given each context mutably, and
may write to the ancestors (a slice, so their number stays), ends as the recursive visitor does that calls the body after the
children and holds the ancestors in a variable.  With `keep` (borrowed and mutably borrowed) the body is shown the children of the
node as they came, without it (owned) none; what it leaves in their place changes nothing.  Neither panics. -/
theorem C81_postorder_context [CtxNode W N V C I] (keep : Bool) (body : PostBody W V C)
    (hlen : ∀ p as c w, (body p as c w).2.1.length = as.length) (n : N) (w : W) (r : Ending W) :
    (∃ fuel k, postWhile keep fuel body k (PostCtx.new (I := I) n) w = some r) ↔ VisitTreePost keep body n w r := by
  rw [visitTreePost_iff]
  rcases h1 : splitC (I := I) n w with ⟨v, c, w1⟩
  rcases h2 : intoC (N := N) c w1 with ⟨j, w2⟩
  constructor
  · rintro ⟨fuel, _ | k, h⟩
    · simp [postWhile] at h
    · rw [postWhile_new h1 h2] at h
      exact ⟨v, c, w1, j, w2, h1, h2, post_frames_all hlen fuel k fuel _ _ w2 r (by simp) (by simp) h⟩
  · rintro ⟨v', c', w1', j', w2', h1', h2', h3⟩
    rw [h1] at h1'
    obtain ⟨rfl, rfl, rfl⟩ := by simpa using h1'
    rw [h2] at h2'
    obtain ⟨rfl, rfl⟩ := by simpa using h2'
    obtain ⟨fuel, k, hk⟩ := post_ctx_loop hlen h3 (by simp) (by simp)
    exact ⟨fuel, k + 1, by rw [postWhile_new h1 h2]; exact hk⟩

/-! ## A case -/

/-- It notes path, ancestors and how many children it is shown; at node 4 it gives node 2 a child and writes 8 over the root; it
stops at the root. -/
def postBody : PostBody Table Nat (List Nat) := fun p as c w =>
  (as.length != 1, if as.getLast? = some 4 then 8 :: as.tail else as, none,
    ⟨if as.getLast? = some 4 then w.rows.set 2 [9] else w.rows,
      ((c.map List.length).getD 7 :: p ++ as).foldl (10 * · + ·) 1 :: w.log⟩)

theorem postBody_length : ∀ p as c w, (postBody p as c w).2.1.length = as.length := by
  intro p as c w
  cases as with
  | nil => rfl
  | cons a as => simp only [postBody]; split <;> rfl

/-- Below the root 3 are node 1, an empty slot and node 2.  After a 1 come the number of children (7 for none shown), the path and
the ancestors: the root reads 8 from node 4 on, and node 2, whose index is 2, has the child that it was given at node 4. -/
example : postWhile true 9 postBody 9 (PostCtx.new 3) ⟨[[], [4], [], [1, 0, 2]], []⟩ = some (.broke ⟨[[], [4], [9], [1, 0, 2]],
    [103, 300, 101, 300, 104, 300, 1000314, 11081, 102, 300, 109, 300, 1020829, 11282, 138].reverse⟩) := by decide +kernel

example : postWhile false 9 postBody 9 (PostCtx.new 3) ⟨[[], [4], [], [1, 0, 2]], []⟩ = some (.broke ⟨[[], [4], [9], [1, 0, 2]],
    [103, 300, 101, 300, 104, 300, 1700314, 17081, 102, 300, 109, 300, 1720829, 17282, 178].reverse⟩) := by decide +kernel

end TreeIter
