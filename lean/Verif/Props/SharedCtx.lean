import Verif.Lemmas.SharedCtx
import Verif.Props.SharedColl

/-!
# C81: preorder contexts
-/

universe u v w x y

namespace TreeIter

open Shared

variable {W : Type x} {N : Type u} {V : Type v} {C : Type y} {I : Type w}

/-- C81, preorder with context, general and binary nodes: a loop whose body is given each context mutably, and may write to the
ancestors (a slice, so their number stays) and to the children, ends as the recursive visitor does that holds the ancestors in a
variable and goes through the children that the body leaves behind.  Neither panics. -/
theorem C81_preorder_context [CtxNode W N V C I] (body : CtxBody W V C)
    (hlen : ∀ p as c w, (body p as c w).2.1.length = as.length) (n : N) (w : W) (r : Ending W) :
    (∃ fuel k, ctxWhile fuel body k (PreCtx.new (I := I) n) w = some r) ↔ VisitTreeCtx body n w r := by
  rw [visitTree_iff]
  constructor
  · rintro ⟨fuel, _ | k, h⟩
    · simp [ctxWhile] at h
    · rw [ctxWhile_new] at h
      exact (ctx_frames_all hlen fuel k).1 [] n [] w r h
  · rintro ⟨v, c, w1, h1, ⟨as1, c1, w2, h2, rfl⟩ | ⟨as1, c1, w2, j, w3, h2, h3, h4⟩⟩
    · have h2 : body [] (([v] : List V)).reverse c w1 = _ := h2
      refine ⟨0, 1, ?_⟩
      rw [ctxWhile_new]
      simp only [ctxThen, h1, List.reverse_nil, h2]
    · obtain ⟨fuel, k, hk⟩ := ctx_loop hlen h4
      refine ⟨fuel, k + 2, ?_⟩
      rw [ctxWhile_new]
      exact ctx_node hlen (fs := []) h1 h2 h3 hk

/-! ## A case -/

/-- The children of a node of the table are a list of slots, in which 0 is an empty one. -/
instance : CtxNode Table Nat Nat (List Nat) (List Nat) where
  splitC n w := (n, (w.rows[n]?).getD [], { w with log := (100 + n) :: w.log })
  intoC c w := (c, { w with log := 300 :: w.log })
  pollC i w := (i.head?.map fun m => if m = 0 then none else some m, i.tail, w)

/-- It notes path and ancestors; at node 1 it takes the first child away and gives node 2 a child, and writes 8 over the root;
it stops at node 9. -/
def ctxBody : CtxBody Table Nat (List Nat) := fun p as c w =>
  (as.getLast? != some 9, if as.getLast? = some 1 then 8 :: as.tail else as, if as.getLast? = some 1 then c.tail else c,
    ⟨if as.getLast? = some 1 then w.rows.set 2 [9, 7] else w.rows, (p ++ as).foldl (10 * · + ·) 1000 :: w.log⟩)

theorem ctxBody_length : ∀ p as c w, (ctxBody p as c w).2.1.length = as.length := by
  intro p as c w
  cases as with
  | nil => rfl
  | cons a as => simp only [ctxBody]; split <;> rfl

/-- Below the root 3 are node 1, an empty slot and node 2.  After a 1000 come the path and the ancestors: node 1 keeps the
children 4 and 5 of its three, the root reads 8 from then on, node 2 has the index 2 and the children given to it at node 1, and
the loop stops at the first of these.  Nodes are asked (100 and up) before the body, their children made an iterator (300)
after it. -/
example : ctxWhile 9 ctxBody 9 (PreCtx.new 3) ⟨[[], [6, 4, 5], [], [1, 0, 2]], []⟩ = some (.broke ⟨[[], [6, 4, 5], [9, 7], [1, 0, 2]],
    [103, 10003, 300, 101, 1000031, 300, 104, 100000814, 300, 105, 100001815, 300, 102, 1000282, 300, 109,
      100020829].reverse⟩) := by decide +kernel

end TreeIter
