import Verif.Lemmas.SharedLeaf
import Verif.Props.SharedPlain

/-!
# C81: depth-first leaves with ancestors
-/

universe u v w x

namespace TreeIter

open Shared

variable {W : Type x} {N : Type u} {V : Type v} {I : Type w}

/-- C81, `attach_ancestors().leaves()` of depth-first traversals: the body is called, with the values from the root to the node, for
the nodes whose iterator gave no child. -/
theorem C81_leaves_ancestors [SharedNode W N V I] (body : Body W (List V)) (n : N) (w : W) (b : Bool) (w' : W) :
    (∃ fuel k, forLoop (lfAncNext fuel) body k (PreAnc.new (I := I) n).leaves w = some (b, w')) ↔
      Visit (.childless fun v as => body (v :: as).reverse) (.node [] n) w b w' := by
  rcases hs : splitW (I := I) n w with ⟨v, i, w1⟩
  have hn : ∀ fuel, lfAncNext fuel (PreAnc.new (I := I) n).leaves w = lfShow (lfAncLoop fuel [] [i] [v] true w1) := fun fuel => by
    simp only [lfAncNext, lfAncAdvance, PreAnc.leaves, PreAnc.new, hs]
    cases lfAncLoop (N := N) fuel [] [i] [v] true w1 <;> rfl
  have hf : Fine true [(⟨v, false, i⟩ : Frame V I)] := ⟨rfl, fun _ h => by cases h⟩
  constructor
  · rintro ⟨fuel, _ | k, h⟩
    · simp [forLoop] at h
    · rw [forLoop, hn] at h
      exact .node hs rfl (visit_root_iff.2 (lfAnc_frames body fuel k (lfAnc_frames_all body fuel k) fuel [⟨v, false, i⟩] true
        w1 b w' hf (fun _ => by simp) h))
  · intro h
    cases h with
    | halt _ h2 => cases h2
    | node h1 h2 h3 =>
      rw [hs] at h1
      cases h1
      cases h2
      obtain ⟨fuel, k, hk⟩ := lfAnc_loop (visit_root_iff.1 h3) true hf (fun _ => by simp)
      exact ⟨fuel, k + 1, by rw [forLoop, hn]; exact hk⟩

/-! ## Nodes that share no state -/

section General
variable [TreeNode N V]
attribute [local instance] plainNode

/-- C81, depth-first leaves with ancestors, nodes that share no state. -/
theorem C81_plain_leaves_ancestors (body : Body W (List V)) (n : N) (w : W) (b : Bool) (w' : W) :
    ((∃ fuel k, forLoop (lfAncNext fuel) body k (PreAnc.new n).leaves w = some (b, w')) ↔
        forList body ((treeOf n).located.leaves.map Pos.ancestors) w = (b, w')) ∧
      (Visit (.childless fun v as => body (v :: as).reverse) (.node [] n) w b w' ↔
        forList body ((treeOf n).located.leaves.map Pos.ancestors) w = (b, w')) := by
  obtain ⟨s, h1, h2⟩ := C20_preorder_leaves_ancestors n
  cases h1
  have key : (∃ fuel k, forLoop (lfAncNext fuel) body k (PreAnc.new n).leaves w = some (b, w')) ↔
      forList body ((treeOf n).located.leaves.map Pos.ancestors) w = (b, w') :=
    forLoop_plain_iff (fun (t : Leaves.AncState N V) s => s = ⟨t.root, t.items, t.old, t.new⟩)
      (fun _ _ _ _ h => lfAncNext_mono h)
      (fun t s w h => by
        obtain ⟨fuel, hf⟩ := lfAncNext_plain t w
        exact ⟨fuel, _, h ▸ hf, rfl⟩) body rfl h2
  exact ⟨key, (C81_leaves_ancestors body n w b w').symm.trans key⟩

end General

/-! ## A case -/

/-- The slice is noted; at leaf 4 node 2 is given children; the loop stops at node 9. -/
def leafBody : Body Table (List Nat) := fun as w =>
  (as.getLast? != some 9, ⟨if as.getLast? = some 4 then w.rows.set 2 [9, 7] else w.rows, as.foldl (10 * · + ·) 1 :: w.log⟩)

/-- Below the root 3 are node 1, with the children 4 and 5, and node 2, which is given children at leaf 4, before it is asked.  Nodes are
asked (100 and up), iterators too (200 and up); after a 1 come the ancestors. -/
example : forLoop (lfAncNext 20) leafBody 12 (PreAnc.new 3).leaves (⟨[[], [4, 5], [], [1, 2], [], [], [], []], []⟩ : Table) =
    some (false, ⟨[[], [4, 5], [9, 7], [1, 2], [], [], [], []], [103, 203, 101, 201, 104, 204, 1314, 201, 105, 205, 1315, 201, 203, 102,
      202, 109, 209, 1329].reverse⟩) := by decide +kernel

end TreeIter
