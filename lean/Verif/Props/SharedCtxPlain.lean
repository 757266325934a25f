import Verif.Lemmas.SharedCtxPlain
import Verif.Props.SharedCtx
import Verif.Props.DepthFirst

/-!
# C81: preorder contexts on nodes that share no state
-/

universe u v w x

namespace TreeIter

open Shared

variable {W : Type x} {N : Type u} {V : Type v}

section General
variable [TreeNode N V]
attribute [local instance] plainCtx

/-- C81, preorder with context, nodes that share no state, a body that only looks: loop and visitor go through the contexts of C10,
without a panic. -/
theorem C81_plain_preorder_context (body : Body W (Ctx V (List N))) (n : N) (ha : ArityOk n) (w : W) (r : Ending W) :
    ((∃ fuel k, ctxWhile fuel (lookBody body) k (PreCtx.new n) w = some r) ↔
        r = endingOf (forList body ((unfold n).located.preorder.map Pos.ctx) w)) ∧
      (VisitTreeCtx (lookBody body) n w r ↔ r = endingOf (forList body ((unfold n).located.preorder.map Pos.ctx) w)) := by
  obtain ⟨s, h1, h2⟩ := C10_preorder_context n ha
  obtain rfl : Preorder.CtxState.new n [] = s := Except.ok.inj h1
  have key := ctxWhile_plain (W := W) (N := N) encCtx Preorder.ctxAdvance Preorder.ctxGet (fun t => rfl) preCtxAdvance_plain
    (fun t t' h => ctxAdvance_some h) body _ _ w h2 r
  exact ⟨key, (C81_preorder_context _ (fun _ _ _ _ => rfl) n w r).symm.trans key⟩

end General

section Binary
variable [BinNode N V]
attribute [local instance] plainCtx2

/-- C81, preorder with context, binary nodes that share no state: as above, with the contexts of C11. -/
theorem C81_plain_preorder_context_binary (body : Body W (Ctx V (Option N × Option N))) (n : N) (w : W) (r : Ending W) :
    ((∃ fuel k, ctxWhile fuel (lookBody body) k (PreCtx.new n) w = some r) ↔
        r = endingOf (forList body ((unfold2 n).located.toTree.preorder.map Pos.ctx2) w)) ∧
      (VisitTreeCtx (lookBody body) n w r ↔
        r = endingOf (forList body ((unfold2 n).located.toTree.preorder.map Pos.ctx2) w)) := by
  obtain ⟨s, h1, h2⟩ := C11_preorder_context_binary n
  obtain rfl : Preorder.BinCtxState.new n [] = s := Except.ok.inj h1
  have key := ctxWhile_plain (W := W) (N := N) encCtx2 Preorder.binCtxAdvance Preorder.binCtxGet (fun t => rfl)
    preCtxAdvance_plain2 (fun t t' h => binCtxAdvance_some h) body _ _ w h2 r
  exact ⟨key, (C81_preorder_context _ (fun _ _ _ _ => rfl) n w r).symm.trans key⟩

end Binary

/-- A body that notes paths and ancestors and stops at node 4. -/
def notePath {C : Type u} : Body (List (List Nat × List Nat)) (Ctx Nat C) := fun c w =>
  (c.ancestors.getLast? != some 4, (c.path, c.ancestors) :: w)

/-- What the body has noted, latest first, when it stops; the tree meets the bound on the number of children. -/
example : ArityOk sampleTree ∧ forList notePath ((unfold sampleTree).located.preorder.map Pos.ctx) [] =
      (false, [([0, 1], [0, 1, 4]), ([0, 0], [0, 1, 3]), ([0], [0, 1]), ([], [0])]) ∧
    forList notePath ((unfold2 sampleBin).located.toTree.preorder.map Pos.ctx2) [] =
      (false, [([1, 0], [0, 2, 4]), ([1], [0, 2]), ([0, 1], [0, 1, 3]), ([0], [0, 1]), ([], [0])]) := by
  exact ⟨sampleTree_arity, by decide +kernel, by decide +kernel⟩

end TreeIter
