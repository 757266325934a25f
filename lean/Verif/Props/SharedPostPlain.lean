import Verif.Lemmas.SharedPostPlain
import Verif.Props.SharedPost
import Verif.Props.SharedCtxPlain

/-!
# C81: postorder contexts on nodes that share no state
-/

universe u v w x

namespace TreeIter

open Shared

variable {W : Type x} {N : Type u} {V : Type v}

section General
variable [TreeNode N V]
attribute [local instance] plainCtx

/-- C81, postorder with context, borrowed nodes that share no state, a body that only looks: loop and visitor go through the contexts
of C12, without a panic. -/
theorem C81_plain_postorder_context (body : Body W (Ctx V (List N))) (n : N) (ha : ArityOk n) (w : W) (r : Ending W) :
    ((∃ fuel k, postWhile true fuel (lookPost body) k (PostCtx.new n) w = some r) ↔
        r = endingOf (forList body ((unfold n).located.postorder.map Pos.ctx) w)) ∧
      (VisitTreePost true (lookPost body) n w r ↔ r = endingOf (forList body ((unfold n).located.postorder.map Pos.ctx) w)) := by
  obtain ⟨s, h1, h2⟩ := C12_postorder_context n ha
  obtain rfl : Postorder.CtxState.new n [] = s := Except.ok.inj h1
  have key := postWhile_plain (W := W) (N := N) encPost Postorder.ctxAdvance Postorder.ctxGet (fun t => rfl)
    postCtxAdvance_Post body _ _ w h2 r
  exact ⟨key, (C81_postorder_context true _ (fun _ _ _ _ => rfl) n w r).symm.trans key⟩

/-- C81, postorder with context, owned nodes that share no state: the contexts come without children. -/
theorem C81_plain_postorder_context_owned (body : Body W (Ctx V (List N))) (n : N) (ha : ArityOk n) (w : W) (r : Ending W) :
    ((∃ fuel k, postWhile false fuel (lookPost body) k (PostCtx.new n) w = some r) ↔
        r = endingOf (forList body ((unfold n).located.postorder.map fun p => p.ctx.noChildren) w)) ∧
      (VisitTreePost false (lookPost body) n w r ↔ r = endingOf (forList body ((unfold n).located.postorder.map fun p => p.ctx.noChildren) w)) := by
  obtain ⟨s, h1, h2⟩ := C12_postorder_context_owned n ha
  obtain rfl : Postorder.OwnCtxState.new n [] = s := Except.ok.inj h1
  have key := postWhile_plain (W := W) (N := N) encPostOwn Postorder.ownCtxAdvance Postorder.ownCtxGet (fun t => rfl)
    postCtxAdvance_PostOwn body _ _ w h2 r
  exact ⟨key, (C81_postorder_context false _ (fun _ _ _ _ => rfl) n w r).symm.trans key⟩

end General

section Binary
variable [BinNode N V]
attribute [local instance] plainCtx2

/-- C81, postorder with context, borrowed binary nodes that share no state. -/
theorem C81_plain_postorder_context_binary (body : Body W (Ctx V (Option N × Option N))) (n : N) (w : W) (r : Ending W) :
    ((∃ fuel k, postWhile true fuel (lookPost body) k (PostCtx.new n) w = some r) ↔
        r = endingOf (forList body ((unfold2 n).located.toTree.postorder.map Pos.ctx2) w)) ∧
      (VisitTreePost true (lookPost body) n w r ↔ r = endingOf (forList body ((unfold2 n).located.toTree.postorder.map Pos.ctx2) w)) := by
  obtain ⟨s, h1, h2⟩ := C12_postorder_context_binary n
  obtain rfl : Postorder.BinCtxState.new n [] = s := Except.ok.inj h1
  have key := postWhile_plain (W := W) (N := N) encPostBin Postorder.binCtxAdvance Postorder.binCtxGet (fun t => rfl)
    postCtxAdvance_PostBin body _ _ w h2 r
  exact ⟨key, (C81_postorder_context true _ (fun _ _ _ _ => rfl) n w r).symm.trans key⟩

/-- C81, postorder with context, owned binary nodes that share no state. -/
theorem C81_plain_postorder_context_binary_owned (body : Body W (Ctx V (Option N × Option N))) (n : N) (w : W) (r : Ending W) :
    ((∃ fuel k, postWhile false fuel (lookPost body) k (PostCtx.new n) w = some r) ↔
        r = endingOf (forList body ((unfold2 n).located.toTree.postorder.map fun p => p.ctx2.noChildren) w)) ∧
      (VisitTreePost false (lookPost body) n w r ↔ r = endingOf (forList body ((unfold2 n).located.toTree.postorder.map fun p => p.ctx2.noChildren) w)) := by
  obtain ⟨s, h1, h2⟩ := C12_postorder_context_binary_owned n
  obtain rfl : Postorder.OwnBinCtxState.new n [] = s := Except.ok.inj h1
  have key := postWhile_plain (W := W) (N := N) encPostBinOwn Postorder.ownBinCtxAdvance Postorder.ownBinCtxGet (fun t => rfl)
    postCtxAdvance_PostBinOwn body _ _ w h2 r
  exact ⟨key, (C81_postorder_context false _ (fun _ _ _ _ => rfl) n w r).symm.trans key⟩

end Binary

/-- What the body has noted, latest first, when it stops. -/
example : ArityOk sampleTree ∧ forList notePath ((unfold sampleTree).located.postorder.map Pos.ctx) [] =
      (false, [([0, 1], [0, 1, 4]), ([0, 0], [0, 1, 3])]) ∧
    forList notePath ((unfold2 sampleBin).located.toTree.postorder.map fun p => p.ctx2.noChildren) [] =
      (false, [([1, 0], [0, 2, 4]), ([0], [0, 1]), ([0, 1], [0, 1, 3])]) := by
  exact ⟨sampleTree_arity, by decide +kernel, by decide +kernel⟩

end TreeIter
