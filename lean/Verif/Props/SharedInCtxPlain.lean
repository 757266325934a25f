import Verif.Lemmas.SharedInCtxPlain
import Verif.Props.SharedIn
import Verif.Props.SharedCtxPlain

/-!
# C81: in-order contexts on nodes that share no state
-/

universe u v w x

namespace TreeIter

open Shared

variable {W : Type x} {N : Type u} {V : Type v}

section Binary
variable [BinNode N V]
attribute [local instance] plainBin

/-- C81, in order with context, borrowed nodes that share no state, a body that only looks: loop and visitor go through the contexts
of C13, without a panic. -/
theorem C81_plain_inorder_context (body : Body W (Ctx V (Option N × Option N))) (n : N) (w : W) (r : Ending W) :
    ((∃ fuel k, inWhile true fuel (lookPost body) k (InCtx.new n) w = some r) ↔
        r = endingOf (forList body ((unfold2 n).located.inorder.map Pos.ctx2) w)) ∧
      (VisitTreeIn true (lookPost body) n w r ↔ r = endingOf (forList body ((unfold2 n).located.inorder.map Pos.ctx2) w)) := by
  obtain ⟨s, h1, h2⟩ := C13_inorder_context n
  obtain rfl : Inorder.CtxState.new n [] = s := Except.ok.inj h1
  have key := inWhile_plain (W := W) (N := N) encIn Inorder.ctxAdvance Inorder.ctxGet (fun t => rfl)
    inCtxAdvance_In body _ _ w h2 r
  exact ⟨key, (C81_inorder_context true _ (fun _ _ _ _ => rfl) n w r).symm.trans key⟩

/-- C81, in order with context, owned nodes that share no state: the contexts come without children. -/
theorem C81_plain_inorder_context_owned (body : Body W (Ctx V (Option N × Option N))) (n : N) (w : W) (r : Ending W) :
    ((∃ fuel k, inWhile false fuel (lookPost body) k (InCtx.new n) w = some r) ↔
        r = endingOf (forList body ((unfold2 n).located.inorder.map fun p => p.ctx2.noChildren) w)) ∧
      (VisitTreeIn false (lookPost body) n w r ↔
        r = endingOf (forList body ((unfold2 n).located.inorder.map fun p => p.ctx2.noChildren) w)) := by
  obtain ⟨s, h1, h2⟩ := C13_inorder_context_owned n
  obtain rfl : Inorder.OwnCtxState.new n [] = s := Except.ok.inj h1
  have key := inWhile_plain (W := W) (N := N) encInOwn Inorder.ownAdvance Inorder.ownGet (fun t => rfl)
    inCtxAdvance_InOwn body _ _ w h2 r
  exact ⟨key, (C81_inorder_context false _ (fun _ _ _ _ => rfl) n w r).symm.trans key⟩

end Binary

/-- What the body has noted, latest first, when it stops. -/
example : forList notePath ((unfold2 sampleBin).located.inorder.map Pos.ctx2) [] =
    (false, [([1, 0], [0, 2, 4]), ([], [0]), ([0, 1], [0, 1, 3]), ([0], [0, 1])]) := by
  decide +kernel

end TreeIter
