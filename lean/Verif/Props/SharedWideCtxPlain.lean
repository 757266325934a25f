import Verif.Lemmas.SharedWideCtxPlain
import Verif.Props.SharedWide
import Verif.Props.SharedCtxPlain
import Verif.Props.BreadthFirstCtx

/-!
# C81: breadth-first contexts on nodes that share no state
-/

universe u v w x

namespace TreeIter

open Shared

variable {W : Type x} {N : Type u} {V : Type v}

section General
variable [TreeNode N V]
attribute [local instance] plainCtx

/-- C81, breadth first with context, nodes that share no state, a body that only looks: loop and visitor go through the contexts of
C14, without a panic. -/
theorem C81_plain_bfs_context (body : Body W (Ctx V (List N))) (n : N) (ha : ArityLt n) (w : W) (r : Ending W) :
    ((∃ fuel k, wideCtxWhile N fuel (lookWide body) k (WideCtx.new n w).1 (WideCtx.new (V := V) (C := List N) (I := List N) n w).2 =
        some r) ↔ r = endingOf (forList body ((unfold n).located.levelOrder.map Pos.ctx) w)) ∧
      (VisitWideCtx (lookWide body) n w r ↔ r = endingOf (forList body ((unfold n).located.levelOrder.map Pos.ctx) w)) := by
  obtain ⟨s, h1, h2⟩ := C14_bfs_context n ha
  obtain rfl : Bfs.CtxState.new n [] = s := Except.ok.inj h1
  have key := wideCtxWhile_plain (W := W) (N := N) Bfs.ctxAdvance wideCtxAdvance_plain wideAdvance_ok body _ _ w
    (fun _ => ⟨_, rfl⟩) h2 r
  exact ⟨key, (C81_bfs_context _ n w r).symm.trans key⟩

end General

section Binary
variable [BinNode N V]
attribute [local instance] plainCtx2

/-- C81, breadth first with context, binary nodes that share no state. -/
theorem C81_plain_bfs_context_binary (body : Body W (Ctx V (Option N × Option N))) (n : N) (w : W) (r : Ending W) :
    ((∃ fuel k, wideCtxWhile N fuel (lookWide body) k (WideCtx.new n w).1
        (WideCtx.new (V := V) (C := Option N × Option N) (I := List (Option N)) n w).2 = some r) ↔
        r = endingOf (forList body ((unfold2 n).located.toTree.levelOrder.map Pos.ctx2) w)) ∧
      (VisitWideCtx (lookWide body) n w r ↔
        r = endingOf (forList body ((unfold2 n).located.toTree.levelOrder.map Pos.ctx2) w)) := by
  obtain ⟨s, h1, h2⟩ := C14_bfs_context_binary n
  obtain rfl : Bfs.CtxState.binNew n [] = s := Except.ok.inj h1
  have key := wideCtxWhile_plain (W := W) (N := N) Bfs.binCtxAdvance wideCtxAdvance_plain2 wideAdvance_ok2 body _ _ w
    (fun _ => ⟨_, rfl⟩) h2 r
  exact ⟨key, (C81_bfs_context _ n w r).symm.trans key⟩

end Binary

/-- What the body has noted, latest first, when it stops; the tree meets the bound on the number of children. -/
example : ArityLt sampleTree ∧ forList notePath ((unfold sampleTree).located.levelOrder.map Pos.ctx) [] =
      (false, [([0, 1], [0, 1, 4]), ([0, 0], [0, 1, 3]), ([1], [0, 2]), ([0], [0, 1]), ([], [0])]) ∧
    forList notePath ((unfold2 sampleBin).located.toTree.levelOrder.map Pos.ctx2) [] =
      (false, [([1, 0], [0, 2, 4]), ([0, 1], [0, 1, 3]), ([1], [0, 2]), ([0], [0, 1]), ([], [0])]) :=
  ⟨sampleTree_arityLt, by decide +kernel, by decide +kernel⟩

end TreeIter
