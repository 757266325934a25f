import Verif.Spec.SharedWidePlain
import Verif.Model.SharedCtx

/-!
# Nodes of the other models as nodes with slots that leave the state alone
-/

universe u v w x y

namespace TreeIter

namespace Shared

variable {W : Type x} {N : Type u} {V : Type v} {C : Type y}

/-- A general node that shares no state. -/
@[reducible] def plainCtx (W : Type x) [TreeNode N V] : CtxNode W N V (List N) (List N) where
  splitC n w := (val n, kids n, w)
  intoC c w := (c, w)
  pollC i w := (i.head?.map some, i.tail, w)

/-- A binary node that shares no state. -/
@[reducible] def plainCtx2 (W : Type x) [BinNode N V] : CtxNode W N V (Option N × Option N) (List (Option N)) where
  splitC n w := (val2 n, (split2 n).2, w)
  intoC c w := ([c.1, c.2], w)
  pollC i w := (i.head?, i.tail, w)

/-- A body that only looks at the context. -/
def lookBody (body : Body W (Ctx V C)) : CtxBody W V C := fun p as c w =>
  ((body ⟨p, as, some c⟩ w).1, as, c, (body ⟨p, as, some c⟩ w).2)

end Shared

end TreeIter
