import Verif.Spec.SharedCtxPlain
import Verif.Model.SharedWide

/-!
# Bodies that only look at the contexts of breadth-first iteration
-/

universe u v w x y

namespace TreeIter

namespace Shared

variable {W : Type x} {V : Type v} {C : Type y}

/-- A body that only looks at the context. -/
def lookWide (body : Body W (Ctx V C)) : WideBody W V C := fun p as c w =>
  ((body ⟨p, as, some c⟩ w).1, c, (body ⟨p, as, some c⟩ w).2)

end Shared

end TreeIter
