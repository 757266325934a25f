import Verif.Spec.SharedCtxPlain
import Verif.Model.SharedPost

/-!
# Bodies that only look at the contexts of postorder and in order
-/

universe u v w x y

namespace TreeIter

namespace Shared

variable {W : Type x} {V : Type v} {C : Type y}

/-- A body that only looks at the context. -/
def lookPost (body : Body W (Ctx V C)) : PostBody W V C := fun p as c w =>
  ((body ⟨p, as, c⟩ w).1, as, c, (body ⟨p, as, c⟩ w).2)

end Shared

end TreeIter
