import Verif.Spec.Shared
import Verif.Spec.SharedPlain

/-!
# A source of trees that shares no state
-/

universe u x

namespace TreeIter

namespace Shared

variable {W : Type x} {N : Type u}

/-- The `next` of the iterator of a list of trees. -/
def askList (ns : List N) (w : W) : Option N × List N × W := (ns.head?, ns.tail, w)

end Shared

end TreeIter
