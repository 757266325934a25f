import Verif.Spec.SharedPlain
import Verif.Model.SharedWide

/-!
# How a `while let` loop ends that does what a `for` loop over a list does
-/

universe u

namespace TreeIter

namespace Shared

variable {W : Type u}

/-- It never panics; it ends with `break` or by itself. -/
def endingOf : Bool × W → Ending W
  | (false, w) => .broke w
  | (true, w) => .ended w

end Shared

end TreeIter
