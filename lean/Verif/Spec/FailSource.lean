import Verif.Spec.Fail

/-! # What a traversal of a collection answers if panics are caught (C76) -/

universe u v

namespace TreeIter

/-- The replies of a traversal of a collection whose own iterator may panic (`none` among the items): one panic for each of its
panics, and for each tree it gives the replies `spec` says, for that tree and its number.  Panics are not counted. -/
def sourceReplies {N : Type u} {O : Type v} (spec : N → Nat → List (Option O)) : Nat → List (Option N) → List (Option O)
  | _, [] => []
  | i, none :: l => none :: sourceReplies spec i l
  | i, some n :: l => spec n i ++ sourceReplies spec (i + 1) l

end TreeIter
