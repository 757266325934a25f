import Verif.Node

/-!
# Specification of in-order traversals of trees that are infinite to the right
-/

universe u v

namespace TreeIter

variable {N : Type u} {V : Type v}

/-- The nodes below `n` that are reached with at most `d` steps to the right, and any number of steps to the left. -/
def cutR [LeftNode N V] (d : Nat) (n : N) : BinTree N :=
  .node n
    (match _h : (split2 n).2.1 with | none => none | some c => some (cutR d c))
    (match d with | 0 => none | d + 1 => (split2 n).2.2.map (cutR d))
termination_by (d, LeftNode.leftSize n)
decreasing_by
  · exact Prod.Lex.right _ (LeftNode.leftSize_lt (by assumption))
  · exact Prod.Lex.left _ _ (by omega)

end TreeIter
