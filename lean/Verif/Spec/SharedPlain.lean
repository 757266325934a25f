import Verif.Spec.Shared

/-!
# Nodes that share no state

The nodes of the other models, whose answers depend on nothing but the node, as a special case of nodes that share state: they
leave the world as it is.  A loop over a list of outputs says what a `for` loop over such nodes is to do.
-/

universe u v w x

namespace TreeIter

namespace Shared

variable {W : Type x} {N : Type u} {V : Type v} {O : Type v}

/-- A general node that shares no state; a child iterator is the list of nodes it has yet to give. -/
@[reducible] def plainNode (W : Type x) [TreeNode N V] : SharedNode W N V (List N) where
  splitW n w := (val n, kids n, w)
  pollW i w := (i.head?, i.tail, w)

/-- A binary node that shares no state. -/
@[reducible] def plainBin (W : Type x) [BinNode N V] : SharedBin W N V where
  split2W n w := (val2 n, (split2 n).2.1, (split2 n).2.2, w)

/-- `for o in list { body }`. -/
def forList (body : Body W O) : List O → W → Bool × W
  | [], w => (true, w)
  | o :: os, w =>
    match body o w with
    | (false, w) => (false, w)
    | (true, w) => forList body os w

end Shared

end TreeIter
