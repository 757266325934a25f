import Verif.Model.SharedIn
import Verif.Spec.SharedCtx

/-!
# A recursive visitor that calls the body between the children, with path and ancestors
-/

universe u v w x y

namespace TreeIter

namespace Shared

variable {W : Type x} {N : Type u} {V : Type v}

/-- The visitor: a node is asked for both children at once; the left one is visited, the body called, the right one visited. -/
inductive VisitInCtx [SharedBin W N V] (keep : Bool) (body : PostBody W V (Option N × Option N)) :
    List Nat → Option N → List V → W → Outcome W V → Prop
  | absent {path : List Nat} {as : List V} {w : W} : VisitInCtx keep body path none as w (.through as w)
  /-- Stopped in the left subtree. -/
  | left {path : List Nat} {n : N} {as : List V} {v : V} {l r : Option N} {w w1 w2 : W} : split2W n w = (v, l, r, w1) →
      VisitInCtx keep body (0 :: path) l (v :: as) w1 (.broke w2) → VisitInCtx keep body path (some n) as w (.broke w2)
  /-- Stopped at the node. -/
  | self {path : List Nat} {n : N} {as as1 as2 : List V} {v : V} {l r : Option N} {ch : Option (Option N × Option N)}
      {w w1 w2 w3 : W} : split2W n w = (v, l, r, w1) →
      VisitInCtx keep body (0 :: path) l (v :: as) w1 (.through as1 w2) →
      body path.reverse as1.reverse (if keep then some (l, r) else none) w2 = (false, as2, ch, w3) →
      VisitInCtx keep body path (some n) as w (.broke w3)
  /-- Stopped in the right subtree. -/
  | right {path : List Nat} {n : N} {as as1 as2 : List V} {v : V} {l r : Option N} {ch : Option (Option N × Option N)}
      {w w1 w2 w3 w4 : W} : split2W n w = (v, l, r, w1) →
      VisitInCtx keep body (0 :: path) l (v :: as) w1 (.through as1 w2) →
      body path.reverse as1.reverse (if keep then some (l, r) else none) w2 = (true, as2, ch, w3) →
      VisitInCtx keep body (1 :: path) r as2.reverse w3 (.broke w4) → VisitInCtx keep body path (some n) as w (.broke w4)
  /-- The node is no longer among the ancestors. -/
  | done {path : List Nat} {n : N} {as as1 as2 as3 : List V} {v : V} {l r : Option N} {ch : Option (Option N × Option N)}
      {w w1 w2 w3 w4 : W} : split2W n w = (v, l, r, w1) →
      VisitInCtx keep body (0 :: path) l (v :: as) w1 (.through as1 w2) →
      body path.reverse as1.reverse (if keep then some (l, r) else none) w2 = (true, as2, ch, w3) →
      VisitInCtx keep body (1 :: path) r as2.reverse w3 (.through as3 w4) →
      VisitInCtx keep body path (some n) as w (.through as3.tail w4)

/-- The visit of a tree. -/
def VisitTreeIn [SharedBin W N V] (keep : Bool) (body : PostBody W V (Option N × Option N)) (n : N) (w : W) : Ending W → Prop
  | .panicked => False
  | .broke w' => VisitInCtx keep body [] (some n) [] w (.broke w')
  | .ended w' => ∃ as, VisitInCtx keep body [] (some n) [] w (.through as w')

/-- A body that looks at the ancestors only. -/
def sliceOnly (body : SliceBody W V) : PostBody W V (Option N × Option N) := fun _ as _ w =>
  ((body as w).1, (body as w).2.1, none, (body as w).2.2)

end Shared

end TreeIter
