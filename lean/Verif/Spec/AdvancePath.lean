import Verif.Spec.Advance
import Verif.Spec.FailPlace

/-! # Specification of `fold_path` on a pipeline that has been advanced

The positions that the closure of `fold_path` is told are made of the last segments of the paths of the values that are left, each
with a depth.  As long as every value lies deeper than the number of values before it, nothing is complete, and the vector of
segments is as long as the stack of values, where it should be shorter by one.  The first value for which this is not so brings the
two back together: the values above it in the stack get the positions of their parents' segments, one too few in front of them. -/

universe u v w

namespace TreeIter

variable {V : Type u} {O : Type v} {τ : Type w}

/-- How many values come before the first one that lies no deeper than the number of values before it. -/
def plunge : Nat → List (V × List Nat) → Nat
  | _, [] => 0
  | j, (_, p) :: l => if j < p.length then plunge (j + 1) l + 1 else 0

/-- The positions told for these values: number `j` is told the segments up to its own, or up to its parent's if it is still
open when a value of depth `d` comes. -/
def toldFirst (segs : List Nat) (d : Nat) : Nat → List (V × List Nat) → List ((List Nat × V) × List Nat)
  | _, [] => []
  | j, (v, p) :: l => ((segs.take (if j < d then j else j + 1), v), p) :: toldFirst segs d (j + 1) l

/-- The positions told for the later values: below the last node one level above, the last segment of the path; `q` is what was
told for the value before. -/
def toldNext (q : List Nat) : List (V × List Nat) → List ((List Nat × V) × List Nat)
  | [] => []
  | (v, p) :: l => ((q.take (p.length - 1) ++ [p.getLast?.getD 0], v), p) ::
      toldNext (q.take (p.length - 1) ++ [p.getLast?.getD 0]) l

/-- The values that are left, each with the position that the closure is told, and with its path. -/
def toldPaths (l : List (V × List Nat)) : List ((List Nat × V) × List Nat) :=
  match l.drop (plunge 0 l) with
  | [] => toldFirst ((l.take (plunge 0 l)).map fun x => x.2.getLast?.getD 0) 1 0 (l.take (plunge 0 l))
  | (v, p) :: l' =>
    toldFirst ((l.take (plunge 0 l)).map fun x => x.2.getLast?.getD 0) p.length 0 (l.take (plunge 0 l)) ++
      ((((l.take (plunge 0 l)).map fun x => x.2.getLast?.getD 0).take p.length, v), p) ::
        toldNext (((l.take (plunge 0 l)).map fun x => x.2.getLast?.getD 0).take p.length) l'

/-- The values that are left, arranged by their depths, with the positions that the closure is told. -/
def regroupTold (l : List (V × List Nat)) : Option (Tree (List Nat × V)) :=
  regroup ((toldPaths l).map fun x => (x.2.length, x.1))

/-- The closure of `fold_path` on values with positions. -/
def toldClosure (f : τ → List O → List Nat → V → τ × O) (t : τ) (os : List O) (x : List Nat × V) : τ × O := f t os x.1 x.2

/-- The closure of `fold_path` of binary trees: of the results of the children, the last one told to be a left child and the last one
told to be a right child are given to it. -/
def toldSlots (f : τ → Option O × Option O → List Nat → V → τ × O) (t : τ) (os : List (Nat × O)) (x : List Nat × V) :
    τ × (Nat × O) :=
  ((f t (lastOf 0 os, lastOf 1 os) x.1 x.2).1, x.1.getLast?.getD 0, (f t (lastOf 0 os, lastOf 1 os) x.1 x.2).2)

end TreeIter
