import Verif.Tree

/-!
# How far apart two slices are

Independent of the model.
-/

universe u

namespace TreeIter

/-- Length of the longest common beginning. -/
def commonLen {α : Type u} [DecidableEq α] : List α → List α → Nat
  | a :: as, b :: bs => if a = b then commonLen as bs + 1 else 0
  | _, _ => 0

/-- How many pops and pushes it takes to turn one slice into another. -/
def sliceDist {α : Type u} [DecidableEq α] (a b : List α) : Nat := (a.length - commonLen a b) + (b.length - commonLen a b)

/-- The distances between neighbours of a list of slices, added up. -/
def walkLength {α : Type u} [DecidableEq α] : List (List α) → Nat
  | a :: b :: l => sliceDist a b + walkLength (b :: l)
  | _ => 0

/-- A chain of `h + 1` nodes. -/
def forkArm {α : Type u} (a : α) : Nat → Tree α
  | 0 => .node a []
  | h + 1 => .node a [forkArm a h]

/-- A root with two chains of `h + 1` nodes each: `2 * h + 3` nodes. -/
def fork (h : Nat) : Tree Nat := .node 0 [forkArm 1 h, forkArm 2 h]

end TreeIter
