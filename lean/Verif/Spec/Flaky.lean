import Verif.Node

/-!
# Nodes whose child iterators may panic

The `next` of a child iterator is the user's code.  A call of it may give a child, may give `None`, and may panic; a
caller that catches the panic may go on, and then the child iterator is asked again.  `callsF` lists what the calls of
`next` do up to the first `None`: `some c` gives the child `c`, `none` panics.
-/

universe u v w

namespace TreeIter

/-- `prelude.rs` 742-759 (`OwnedTreeNode`, and its borrowed variants) for child iterators that may panic.  The tree of the
children that can be got is finite. -/
class FlakyNode (N : Type u) (V : outParam (Type v)) where
  splitF : N → V × List (Option N)
  sizeF : N → Nat
  sizeF_lt : ∀ {n c : N}, some c ∈ (splitF n).2 → sizeF c < sizeF n

/-- The value returned by the trait method. -/
def valF {N : Type u} {V : Type v} [FlakyNode N V] (n : N) : V := (FlakyNode.splitF n).1

/-- What the calls of `next` of the child iterator do. -/
def callsF {N : Type u} {V : Type v} [FlakyNode N V] (n : N) : List (Option N) := (FlakyNode.splitF n).2

section
variable {N : Type u} {V : Type v} [FlakyNode N V]

/-- The size of what a call of `next` gives. -/
def pollSize : Option N → Nat
  | none => 0
  | some n => FlakyNode.sizeF n + 1

theorem pollSize_lt {n : N} {o : Option N} (h : o ∈ callsF n) : pollSize o < pollSize (some n) := by
  cases o with
  | none => simp [pollSize]
  | some c => exact Nat.succ_lt_succ (FlakyNode.sizeF_lt h)

/-- The tree of everything the calls of `next` do: a panic is a leaf `none`, a child is a node `some c` with the tree of its
own child iterator below. -/
def pollTree : Option N → Tree (Option N)
  | none => .node none []
  | some n => .node (some n) ((callsF n).attach.map fun o => pollTree o.1)
termination_by o => pollSize o
decreasing_by exact pollSize_lt o.2

/-- The values on the way to a position.  Only nodes have children, so that above a node there are nodes only. -/
def Pos.values (p : Pos (Option N)) : List V := p.ancestors.filterMap (Option.map valF)

/-- The slice expected at a position, `none` for a panic. -/
def Pos.sliceF (p : Pos (Option N)) : Option (List V) := p.item.map fun _ => p.values

/-- The context expected at a position, `none` for a panic. -/
def Pos.ctxF (p : Pos (Option N)) : Option (Ctx V (List (Option N))) :=
  p.item.map fun n => ⟨p.path, p.values, some (callsF n)⟩

/-- The first call of `next` of the child iterator panics. -/
def firstPanics (n : N) : Bool :=
  match callsF n with
  | none :: _ => true
  | _ => false

/-- A panic, or a node whose child iterator panics at the first call. -/
def lostF : Option N → Bool
  | none => true
  | some n => firstPanics n

end

end TreeIter
