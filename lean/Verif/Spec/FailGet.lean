import Verif.Node

/-!
# What `get` shows when `next` has panicked in the user's code

A caller that catches the panic of `next` can call `get`, which does not move the iterator.  A context describes one
node if it has one ancestor more than its path has segments (the node itself is the last ancestor) and its children are
there.
-/

universe u v w

namespace TreeIter

/-- The path, ancestors and children belong to one node. -/
def Ctx.Whole {V : Type v} {C : Type w} (c : Ctx V C) : Prop :=
  c.ancestors.length = c.path.length + 1 ∧ c.children ≠ none

/-- What is left when the node at the position could not be opened: the path leads to the node, the ancestors end with
its parent. -/
def Pos.unopened {N : Type u} {V : Type v} {C : Type w} [SplitNode N V] (p : Pos N) (children : Option C) :
    Option (Ctx V C) :=
  if p.path = [] then none else some ⟨p.path, p.ancestors.dropLast.map val, children⟩

/-- The same for a position in a binary tree. -/
def Pos.unopened2 {N : Type u} {V : Type v} {C : Type w} [SplitNode2 N V] (p : Pos N) (children : Option C) :
    Option (Ctx V C) :=
  if p.path = [] then none else some ⟨p.path, p.ancestors.dropLast.map val2, children⟩

/-- The slice of the parent of the node at the position. -/
def Pos.parentSlice {N : Type u} {V : Type v} [SplitNode N V] (p : Pos N) : Option (List V) :=
  if p.path = [] then none else some (p.ancestors.dropLast.map val)

/-- The slice of the parent in a binary tree. -/
def Pos.parentSlice2 {N : Type u} {V : Type v} [SplitNode2 N V] (p : Pos N) : Option (List V) :=
  if p.path = [] then none else some (p.ancestors.dropLast.map val2)

/-- The path and the ancestors of the parent, with the given children. -/
def Pos.parentCtx2 {N : Type u} {V : Type v} {C : Type w} [SplitNode2 N V] (p : Pos N) (children : Option C) :
    Option (Ctx V C) :=
  if p.path = [] then none else some ⟨p.path.dropLast, p.ancestors.dropLast.map val2, children⟩

/-- The children of the last node in the list that could be opened. -/
def lastOpened {N : Type u} {V : Type v} [SplitNode2 N V] (bad : N → Bool) (l : List (Pos N)) :
    Option (Option N × Option N) :=
  (l.reverse.find? fun p => !bad p.item).map fun p => (split2 p.item).2

end TreeIter
