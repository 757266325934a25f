import Verif.Node

/-!
# Specification of traversals in which the user's code panics

`bad` tells for which nodes the user's `get_value_and_children` panics.  Nothing is known of what is below such a node, so
the tree that can be traversed is the one in which it has no children.  A caller that catches the panic and goes on
expects one panic for each bad node, where it would have been visited, and the usual answer everywhere else.
-/

universe u v w

namespace TreeIter

mutual
/-- The tree without what is below the bad nodes. -/
def Tree.crop {α : Type u} (bad : α → Bool) : Tree α → Tree α
  | .node a cs => .node a (if bad a then [] else Tree.cropL bad cs)
/-- Forest version of `crop`. -/
def Tree.cropL {α : Type u} (bad : α → Bool) : List (Tree α) → List (Tree α)
  | [] => []
  | t :: ts => t.crop bad :: Tree.cropL bad ts
end

mutual
/-- The binary tree without what is below the bad nodes. -/
def BinTree.crop {α : Type u} (bad : α → Bool) : BinTree α → BinTree α
  | .node a l r => .node a (if bad a then none else BinTree.cropO bad l) (if bad a then none else BinTree.cropO bad r)
/-- Slot version of `crop`. -/
def BinTree.cropO {α : Type u} (bad : α → Bool) : Option (BinTree α) → Option (BinTree α)
  | none => none
  | some t => some (t.crop bad)
end

/-- What a call that reaches the node `n` gives: `none` is a panic of the user's code. -/
def replyAt {N : Type u} {O : Type w} (bad : N → Bool) (f : N → O) (n : N) : Option O :=
  if bad n then none else some (f n)

/-- The same for a node with its position. -/
def replyPos {N : Type u} {O : Type w} (bad : N → Bool) (f : Pos N → O) (p : Pos N) : Option O :=
  if bad p.item then none else some (f p)

end TreeIter
