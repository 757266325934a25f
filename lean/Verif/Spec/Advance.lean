import Verif.Tree

/-! # Specification of `collect_tree` on a pipeline that has been advanced

The values that are left are arranged by nothing but their depths: the first one becomes the root; each later one becomes
the last child of the last node one level above it, or of the last node altogether if the tree is not that deep. -/

universe u

namespace TreeIter

variable {V : Type u}

mutual
/-- The values of a tree in preorder, each with its depth; the root is at `d`. -/
def Tree.levels (d : Nat) : Tree V → List (Nat × V)
  | .node a cs => (d, a) :: Tree.levelsL (d + 1) cs
/-- The same for a list of trees. -/
def Tree.levelsL (d : Nat) : List (Tree V) → List (Nat × V)
  | [] => []
  | t :: ts => t.levels d ++ Tree.levelsL d ts
end

mutual
/-- A further value, at the depth `d` below the root if there is a last node at `d - 1`, else below the last node. -/
def Tree.attach (d : Nat) (v : V) : Tree V → Tree V
  | .node a cs => if d ≤ 1 then .node a (cs ++ [.node v []]) else .node a (Tree.attachL (d - 1) v cs)
/-- The same below the last of a list of trees. -/
def Tree.attachL (d : Nat) (v : V) : List (Tree V) → List (Tree V)
  | [] => [.node v []]
  | [t] => [t.attach d v]
  | t :: t' :: ts => t :: Tree.attachL d v (t' :: ts)
end

/-- The tree made of values with their depths. -/
def regroup : List (Nat × V) → Option (Tree V)
  | [] => none
  | (_, v) :: l => some (l.foldl (fun t x => t.attach x.1 x.2) (.node v []))

/-! ## Binary trees -/

/-- A leaf in one of the two slots of the root, whatever was there before. -/
def BinTree.hang (i : Nat) (v : V) : BinTree V → BinTree V
  | .node a l r => if i = 0 then .node a (some (.node v none none)) r else .node a l (some (.node v none none))

/-- A leaf in one of the two slots of the last node `d` levels below the root, or of the last node altogether if the tree
is not that deep. -/
def BinTree.attachAt : Nat → Nat → V → BinTree V → BinTree V
  | 0, i, v, t => t.hang i v
  | _ + 1, i, v, .node a none none => (BinTree.node a none none).hang i v
  | d + 1, i, v, .node a l (some r) => .node a l (some (BinTree.attachAt d i v r))
  | d + 1, i, v, .node a (some l) none => .node a (some (BinTree.attachAt d i v l)) none

/-- The tree made of values with their paths: a value goes into the slot that ends its path, one level above its depth. -/
def regroup2 : List (V × List Nat) → Option (BinTree V)
  | [] => none
  | (v, _) :: l => some (l.foldl (fun t x => BinTree.attachAt (x.2.length - 1) (x.2.getLast?.getD 0) x.1 t) (.node v none none))

end TreeIter
