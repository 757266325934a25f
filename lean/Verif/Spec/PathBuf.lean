import Verif.Node
import Verif.Spec.Chain

/-! # Specification: which calls of the closure of `map_path` get a slice of freed memory -/

universe u v w

namespace TreeIter

/-- All stages are `map_tree`. -/
def Chain.mapsOnly {σ : Type w} {V : Type v} : {W : Type v} → Chain σ V W → Bool
  | _, source => true
  | _, map c _ => c.mapsOnly
  | _, prune _ _ => false
  | _, prunePath _ _ => false
  | _, pruneDepth _ _ => false

/-- One of the stages is `prune` or `prune_path`. -/
def Chain.ownsPath {σ : Type w} {V : Type v} : {W : Type v} → Chain σ V W → Bool
  | _, source => false
  | _, map c _ => c.ownsPath
  | _, prune _ _ => true
  | _, prunePath _ _ => true
  | _, pruneDepth c _ => c.ownsPath

/-- The depths of the nodes in preorder; the root has depth `0`. -/
def Tree.depths {α : Type u} (t : Tree α) : List Nat := t.located.preorder.map fun p => p.path.length

/-- The depths of the nodes of a binary tree in preorder. -/
def BinTree.depths {α : Type u} (t : BinTree α) : List Nat := t.located.toTree.preorder.map fun p => p.path.length

/-- A vector of capacity `c` holds the path of a node; the lengths of that path and of those of the nodes after it are given.
Below each node but the last an element is pushed onto its path: the answer tells, for each such push, whether it
takes elements of the path away from where they were. -/
def moves (grow : Nat → Nat) : Nat → List Nat → List Bool
  | _, [] => []
  | _, [_] => []
  | c, d :: e :: ds =>
    if d < c then false :: moves grow c (e :: ds) else decide (0 < d) :: moves grow (grow c) (e :: ds)

/-- As `moves`, for the calls on a collection; for each tree the depths of its nodes are given.  Paths begin with the number of
the tree.  The first call on every tree but the first gets a slice of freed memory, whatever the trees are. -/
def collMoves (grow : Nat → Nat) : List (List Nat) → List Bool
  | [] => []
  | ds :: rest =>
    false :: moves grow (grow 0) (ds.map (· + 1)) ++ rest.flatMap fun es => true :: moves grow (grow 0) (es.map (· + 1))

mutual
/-- The nodes a `prune` stage looks at, the root lying at depth `d`: for each its depth and whether it is kept.  It does not look
below a node that it drops. -/
def Tree.looks {α : Type u} (f : α → Bool) (d : Nat) : Tree α → List (Nat × Bool)
  | .node x cs => if f x then [(d, false)] else (d, true) :: Tree.looksL f (d + 1) cs
/-- As `Tree.looks`, for a forest. -/
def Tree.looksL {α : Type u} (f : α → Bool) (d : Nat) : List (Tree α) → List (Nat × Bool)
  | [] => []
  | t :: ts => t.looks f d ++ Tree.looksL f d ts
end

/-- The vector of the path that a `prune` stage holds; its capacity is `c`.  `l` is the length of the path the pipeline showed
last, and `m` tells whether the vector has moved since.  A node the stage looks at moves the vector if its path does not
fit.  The answer tells, for each kept node, whether elements of the path shown before it are no longer where they were. -/
def ownMoves (grow : Nat → Nat) : Nat → Nat → Bool → List (Nat × Bool) → List Bool
  | _, _, _, [] => []
  | c, l, m, (d, true) :: rest =>
    (decide (0 < l) && (m || decide (c < d))) :: ownMoves grow (if c < d then grow c else c) d false rest
  | c, l, m, (d, false) :: rest => ownMoves grow (if c < d then grow c else c) l (m || decide (c < d)) rest

end TreeIter
