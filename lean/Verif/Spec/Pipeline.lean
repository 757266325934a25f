import Verif.Tree

/-! # Specification of the whole-tree operations

Recursive definitions of what `map`, `prune`, `fold`, … are to compute.  A stateful closure is a function that takes and
returns a state; the order in which the state is threaded through is the order in which the closure is called. -/

universe u v w x y

namespace TreeIter

/-- Fold a tree that may be absent: with no tree the closure is not called. -/
def foldO {C : Type u} {O : Type v} {τ : Type w} (fold : τ → C → τ × O) (t : τ) : Option C → τ × Option O
  | none => (t, none)
  | some c => ((fold t c).1, some (fold t c).2)

/-- The closure of `map_path` as it is called: with a slice as long as the path of the node before. -/
def staleArg {σ : Type w} {V : Type v} {W : Type x} (stale : σ → List Nat → List Nat → List Nat)
    (f : σ → List Nat → V → σ × W) : σ × List Nat → List Nat → V → (σ × List Nat) × W :=
  fun (w, old) new v => (((f w (stale w old new) v).1, new), (f w (stale w old new) v).2)

namespace Tree
variable {α : Type u} {β : Type v} {σ : Type w}

/-! ## Map -/

mutual
/-- Apply `f` to every value, the node before its children. -/
def mapS (f : σ → α → σ × β) (w : σ) : Tree α → σ × Tree β
  | .node a cs => ((mapSL f (f w a).1 cs).1, .node (f w a).2 (mapSL f (f w a).1 cs).2)
/-- The same for a forest, from left to right. -/
def mapSL (f : σ → α → σ × β) (w : σ) : List (Tree α) → σ × List (Tree β)
  | [] => (w, [])
  | t :: ts => ((mapSL f (t.mapS f w).1 ts).1, (t.mapS f w).2 :: (mapSL f (t.mapS f w).1 ts).2)
end

mutual
/-- As `mapS`, where `f` is also given the path of the node; the root is at `p`. -/
def mapPathS (f : σ → List Nat → α → σ × β) (w : σ) (p : List Nat) : Tree α → σ × Tree β
  | .node a cs => ((mapPathSL f (f w p a).1 p 0 cs).1, .node (f w p a).2 (mapPathSL f (f w p a).1 p 0 cs).2)
/-- The same for the children of the node at `p`, from number `i` on. -/
def mapPathSL (f : σ → List Nat → α → σ × β) (w : σ) (p : List Nat) (i : Nat) : List (Tree α) → σ × List (Tree β)
  | [] => (w, [])
  | t :: ts =>
    ((mapPathSL f (t.mapPathS f w (p ++ [i])).1 p (i + 1) ts).1,
      (t.mapPathS f w (p ++ [i])).2 :: (mapPathSL f (t.mapPathS f w (p ++ [i])).1 p (i + 1) ts).2)
end

/-! ## Prune -/

mutual
/-- Remove every subtree whose root satisfies `f`; below a removed node `f` is not consulted. -/
def pruneS (f : σ → α → σ × Bool) (w : σ) : Tree α → σ × Option (Tree α)
  | .node a cs =>
    if (f w a).2 then ((f w a).1, none)
    else ((pruneSL f (f w a).1 cs).1, some (.node a (pruneSL f (f w a).1 cs).2))
/-- The same for a forest, from left to right. -/
def pruneSL (f : σ → α → σ × Bool) (w : σ) : List (Tree α) → σ × List (Tree α)
  | [] => (w, [])
  | t :: ts => ((pruneSL f (t.pruneS f w).1 ts).1, (t.pruneS f w).2.toList ++ (pruneSL f (t.pruneS f w).1 ts).2)
end

mutual
/-- As `pruneS`, where `f` is also given the path of the node in this tree; the root is at `p`. -/
def prunePathS (f : σ → List Nat → α → σ × Bool) (w : σ) (p : List Nat) : Tree α → σ × Option (Tree α)
  | .node a cs =>
    if (f w p a).2 then ((f w p a).1, none)
    else ((prunePathSL f (f w p a).1 p 0 cs).1, some (.node a (prunePathSL f (f w p a).1 p 0 cs).2))
/-- The same for the children of the node at `p`, from number `i` on. -/
def prunePathSL (f : σ → List Nat → α → σ × Bool) (w : σ) (p : List Nat) (i : Nat) :
    List (Tree α) → σ × List (Tree α)
  | [] => (w, [])
  | t :: ts =>
    ((prunePathSL f (t.prunePathS f w (p ++ [i])).1 p (i + 1) ts).1,
      (t.prunePathS f w (p ++ [i])).2.toList ++ (prunePathSL f (t.prunePathS f w (p ++ [i])).1 p (i + 1) ts).2)
end

mutual
/-- The tree with every value next to its path; the root is at `p`. -/
def atPaths (p : List Nat) : Tree α → Tree (α × List Nat)
  | .node a cs => .node (a, p) (atPathsL p 0 cs)
/-- The children of the node at `p`, from number `i` on. -/
def atPathsL (p : List Nat) (i : Nat) : List (Tree α) → List (Tree (α × List Nat))
  | [] => []
  | t :: ts => t.atPaths (p ++ [i]) :: atPathsL p (i + 1) ts
end

mutual
/-- As `prunePathS`, with every value that is kept next to a path: the root's is `q`, and a child's number is the number
of its earlier siblings that are kept and have children in this tree (which is not the child's place in the result). -/
def prunedAtS (f : σ → List Nat → α → σ × Bool) (w : σ) (p q : List Nat) : Tree α → σ × Option (Tree (α × List Nat))
  | .node a cs =>
    if (f w p a).2 then ((f w p a).1, none)
    else ((prunedAtSL f (f w p a).1 p 0 q 0 cs).1, some (.node (a, q) (prunedAtSL f (f w p a).1 p 0 q 0 cs).2))
/-- The same for the children of the node at `p`, from number `i` on; the first is given the path `q ++ [j]`. -/
def prunedAtSL (f : σ → List Nat → α → σ × Bool) (w : σ) (p : List Nat) (i : Nat) (q : List Nat) (j : Nat) :
    List (Tree α) → σ × List (Tree (α × List Nat))
  | [] => (w, [])
  | t :: ts =>
    ((prunedAtSL f (t.prunedAtS f w (p ++ [i]) (q ++ [j])).1 p (i + 1) q
        (if (t.prunedAtS f w (p ++ [i]) (q ++ [j])).2.isSome && !t.children.isEmpty then j + 1 else j) ts).1,
      (t.prunedAtS f w (p ++ [i]) (q ++ [j])).2.toList ++
        (prunedAtSL f (t.prunedAtS f w (p ++ [i]) (q ++ [j])).1 p (i + 1) q
          (if (t.prunedAtS f w (p ++ [i]) (q ++ [j])).2.isSome && !t.children.isEmpty then j + 1 else j) ts).2)
end

mutual
/-- The tree without the nodes deeper than `d`. -/
def truncate : Nat → Tree α → Tree α
  | 0, .node a _ => .node a []
  | d + 1, .node a cs => .node a (truncateL d cs)
/-- The same for a forest. -/
def truncateL : Nat → List (Tree α) → List (Tree α)
  | _, [] => []
  | d, t :: ts => t.truncate d :: truncateL d ts
end

/-! ## Fold -/

mutual
/-- Fold bottom-up: the children from left to right, then the node with the results of its children. -/
def foldS (f : σ → List β → α → σ × β) (t : σ) : Tree α → σ × β
  | .node a cs => f (foldSL f t cs).1 (foldSL f t cs).2 a
/-- The results of a forest, from left to right. -/
def foldSL (f : σ → List β → α → σ × β) (t : σ) : List (Tree α) → σ × List β
  | [] => (t, [])
  | c :: cs => ((foldSL f (c.foldS f t).1 cs).1, (c.foldS f t).2 :: (foldSL f (c.foldS f t).1 cs).2)
end

mutual
/-- As `foldS`, where `f` is also given the path of the node; the root is at `p`. -/
def foldPathS (f : σ → List β → List Nat → α → σ × β) (t : σ) (p : List Nat) : Tree α → σ × β
  | .node a cs => f (foldPathSL f t p 0 cs).1 (foldPathSL f t p 0 cs).2 p a
/-- The results of the children of the node at `p`, from number `i` on. -/
def foldPathSL (f : σ → List β → List Nat → α → σ × β) (t : σ) (p : List Nat) (i : Nat) :
    List (Tree α) → σ × List β
  | [] => (t, [])
  | c :: cs =>
    ((foldPathSL f (c.foldPathS f t (p ++ [i])).1 p (i + 1) cs).1,
      (c.foldPathS f t (p ++ [i])).2 :: (foldPathSL f (c.foldPathS f t (p ++ [i])).1 p (i + 1) cs).2)
end

end Tree

namespace BinTree
variable {α : Type u} {β : Type v} {σ : Type w}

/-! ## Binary trees -/

mutual
/-- Apply `f` to every value: the node, then its left and its right subtree. -/
def mapS (f : σ → α → σ × β) (w : σ) : BinTree α → σ × BinTree β
  | .node a l r =>
    ((mapSO f (mapSO f (f w a).1 l).1 r).1,
      .node (f w a).2 (mapSO f (f w a).1 l).2 (mapSO f (mapSO f (f w a).1 l).1 r).2)
/-- The same for a slot. -/
def mapSO (f : σ → α → σ × β) (w : σ) : Option (BinTree α) → σ × Option (BinTree β)
  | none => (w, none)
  | some t => ((t.mapS f w).1, some (t.mapS f w).2)
end

mutual
/-- As `mapS`, where `f` is also given the path of the node; the root is at `p`. -/
def mapPathS (f : σ → List Nat → α → σ × β) (w : σ) (p : List Nat) : BinTree α → σ × BinTree β
  | .node a l r =>
    ((mapPathSO f (mapPathSO f (f w p a).1 (p ++ [0]) l).1 (p ++ [1]) r).1,
      .node (f w p a).2 (mapPathSO f (f w p a).1 (p ++ [0]) l).2
        (mapPathSO f (mapPathSO f (f w p a).1 (p ++ [0]) l).1 (p ++ [1]) r).2)
/-- The same for a slot. -/
def mapPathSO (f : σ → List Nat → α → σ × β) (w : σ) (p : List Nat) : Option (BinTree α) → σ × Option (BinTree β)
  | none => (w, none)
  | some t => ((t.mapPathS f w p).1, some (t.mapPathS f w p).2)
end

mutual
/-- Remove every subtree whose root satisfies `f`; `f` is given the path of the node, the root being at `p`. -/
def prunePathS (f : σ → List Nat → α → σ × Bool) (w : σ) (p : List Nat) : BinTree α → σ × Option (BinTree α)
  | .node a l r =>
    if (f w p a).2 then ((f w p a).1, none)
    else
      ((prunePathSO f (prunePathSO f (f w p a).1 (p ++ [0]) l).1 (p ++ [1]) r).1,
        some (.node a (prunePathSO f (f w p a).1 (p ++ [0]) l).2
          (prunePathSO f (prunePathSO f (f w p a).1 (p ++ [0]) l).1 (p ++ [1]) r).2))
/-- The same for a slot. -/
def prunePathSO (f : σ → List Nat → α → σ × Bool) (w : σ) (p : List Nat) :
    Option (BinTree α) → σ × Option (BinTree α)
  | none => (w, none)
  | some t => t.prunePathS f w p
end

mutual
/-- Remove every subtree whose root satisfies `f`. -/
def pruneS (f : σ → α → σ × Bool) (w : σ) : BinTree α → σ × Option (BinTree α)
  | .node a l r =>
    if (f w a).2 then ((f w a).1, none)
    else
      ((pruneSO f (pruneSO f (f w a).1 l).1 r).1,
        some (.node a (pruneSO f (f w a).1 l).2 (pruneSO f (pruneSO f (f w a).1 l).1 r).2))
/-- The same for a slot. -/
def pruneSO (f : σ → α → σ × Bool) (w : σ) : Option (BinTree α) → σ × Option (BinTree α)
  | none => (w, none)
  | some t => t.pruneS f w
end

mutual
/-- The tree without the nodes deeper than `d`. -/
def truncate : Nat → BinTree α → BinTree α
  | 0, .node a _ _ => .node a none none
  | d + 1, .node a l r => .node a (truncateO d l) (truncateO d r)
/-- The same for a slot. -/
def truncateO : Nat → Option (BinTree α) → Option (BinTree α)
  | _, none => none
  | d, some t => some (t.truncate d)
end

mutual
/-- Fold bottom-up: left, right, then the node with the results; `f` is given the path of the node, the root being at
`p`. -/
def foldPathS (f : σ → Option β × Option β → List Nat → α → σ × β) (t : σ) (p : List Nat) : BinTree α → σ × β
  | .node a l r =>
    f (foldPathSO f (foldPathSO f t (p ++ [0]) l).1 (p ++ [1]) r).1
      ((foldPathSO f t (p ++ [0]) l).2, (foldPathSO f (foldPathSO f t (p ++ [0]) l).1 (p ++ [1]) r).2) p a
/-- The same for a slot. -/
def foldPathSO (f : σ → Option β × Option β → List Nat → α → σ × β) (t : σ) (p : List Nat) :
    Option (BinTree α) → σ × Option β
  | none => (t, none)
  | some c => ((c.foldPathS f t p).1, some (c.foldPathS f t p).2)
end

mutual
/-- Fold bottom-up: left, right, then the node with the results. -/
def foldS (f : σ → Option β × Option β → α → σ × β) (t : σ) : BinTree α → σ × β
  | .node a l r =>
    f (foldSO f (foldSO f t l).1 r).1 ((foldSO f t l).2, (foldSO f (foldSO f t l).1 r).2) a
/-- The same for a slot. -/
def foldSO (f : σ → Option β × Option β → α → σ × β) (t : σ) : Option (BinTree α) → σ × Option β
  | none => (t, none)
  | some c => ((c.foldS f t).1, some (c.foldS f t).2)
end

/-! ## Paths -/

mutual
/-- The values with their paths, as a general tree; the root is at `p`. -/
def emitted (p : List Nat) : BinTree α → Tree (α × List Nat)
  | .node a l r => .node (a, p) (emittedO (p ++ [0]) l ++ emittedO (p ++ [1]) r)
/-- The trees in a slot. -/
def emittedO (p : List Nat) : Option (BinTree α) → List (Tree (α × List Nat))
  | none => []
  | some t => [t.emitted p]
end

end BinTree

end TreeIter
