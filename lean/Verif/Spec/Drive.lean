import Verif.Tree

/-! # Specification of a preorder walk whose client skips subtrees -/

universe u v w

namespace TreeIter

variable {α : Type u} {τ : Type v}

mutual
/-- The nodes met in preorder, each with its path; the root is at `p`.  The client sees every node it meets; if it says
so, what is below the node is left out. -/
def Tree.walkS (f : τ → List Nat → α → τ × Bool) (c : τ) (p : List Nat) : Tree α → τ × List (α × List Nat)
  | .node a cs =>
    if (f c p a).2 then ((f c p a).1, [(a, p)])
    else ((Tree.walkSL f (f c p a).1 p 0 cs).1, (a, p) :: (Tree.walkSL f (f c p a).1 p 0 cs).2)
/-- The same for the children of the node at `p`, from number `i` on. -/
def Tree.walkSL (f : τ → List Nat → α → τ × Bool) (c : τ) (p : List Nat) (i : Nat) :
    List (Tree α) → τ × List (α × List Nat)
  | [] => (c, [])
  | t :: ts =>
    ((Tree.walkSL f (t.walkS f c (p ++ [i])).1 p (i + 1) ts).1,
      (t.walkS f c (p ++ [i])).2 ++ (Tree.walkSL f (t.walkS f c (p ++ [i])).1 p (i + 1) ts).2)
end

mutual
/-- The same for binary trees: left children are `0`, right children are `1`. -/
def BinTree.walkS (f : τ → List Nat → α → τ × Bool) (c : τ) (p : List Nat) : BinTree α → τ × List (α × List Nat)
  | .node a l r =>
    if (f c p a).2 then ((f c p a).1, [(a, p)])
    else
      ((BinTree.walkSO f (BinTree.walkSO f (f c p a).1 (p ++ [0]) l).1 (p ++ [1]) r).1,
        (a, p) :: ((BinTree.walkSO f (f c p a).1 (p ++ [0]) l).2 ++
          (BinTree.walkSO f (BinTree.walkSO f (f c p a).1 (p ++ [0]) l).1 (p ++ [1]) r).2))
/-- The same for a slot. -/
def BinTree.walkSO (f : τ → List Nat → α → τ × Bool) (c : τ) (p : List Nat) :
    Option (BinTree α) → τ × List (α × List Nat)
  | none => (c, [])
  | some t => t.walkS f c p
end

/-- The client's state after the given items. -/
def clientAfter (f : τ → List Nat → α → τ × Bool) (c : τ) (l : List (α × List Nat)) : τ :=
  l.foldl (fun c x => (f c x.2 x.1).1) c

end TreeIter
