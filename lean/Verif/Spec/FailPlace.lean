import Verif.Spec.FailFold
import Verif.Spec.FailPath

/-! # Specification of the ends of collection pipelines that look at the numbers of the children, after panics

A value comes with the depth of its node and with the number of the node among its siblings (for a root: among the trees).  The
values are arranged as in `Spec/FailFold`, by their depths; what a closure is told to be the position of a node is made of the
numbers on the way to it in that arrangement. -/

universe u v w

namespace TreeIter

variable {W : Type u} {O : Type v} {τ : Type w}

mutual
/-- Numbers become positions, below `p`. -/
def Tree.place (p : List Nat) : Tree (Nat × W) → Tree (List Nat × W)
  | .node x cs => .node (p ++ [x.1], x.2) (Tree.placeL (p ++ [x.1]) cs)
/-- The same for a list of trees. -/
def Tree.placeL (p : List Nat) : List (Tree (Nat × W)) → List (Tree (List Nat × W))
  | [] => []
  | t :: ts => t.place p :: Tree.placeL p ts
end

/-- The tree of the values, with the positions in it. -/
def regroupAt (g : List (Nat × Nat × W)) : Option (Tree (List Nat × W)) := (regroup g).map (Tree.place [])

/-- As `foldAnswers`, with positions. -/
def placeAnswers (f : τ → List O → List Nat × W → τ × Option O) :
    τ → List (Nat × Nat × W) → List (Option (Nat × Nat × W)) → List (Option O)
  | t, g, [] => ((regroupAt g).map fun s => (s.foldF f t).2).toList
  | t, g, none :: l => none :: placeAnswers f (((regroupAt g).map fun s => (s.foldDone f g.length t).1).getD t) [] l
  | t, g, some x :: l =>
    match regroupAt g with
    | none => placeAnswers f t [x] l
    | some s =>
      match s.foldDone f x.1 t with
      | (t', false) => none :: placeAnswers f t' [] l
      | (t', true) =>
        if x.1 = 0 then (s.foldF f t).2 :: placeAnswers f t' [x] l else placeAnswers f t (g ++ [x]) l

/-- The last of the results with number `i`. -/
def lastOf (i : Nat) (os : List (Nat × O)) : Option O := ((os.filter fun x => x.1 == i).getLast?).map Prod.snd

/-- A closure for binary trees: of the results of the children, the last one from a left child and the last one from a right child
are given to it.  Its own result goes up with its number. -/
def slotClosure (f : τ → Option O × Option O → List Nat → W → τ × Option O) (t : τ) (os : List (Nat × O)) (x : List Nat × W) :
    τ × Option (Nat × O) :=
  ((f t (lastOf 0 os, lastOf 1 os) x.1 x.2).1,
    (f t (lastOf 0 os, lastOf 1 os) x.1 x.2).2.map (Prod.mk (x.1.getLast?.getD 0)))

mutual
/-- A binary tree from a tree with numbers: the last child with number 0 is the left one, the last child with number 1 is the right
one. -/
def Tree.toSlots : Tree (Nat × W) → Nat × BinTree W
  | .node x cs => (x.1, .node x.2 (lastOf 0 (Tree.toSlotsL cs)) (lastOf 1 (Tree.toSlotsL cs)))
/-- The same for a list of trees. -/
def Tree.toSlotsL : List (Tree (Nat × W)) → List (Nat × BinTree W)
  | [] => []
  | t :: ts => t.toSlots :: Tree.toSlotsL ts
end

/-- `PChain.stepAt`, where a value is given with the depth of its node and the last number of its position. -/
def PChain.placeAt {N : Type u} {σ : Type w} {V W : Type v} [SplitNode N V] (bad : N → Bool) (c : PChain σ V W) (w : σ)
    (d : Nat) (x : List Nat × N) : σ × Option (Option (Nat × Nat × W) × Bool) :=
  ((c.stepAt bad w d x).1, (c.stepAt bad w d x).2.map fun y => (y.1.map fun v => (d, x.1.getLast?.getD 0, v), y.2))

/-- The values of a collection, and the panics in between. -/
def PChain.collReplies {N : Type u} {σ : Type w} {V W : Type v} [TreeNode N V] (bad : N → Bool) (c : PChain σ V W) (ns : List N)
    (w : σ) : List (Option (Nat × Nat × W)) :=
  (Tree.repliesL (c.placeAt bad) 0 w (Tree.addrL [] 0 (ns.map unfold))).1

/-- The values of a collection of binary trees, and the panics in between. -/
def PChain.binCollReplies {N : Type u} {σ : Type w} {V W : Type v} [BinNode N V] (bad : N → Bool) (c : PChain σ V W) (ns : List N)
    (w : σ) : List (Option (Nat × Nat × W)) :=
  (Tree.repliesL (c.placeAt bad) 0 w (ns.zipIdx.map fun x => ((unfold2 x.1).addr [x.2]).toTree)).1

end TreeIter
