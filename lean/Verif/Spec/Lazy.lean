import Verif.Node

/-!
# Specification of traversals of infinite trees

The tree below a node may be infinite.  It is described by its finite pieces: `cut d n` holds the nodes down to
depth `d`.
-/

universe u v

namespace TreeIter

variable {N : Type u} {V : Type v}

/-- The nodes down to depth `d` below `n`. -/
def cut [SplitNode N V] : Nat → N → Tree N
  | 0, n => .node n []
  | d + 1, n => .node n ((kids n).map (cut d))

/-- The nodes of a binary tree down to depth `d` below `n`. -/
def cut2 [SplitNode2 N V] : Nat → N → BinTree N
  | 0, n => .node n none none
  | d + 1, n => .node n ((split2 n).2.1.map (cut2 d)) ((split2 n).2.2.map (cut2 d))

/-- Every node below `n` has at most `2 ^ 64` children. -/
def DeepArityOk [SplitNode N V] (n : N) : Prop := ∀ d, ∀ m ∈ (cut d n).preorder, (kids m).length ≤ 2 ^ 64

/-- Every node below `n` has fewer than `2 ^ 64` children. -/
def DeepArityLt [SplitNode N V] (n : N) : Prop := ∀ d, ∀ m ∈ (cut d n).preorder, (kids m).length < 2 ^ 64

/-- The node reached from `n` by following the child indexes `p`. -/
def below [SplitNode N V] : N → List Nat → Option N
  | n, [] => some n
  | n, i :: p => (kids n)[i]?.bind fun c => below c p

end TreeIter
