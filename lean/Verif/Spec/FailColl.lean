import Verif.Spec.FailPipe
import Verif.Spec.Advance

/-! # Specification of `trees()` and `fold_trees` on collection pipelines whose closures panic -/

universe u v w

namespace TreeIter

/-- `FChain.stepAt`, where a value is given with the depth of its node. -/
def FChain.levelAt {N : Type u} {σ : Type w} {V W : Type v} [SplitNode N V] (bad : N → Bool) (c : FChain σ V W) (w : σ)
    (d : Nat) (n : N) : σ × Option (Option (Nat × W) × Bool) :=
  ((c.stepAt bad w d n).1, (c.stepAt bad w d n).2.map fun x => (x.1.map (Prod.mk d), x.2))

/-- The values that each call takes, given the replies of the pipeline: up to the next root, which is left to the next call, or
up to a panic (`none`), when those taken so far (`g`) are lost. -/
def batches {W : Type v} : List (Nat × W) → List (Option (Nat × W)) → List (Option (List (Nat × W)))
  | [], [] => []
  | x :: g, [] => [some (x :: g)]
  | _, none :: l => none :: batches [] l
  | [], some x :: l => batches [x] l
  | y :: g, some x :: l => if x.1 = 0 then some (y :: g) :: batches [x] l else batches (y :: g ++ [x]) l

/-- The values of a collection with the depths of their nodes, and the panics in between. -/
def FChain.collReplies {N : Type u} {σ : Type w} {V W : Type v} [TreeNode N V] (bad : N → Bool) (c : FChain σ V W) (ns : List N) (w : σ) : List (Option (Nat × W)) :=
  (Tree.repliesL (c.levelAt bad) 0 w (ns.map unfold)).1

end TreeIter
