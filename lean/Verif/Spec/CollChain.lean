import Verif.Spec.Chain
import Verif.Spec.Collection

/-! # Specification of chains of stages on collections

On tree number `i` of a collection a chain does what it does on a single tree; only the paths the closures of `prune_path`
are given begin with `i`. -/

universe v w

namespace TreeIter

/-- The chain as it acts on tree number `i`. -/
def Chain.inTree {σ : Type w} {V : Type v} (i : Nat) : {W : Type v} → Chain σ V W → Chain σ V W
  | _, source => source
  | _, map c f => (c.inTree i).map f
  | _, prune c f => (c.inTree i).prune f
  | _, prunePath c f => (c.inTree i).prunePath fun w p y => f w (i :: p) y
  | _, pruneDepth c d => (c.inTree i).pruneDepth d

variable {σ : Type w} {V W : Type v}

/-- What becomes of the trees of a collection, one after another; trees whose root is dropped are left out. -/
def Chain.trees (c : Chain σ V W) (w : σ) (ts : List (Tree V)) : σ × List (Tree W) :=
  eachS (fun w i t => t.runS (c.inTree i).step w []) w 0 ts

/-- The same for binary trees. -/
def Chain.binTrees (c : Chain σ V W) (w : σ) (ts : List (BinTree V)) : σ × List (BinTree W) :=
  eachS (fun w i t => t.runS (c.inTree i).step w []) w 0 ts

/-- The same, with the numbers of the trees in the source. -/
def Chain.numbered (c : Chain σ V W) (w : σ) (ts : List (BinTree V)) : σ × List (Nat × BinTree W) :=
  eachS (fun w i t => ((t.runS (c.inTree i).step w []).1, (t.runS (c.inTree i).step w []).2.map fun b => (i, b))) w 0 ts

/-- The effect of a chain of stages on the root of a tree, and whether it is kept. -/
def Chain.rootS (c : Chain σ V W) (w : σ) (i : Nat) (v : V) : σ × Bool :=
  (((c.inTree i).step w [] v).1, ((c.inTree i).step w [] v).2.isSome)

end TreeIter
