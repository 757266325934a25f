import Verif.Spec.FailPipe

/-!
# Specification of positions in pipelines whose closures panic
-/

universe u v w x

namespace TreeIter

mutual
/-- Every node with its position, the root at `p`. -/
def Tree.addr {α : Type u} (p : List Nat) : Tree α → Tree (List Nat × α)
  | .node a cs => .node (p, a) (Tree.addrL p 0 cs)
/-- The children of the node at `p`, from number `i` on. -/
def Tree.addrL {α : Type u} (p : List Nat) (i : Nat) : List (Tree α) → List (Tree (List Nat × α))
  | [] => []
  | t :: ts => t.addr (p ++ [i]) :: Tree.addrL p (i + 1) ts
end

mutual
/-- Every node with its position, the root at `p`; left children are `0`, right children are `1`. -/
def BinTree.addr {α : Type u} (p : List Nat) : BinTree α → BinTree (List Nat × α)
  | .node a l r => .node (p, a) (BinTree.addrO (p ++ [0]) l) (BinTree.addrO (p ++ [1]) r)
/-- The same for a slot. -/
def BinTree.addrO {α : Type u} (p : List Nat) : Option (BinTree α) → Option (BinTree (List Nat × α))
  | none => none
  | some t => some (t.addr p)
end

/-- A chain of stages turning values of type `V` into values of type `W`; the closures of the pruning stages are given positions. -/
inductive PChain (σ : Type w) (V : Type v) : Type v → Type (max w (v + 1)) where
  /-- `into_pipeline()` -/
  | source : PChain σ V V
  /-- `.map_tree(f)` -/
  | map {W Z : Type v} (c : PChain σ V W) (f : σ → W → σ × Option Z) : PChain σ V Z
  /-- `.prune_path(f)`; `.prune(f)` if `f` does not look at the position -/
  | prunePath {W : Type v} (c : PChain σ V W) (f : σ → List Nat → W → σ × Option Bool) : PChain σ V W
  /-- `.prune_depth(d)` -/
  | pruneDepth {W : Type v} (c : PChain σ V W) (d : Nat) : PChain σ V W

namespace PChain

/-- What the chain does with a value at depth `d` and position `p`, as `FChain.step`. -/
def step {σ : Type w} {V : Type v} : {W : Type v} → PChain σ V W → σ → Nat → List Nat → V → σ × Option (Option W × Bool)
  | _, source, w, _, _, v => (w, some (some v, true))
  | _, map c f, w, d, p, v =>
    match c.step w d p v with
    | (w', some (some y, below)) => ((f w' y).1, some ((f w' y).2, below))
    | (w', some (none, below)) => (w', some (none, below))
    | (w', none) => (w', none)
  | _, prunePath c f, w, d, p, v =>
    match c.step w d p v with
    | (w', some (some y, below)) =>
      match f w' p y with
      | (w'', none) => (w'', some (none, below))
      | (w'', some true) => (w'', none)
      | (w'', some false) => (w'', some (some y, below))
    | (w', some (none, below)) => (w', some (none, below))
    | (w', none) => (w', none)
  | _, pruneDepth c m, w, d, p, v =>
    match c.step w d p v with
    | (w', some (some y, below)) => (w', some (some y, below && d != m))
    | (w', some (none, below)) => (w', some (none, below))
    | (w', none) => (w', none)

/-- The same for a node with its position, whose value may not be had. -/
def stepAt {N : Type u} {σ : Type w} {V W : Type v} [SplitNode N V] (bad : N → Bool) (c : PChain σ V W) (w : σ) (d : Nat)
    (x : List Nat × N) : σ × Option (Option W × Bool) :=
  if bad x.2 then (w, some (none, false)) else c.step w d x.1 (val x.2)

/-- The chain has no pruning stage with a closure. -/
def exact {σ : Type w} {V : Type v} : {W : Type v} → PChain σ V W → Bool
  | _, source => true
  | _, map c _ => c.exact
  | _, prunePath _ _ => false
  | _, pruneDepth c _ => c.exact

/-- Only the first of the pruning stages with closures looks at positions. -/
def PathsFirst {σ : Type w} {V : Type v} : {W : Type v} → PChain σ V W → Prop
  | _, source => True
  | _, map c _ => c.PathsFirst
  | _, prunePath c f => c.PathsFirst ∧ (c.exact = true ∨ ∀ w p q v, f w p v = f w q v)
  | _, pruneDepth c _ => c.PathsFirst

end PChain

/-- A client that is told the position and the reply after every call (`none` is a panic) and may leave out what is below. -/
def withClient {N : Type u} {W : Type v} {σ : Type w} {τ : Type x} (f : τ → List Nat → Option W → τ × Bool)
    (r : σ → Nat → List Nat × N → σ × Option (Option W × Bool)) (w : σ × τ) (d : Nat) (n : List Nat × N) :
    (σ × τ) × Option (Option W × Bool) :=
  match r w.1 d n with
  | (w', none) => ((w', w.2), none)
  | (w', some (o, below)) => ((w', (f w.2 n.1 o).1), some (o, below && !(f w.2 n.1 o).2))

/-- A client that notes positions and replies, and leaves out what is below if `stop` says so. -/
def noteClient {W : Type v} (stop : Option W → Bool) : List (List Nat × Option W) → List Nat → Option W → List (List Nat × Option W) × Bool :=
  fun t p o => (t ++ [(p, o)], stop o)

mutual
/-- The tree without what is below the nodes with `stop`. -/
def Tree.stopAt {α : Type u} (stop : α → Bool) : Tree α → Tree α
  | .node a cs => .node a (if stop a then [] else Tree.stopAtL stop cs)
/-- The same for a forest. -/
def Tree.stopAtL {α : Type u} (stop : α → Bool) : List (Tree α) → List (Tree α)
  | [] => []
  | t :: ts => t.stopAt stop :: Tree.stopAtL stop ts
end

end TreeIter
