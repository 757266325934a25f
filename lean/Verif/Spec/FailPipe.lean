import Verif.Node

/-!
# Specification of pipelines whose closures panic

A closure is a function on a world, as in `Spec/Chain`; its result is `none` if it panics, after it has changed the world.  The
caller catches the panic and goes on.  `bad` tells for which nodes the user's `get_value_and_children` panics.
-/

universe u v w

namespace TreeIter

/-- A chain of stages turning values of type `V` into values of type `W`; the closures share the state `σ`. -/
inductive FChain (σ : Type w) (V : Type v) : Type v → Type (max w (v + 1)) where
  /-- `into_pipeline()` -/
  | source : FChain σ V V
  /-- `.map_tree(f)` -/
  | map {W Z : Type v} (c : FChain σ V W) (f : σ → W → σ × Option Z) : FChain σ V Z
  /-- `.prune(f)` -/
  | prune {W : Type v} (c : FChain σ V W) (f : σ → W → σ × Option Bool) : FChain σ V W
  /-- `.prune_depth(d)` -/
  | pruneDepth {W : Type v} (c : FChain σ V W) (d : Nat) : FChain σ V W

namespace FChain

/-- What the chain does with a value at depth `d`: drop it with all that is below (`none`), or make a call answer or panic
(`some (none, _)`), and go on below it or not. -/
def step {σ : Type w} {V : Type v} : {W : Type v} → FChain σ V W → σ → Nat → V → σ × Option (Option W × Bool)
  | _, source, w, _, v => (w, some (some v, true))
  | _, map c f, w, d, v =>
    match c.step w d v with
    | (w', some (some y, below)) => ((f w' y).1, some ((f w' y).2, below))
    | (w', some (none, below)) => (w', some (none, below))
    | (w', none) => (w', none)
  | _, prune c f, w, d, v =>
    match c.step w d v with
    | (w', some (some y, below)) =>
      match f w' y with
      | (w'', none) => (w'', some (none, below))
      | (w'', some true) => (w'', none)
      | (w'', some false) => (w'', some (some y, below))
    | (w', some (none, below)) => (w', some (none, below))
    | (w', none) => (w', none)
  | _, pruneDepth c m, w, d, v =>
    match c.step w d v with
    | (w', some (some y, below)) => (w', some (some y, below && d != m))
    | (w', some (none, below)) => (w', some (none, below))
    | (w', none) => (w', none)

/-- The same for a node, whose value may not be had. -/
def stepAt {N : Type u} {σ : Type w} {V W : Type v} [SplitNode N V] (bad : N → Bool) (c : FChain σ V W) (w : σ) (d : Nat)
    (n : N) : σ × Option (Option W × Bool) :=
  if bad n then (w, some (none, false)) else c.step w d (val n)

/-- No closure of the chain ever panics. -/
def Total {σ : Type w} {V : Type v} : {W : Type v} → FChain σ V W → Prop
  | _, source => True
  | _, map c f => c.Total ∧ ∀ w y, (f w y).2 ≠ none
  | _, prune c f => c.Total ∧ ∀ w y, (f w y).2 ≠ none
  | _, pruneDepth c _ => c.Total

/-- The chain has a stage `.prune_depth(m)`, and no closure of the stages before it ever panics. -/
def Limits (m : Nat) {σ : Type w} {V : Type v} : {W : Type v} → FChain σ V W → Prop
  | _, source => False
  | _, map c _ => c.Limits m
  | _, prune c _ => c.Limits m
  | _, pruneDepth c k => (k = m ∧ c.Total) ∨ c.Limits m

end FChain

mutual
/-- The tree down to `m` levels below its root. -/
def Tree.top {α : Type u} : Nat → Tree α → Tree α
  | 0, .node a _ => .node a []
  | m + 1, .node a cs => .node a (Tree.topL m cs)
/-- The same for every tree of a forest. -/
def Tree.topL {α : Type u} : Nat → List (Tree α) → List (Tree α)
  | _, [] => []
  | m, t :: ts => t.top m :: Tree.topL m ts
end

section
variable {N : Type u} {σ : Type w} {W : Type v}

mutual
/-- The replies of the calls for a tree at depth `d`, where `r` tells what is done with a node. -/
def Tree.replies (r : σ → Nat → N → σ × Option (Option W × Bool)) (d : Nat) (w : σ) : Tree N → List (Option W) × σ
  | .node n cs =>
    match r w d n with
    | (w', none) => ([], w')
    | (w', some (o, false)) => ([o], w')
    | (w', some (o, true)) => (o :: (Tree.repliesL r (d + 1) w' cs).1, (Tree.repliesL r (d + 1) w' cs).2)
/-- The same for a forest. -/
def Tree.repliesL (r : σ → Nat → N → σ × Option (Option W × Bool)) (d : Nat) (w : σ) : List (Tree N) → List (Option W) × σ
  | [] => ([], w)
  | t :: ts => ((t.replies r d w).1 ++ (Tree.repliesL r d (t.replies r d w).2 ts).1,
      (Tree.repliesL r d (t.replies r d w).2 ts).2)
end

end

end TreeIter
