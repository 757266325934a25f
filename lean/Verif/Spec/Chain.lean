import Verif.Spec.Pipeline

/-! # Specification of chains of stages

A chain is what is written after `into_pipeline()`.  What it does with a node does not depend on how the stages are
implemented: the stages see the node one after another, until one of them drops it. -/

universe u v w x y

namespace TreeIter

/-- A chain of stages turning values of type `V` into values of type `W`; the closures share the state `σ`. -/
inductive Chain (σ : Type w) (V : Type v) : Type v → Type (max w (v + 1)) where
  /-- `into_pipeline()` -/
  | source : Chain σ V V
  /-- `.map_tree(f)` -/
  | map {W Z : Type v} (c : Chain σ V W) (f : σ → W → σ × Z) : Chain σ V Z
  /-- `.prune(f)` -/
  | prune {W : Type v} (c : Chain σ V W) (f : σ → W → σ × Bool) : Chain σ V W
  /-- `.prune_path(f)` -/
  | prunePath {W : Type v} (c : Chain σ V W) (f : σ → List Nat → W → σ × Bool) : Chain σ V W
  /-- `.prune_depth(d)` -/
  | pruneDepth {W : Type v} (c : Chain σ V W) (d : Nat) : Chain σ V W

namespace Chain
variable {σ : Type w} {V W : Type v}

/-- What the chain does with the node at path `p` of the source: drop it with all that is below, or emit an item, and go
on below it or not. -/
def step {σ : Type w} {V : Type v} : {W : Type v} → Chain σ V W → σ → List Nat → V → σ × Option (W × Bool)
  | _, source, w, _, v => (w, some (v, true))
  | _, map c f, w, p, v =>
    match c.step w p v with
    | (w', none) => (w', none)
    | (w', some (y, below)) => ((f w' y).1, some ((f w' y).2, below))
  | _, prune c f, w, p, v =>
    match c.step w p v with
    | (w', none) => (w', none)
    | (w', some (y, below)) => ((f w' y).1, if (f w' y).2 then none else some (y, below))
  | _, prunePath c f, w, p, v =>
    match c.step w p v with
    | (w', none) => (w', none)
    | (w', some (y, below)) => ((f w' p y).1, if (f w' p y).2 then none else some (y, below))
  | _, pruneDepth c d, w, p, v =>
    match c.step w p v with
    | (w', none) => (w', none)
    | (w', some (y, below)) => (w', some (y, below && p.length != d))

/-- No stage drops nodes by a closure. -/
def keepsAll {σ : Type w} {V : Type v} : {W : Type v} → Chain σ V W → Bool
  | _, source => true
  | _, map c _ => c.keepsAll
  | _, prune _ _ => false
  | _, prunePath _ _ => false
  | _, pruneDepth c _ => c.keepsAll

/-- No stage uses paths. -/
def noPaths {σ : Type w} {V : Type v} : {W : Type v} → Chain σ V W → Bool
  | _, source => true
  | _, map c _ => c.noPaths
  | _, prune c _ => c.noPaths
  | _, prunePath _ _ => false
  | _, pruneDepth c _ => c.noPaths

/-- Every `prune_path` comes before any other stage that drops nodes by a closure. -/
def pathsFirst {σ : Type w} {V : Type v} : {W : Type v} → Chain σ V W → Bool
  | _, source => true
  | _, map c _ => c.pathsFirst
  | _, prune c _ => c.pathsFirst
  | _, prunePath c _ => c.keepsAll
  | _, pruneDepth c _ => c.pathsFirst

/-- One of the stages is `prune_depth(d)`. -/
def cutsAt {σ : Type w} {V : Type v} (d : Nat) : {W : Type v} → Chain σ V W → Bool
  | _, source => false
  | _, map c _ => c.cutsAt d
  | _, prune c _ => c.cutsAt d
  | _, prunePath c _ => c.cutsAt d
  | _, pruneDepth c m => m == d || c.cutsAt d

/-- The closures do not use the state. -/
def Stateless {σ : Type w} {V : Type v} : {W : Type v} → Chain σ V W → Prop
  | _, source => True
  | _, map c f => c.Stateless ∧ ∀ w y w', f w y = (w, (f w' y).2)
  | _, prune c f => c.Stateless ∧ ∀ w y w', f w y = (w, (f w' y).2)
  | _, prunePath c f => c.Stateless ∧ ∀ w p y w', f w p y = (w, (f w' p y).2)
  | _, pruneDepth c _ => c.Stateless

end Chain

namespace Tree
variable {α : Type u} {β : Type v} {σ : Type w}

mutual
/-- Rebuild a tree from what becomes of its nodes, in preorder; the root is at `p`. -/
def runS (step : σ → List Nat → α → σ × Option (β × Bool)) (w : σ) (p : List Nat) : Tree α → σ × Option (Tree β)
  | .node a cs =>
    match step w p a with
    | (w', none) => (w', none)
    | (w', some (b, false)) => (w', some (.node b []))
    | (w', some (b, true)) => ((runSL step w' p 0 cs).1, some (.node b (runSL step w' p 0 cs).2))
/-- The same for the children of the node at `p`, from number `i` on. -/
def runSL (step : σ → List Nat → α → σ × Option (β × Bool)) (w : σ) (p : List Nat) (i : Nat) :
    List (Tree α) → σ × List (Tree β)
  | [] => (w, [])
  | t :: ts =>
    ((runSL step (t.runS step w (p ++ [i])).1 p (i + 1) ts).1,
      (t.runS step w (p ++ [i])).2.toList ++ (runSL step (t.runS step w (p ++ [i])).1 p (i + 1) ts).2)
end

end Tree

namespace BinTree
variable {α : Type u} {β : Type v} {σ : Type w}

mutual
/-- Rebuild a binary tree from what becomes of its nodes, in preorder; the root is at `p`. -/
def runS (step : σ → List Nat → α → σ × Option (β × Bool)) (w : σ) (p : List Nat) :
    BinTree α → σ × Option (BinTree β)
  | .node a l r =>
    match step w p a with
    | (w', none) => (w', none)
    | (w', some (b, false)) => (w', some (.node b none none))
    | (w', some (b, true)) =>
      ((runSO step (runSO step w' (p ++ [0]) l).1 (p ++ [1]) r).1,
        some (.node b (runSO step w' (p ++ [0]) l).2 (runSO step (runSO step w' (p ++ [0]) l).1 (p ++ [1]) r).2))
/-- The same for a slot. -/
def runSO (step : σ → List Nat → α → σ × Option (β × Bool)) (w : σ) (p : List Nat) :
    Option (BinTree α) → σ × Option (BinTree β)
  | none => (w, none)
  | some t => t.runS step w p
end

end BinTree

end TreeIter
