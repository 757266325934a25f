import Verif.Spec.FailColl

/-! # Specification of `fold_trees` whose own closure panics -/

universe u v w

namespace TreeIter

variable {W : Type u} {O : Type v} {τ : Type w}

mutual
/-- The fold of a tree with a closure that may panic (`none`); the state of the closure goes from node to node, children first. -/
def Tree.foldF (f : τ → List O → W → τ × Option O) (t : τ) : Tree W → τ × Option O
  | .node a cs =>
    match Tree.foldFL f t cs with
    | (t', none) => (t', none)
    | (t', some os) => f t' os a
/-- The same for a list of trees. -/
def Tree.foldFL (f : τ → List O → W → τ × Option O) (t : τ) : List (Tree W) → τ × Option (List O)
  | [] => (t, some [])
  | c :: cs =>
    match c.foldF f t with
    | (t', none) => (t', none)
    | (t', some o) => ((Tree.foldFL f t' cs).1, (Tree.foldFL f t' cs).2.map (o :: ·))
end

mutual
/-- The fold of all that is known to be complete when a value at depth `d` comes next: all but the last node of each depth below
`d`.  `false` if the closure panics. -/
def Tree.foldDone (f : τ → List O → W → τ × Option O) : Nat → τ → Tree W → τ × Bool
  | 0, t, s => ((s.foldF f t).1, (s.foldF f t).2.isSome)
  | d + 1, t, .node _ cs => Tree.foldDoneL f d t cs
/-- The same for a list of trees, the last of which may be incomplete. -/
def Tree.foldDoneL (f : τ → List O → W → τ × Option O) : Nat → τ → List (Tree W) → τ × Bool
  | _, t, [] => (t, true)
  | d, t, [c] => c.foldDone f d t
  | d, t, c :: c' :: cs =>
    match c.foldF f t with
    | (t', none) => (t', false)
    | (t', some _) => Tree.foldDoneL f d t' (c' :: cs)
end

/-- The answers of the calls, given the replies of the pipeline.  `g` are the values taken since the last answer.  When a value
comes, the closure is called for the nodes that it shows to be complete; if the closure panics, the value is lost together with
`g`. -/
def foldAnswers (f : τ → List O → W → τ × Option O) : τ → List (Nat × W) → List (Option (Nat × W)) → List (Option O)
  | t, g, [] => ((regroup g).map fun s => (s.foldF f t).2).toList
  | t, g, none :: l => none :: foldAnswers f (((regroup g).map fun s => (s.foldDone f g.length t).1).getD t) [] l
  | t, g, some x :: l =>
    match regroup g with
    | none => foldAnswers f t [x] l
    | some s =>
      match s.foldDone f x.1 t with
      | (t', false) => none :: foldAnswers f t' [] l
      | (t', true) =>
        if x.1 = 0 then (s.foldF f t).2 :: foldAnswers f t' [x] l else foldAnswers f t (g ++ [x]) l

end TreeIter
