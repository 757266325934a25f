import Verif.Model.Shared

/-!
# Recursive visitors over nodes that share state

What somebody would write who visits the nodes without an iterator: a function that asks a node for its value and children,
goes through the children and calls itself on each, and calls the body for each node on the way.  The relations say from which
world to which world such a function gets if it ends, and whether the body made it stop (`false`).  There is no derivation when
it does not end.
-/

universe u v w x z

namespace TreeIter

namespace Shared

variable {W : Type x} {N : Type u} {V : Type v} {I : Type w}

/-- What the visitor does with a node when it comes to it, and when its children are done.  Both are given the value of the
node and those of its ancestors, the parent first; `leave` is told whether the node had a child. -/
structure Hooks (W : Type x) (V : Type v) where
  enter : V → List V → W → Bool × W
  leave : Bool → V → List V → W → Bool × W

/-- The body before the children. -/
def Hooks.before (body : V → List V → W → Bool × W) : Hooks W V := ⟨body, fun _ _ _ w => (true, w)⟩

/-- The body after the children. -/
def Hooks.after (body : V → List V → W → Bool × W) : Hooks W V := ⟨fun _ _ w => (true, w), fun _ => body⟩

/-- The body for nodes that had no child. -/
def Hooks.childless (body : V → List V → W → Bool × W) : Hooks W V :=
  ⟨fun _ _ w => (true, w), fun had v as w => if had then (true, w) else body v as w⟩

/-- What is to be visited: a node below the given ancestors, or what an iterator over the children of `v` still has to give. -/
inductive Task (N : Type u) (V : Type v) (I : Type w) where
  | node (as : List V) (n : N)
  | rest (v : V) (as : List V) (had : Bool) (i : I)

/-- The recursive visitor. -/
inductive Visit [SharedNode W N V I] (h : Hooks W V) : Task N V I → W → Bool → W → Prop
  /-- `enter` stops it. -/
  | halt {as : List V} {n : N} {v : V} {i : I} {w w1 w2 : W} : splitW n w = (v, i, w1) → h.enter v as w1 = (false, w2) →
      Visit h (.node as n) w false w2
  /-- A node: ask it, `enter`, then its children. -/
  | node {as : List V} {n : N} {v : V} {i : I} {w w1 w2 w3 : W} {b : Bool} : splitW n w = (v, i, w1) →
      h.enter v as w1 = (true, w2) → Visit h (.rest v as false i) w2 b w3 → Visit h (.node as n) w b w3
  /-- No more children: `leave`. -/
  | done {as : List V} {v : V} {had : Bool} {i i' : I} {w w1 w2 : W} {b : Bool} : pollW (N := N) i w = (none, i', w1) →
      h.leave had v as w1 = (b, w2) → Visit h (.rest v as had i) w b w2
  /-- A child below which it is stopped. -/
  | stop {as : List V} {v : V} {had : Bool} {i i' : I} {c : N} {w w1 w2 : W} : pollW i w = (some c, i', w1) →
      Visit h (.node (v :: as) c) w1 false w2 → Visit h (.rest v as had i) w false w2
  /-- A child, and then the others. -/
  | child {as : List V} {v : V} {had : Bool} {i i' : I} {c : N} {w w1 w2 w3 : W} {b : Bool} :
      pollW i w = (some c, i', w1) → Visit h (.node (v :: as) c) w1 true w2 → Visit h (.rest v as true i') w2 b w3 →
      Visit h (.rest v as had i) w b w3

/-- The recursive visitor of binary nodes, in order. -/
inductive VisitIn [SharedBin W N V] (body : Body W V) : Option N → W → Bool → W → Prop
  | absent {w : W} : VisitIn body none w true w
  /-- Stopped in the left subtree. -/
  | left {n : N} {v : V} {l r : Option N} {w w1 w2 : W} : split2W n w = (v, l, r, w1) →
      VisitIn body l w1 false w2 → VisitIn body (some n) w false w2
  /-- Stopped at the node. -/
  | self {n : N} {v : V} {l r : Option N} {w w1 w2 w3 : W} : split2W n w = (v, l, r, w1) →
      VisitIn body l w1 true w2 → body v w2 = (false, w3) → VisitIn body (some n) w false w3
  | right {n : N} {v : V} {l r : Option N} {w w1 w2 w3 w4 : W} {b : Bool} : split2W n w = (v, l, r, w1) →
      VisitIn body l w1 true w2 → body v w2 = (true, w3) → VisitIn body r w3 b w4 → VisitIn body (some n) w b w4

/-- The visitor that goes through the tree level by level: it goes through the iterators over the children of one level and
collects those of the next. -/
inductive VisitLevels [SharedNode W N V I] (body : Body W V) : List I → List I → W → Bool → W → Prop
  | ended {w : W} : VisitLevels body [] [] w true w
  /-- A level is done; the next one has iterators. -/
  | level {j : I} {js : List I} {w w' : W} {b : Bool} : VisitLevels body (j :: js) [] w b w' →
      VisitLevels body [] (j :: js) w b w'
  | done {i i' : I} {is js : List I} {w w1 w' : W} {b : Bool} : pollW (N := N) i w = (none, i', w1) →
      VisitLevels body is js w1 b w' → VisitLevels body (i :: is) js w b w'
  | stop {i i' j : I} {is js : List I} {c : N} {v : V} {w w1 w2 w3 : W} : pollW i w = (some c, i', w1) →
      splitW c w1 = (v, j, w2) → body v w2 = (false, w3) → VisitLevels body (i :: is) js w false w3
  | child {i i' j : I} {is js : List I} {c : N} {v : V} {w w1 w2 w3 w' : W} {b : Bool} : pollW i w = (some c, i', w1) →
      splitW c w1 = (v, j, w2) → body v w2 = (true, w3) → VisitLevels body (i' :: is) (js ++ [j]) w3 b w' →
      VisitLevels body (i :: is) js w b w'

/-- The same from the root. -/
inductive VisitWide [SharedNode W N V I] (body : Body W V) : N → W → Bool → W → Prop
  | halt {n : N} {v : V} {i : I} {w w1 w2 : W} : splitW n w = (v, i, w1) → body v w1 = (false, w2) →
      VisitWide body n w false w2
  | node {n : N} {v : V} {i : I} {w w1 w2 w3 : W} {b : Bool} : splitW n w = (v, i, w1) → body v w1 = (true, w2) →
      VisitLevels (N := N) body [i] [] w2 b w3 → VisitWide body n w b w3

/-- Two nested loops: through the trees of a source, and for each through what `one` visits. -/
inductive VisitAll {C : Type z} (ask : C → W → Option N × C × W) (one : N → W → Bool → W → Prop) :
    C → W → Bool → W → Prop
  | ended {c c' : C} {w w1 : W} : ask c w = (none, c', w1) → VisitAll ask one c w true w1
  | stop {c c' : C} {n : N} {w w1 w2 : W} : ask c w = (some n, c', w1) → one n w1 false w2 → VisitAll ask one c w false w2
  | tree {c c' : C} {n : N} {w w1 w2 w3 : W} {b : Bool} : ask c w = (some n, c', w1) → one n w1 true w2 →
      VisitAll ask one c' w2 b w3 → VisitAll ask one c w b w3

/-- An iterator over children of which the first answer, if it is `some`, is known already. -/
abbrev Started (N : Type u) (I : Type w) := Option (Option N) × I

/-- Ask such an iterator. -/
inductive Ask [SharedNode W N V I] : Started N I → W → Option N → Started N I → W → Prop
  | known {o : Option N} {i : I} {w : W} : Ask (some o, i) w o (none, i) w
  | fresh {o : Option N} {i i' : I} {w w1 : W} : pollW (N := N) i w = (o, i', w1) → Ask (none, i) w o (none, i') w1

/-- The visitor of the leaves level by level: each node is asked for its children when it is met, and at once for the first of
them; the body is called if there is none. -/
inductive VisitLeafLevels [SharedNode W N V I] (body : Body W V) :
    List (Started N I) → List (Started N I) → W → Bool → W → Prop
  | ended {w : W} : VisitLeafLevels body [] [] w true w
  | level {j : Started N I} {js : List (Started N I)} {w w' : W} {b : Bool} : VisitLeafLevels body (j :: js) [] w b w' →
      VisitLeafLevels body [] (j :: js) w b w'
  | done {i i' : Started N I} {is js : List (Started N I)} {w w1 w' : W} {b : Bool} : Ask i w none i' w1 →
      VisitLeafLevels body is js w1 b w' → VisitLeafLevels body (i :: is) js w b w'
  /-- A node that has a child. -/
  | inner {i i' : Started N I} {is js : List (Started N I)} {c d : N} {v : V} {j j' : I} {w w1 w2 w3 w' : W} {b : Bool} :
      Ask i w (some c) i' w1 → splitW c w1 = (v, j, w2) → pollW j w2 = (some d, j', w3) →
      VisitLeafLevels body (i' :: is) (js ++ [(some (some d), j')]) w3 b w' → VisitLeafLevels body (i :: is) js w b w'
  | stop {i i' : Started N I} {is js : List (Started N I)} {c : N} {v : V} {j j' : I} {w w1 w2 w3 w4 : W} :
      Ask i w (some c) i' w1 → splitW c w1 = (v, j, w2) → pollW (N := N) j w2 = (none, j', w3) → body v w3 = (false, w4) →
      VisitLeafLevels body (i :: is) js w false w4
  | leaf {i i' : Started N I} {is js : List (Started N I)} {c : N} {v : V} {j j' : I} {w w1 w2 w3 w4 w' : W} {b : Bool} :
      Ask i w (some c) i' w1 → splitW c w1 = (v, j, w2) → pollW (N := N) j w2 = (none, j', w3) → body v w3 = (true, w4) →
      VisitLeafLevels body (i' :: is) js w4 b w' → VisitLeafLevels body (i :: is) js w b w'

/-- The same from the root. -/
inductive VisitWideLeaves [SharedNode W N V I] (body : Body W V) : N → W → Bool → W → Prop
  | inner {n d : N} {v : V} {j j' : I} {w w1 w2 w' : W} {b : Bool} : splitW n w = (v, j, w1) →
      pollW j w1 = (some d, j', w2) → VisitLeafLevels body [(some (some d), j')] [] w2 b w' → VisitWideLeaves body n w b w'
  | leaf {n : N} {v : V} {j j' : I} {w w1 w2 w' : W} {b : Bool} : splitW n w = (v, j, w1) →
      pollW (N := N) j w1 = (none, j', w2) → body v w2 = (b, w') → VisitWideLeaves body n w b w'

end Shared

end TreeIter
