import Verif.Model.SharedCtx

/-!
# A recursive visitor that keeps track of path and ancestors

It holds the ancestors in a variable which the body may write to, counts the children it takes, and goes through the children
that the body leaves behind.  Indices are shown modulo `2 ^ 64`.
-/

universe u v w x y

namespace TreeIter

namespace Shared

variable {W : Type x} {N : Type u} {V : Type v} {C : Type y} {I : Type w}

/-- What is to be visited: a node, or the rest of the children of the node with the given path, `k` slots of which have been
seen.  Paths have the last index first. -/
inductive CtxTask (N : Type u) (I : Type w) where
  | node (path : List Nat) (n : N)
  | rest (path : List Nat) (k : Nat) (i : I)

/-- The body has stopped the visit, or it has got through; then the ancestors, the parent first, are as given. -/
inductive Outcome (W : Type x) (V : Type v) where
  | broke (w : W)
  | through (as : List V) (w : W)

/-- The visitor. -/
inductive VisitCtx [CtxNode W N V C I] (body : CtxBody W V C) : CtxTask N I → List V → W → Outcome W V → Prop
  /-- The body stops it. -/
  | halt {path : List Nat} {n : N} {as as1 : List V} {v : V} {c c1 : C} {w w1 w2 : W} : splitC n w = (v, c, w1) →
      body path.reverse (v :: as).reverse c w1 = (false, as1, c1, w2) → VisitCtx body (.node path n) as w (.broke w2)
  /-- The children are those that the body has left. -/
  | node {path : List Nat} {n : N} {as as1 : List V} {v : V} {c c1 : C} {i : I} {w w1 w2 w3 : W} {e : Outcome W V} :
      splitC n w = (v, c, w1) → body path.reverse (v :: as).reverse c w1 = (true, as1, c1, w2) →
      intoC (N := N) c1 w2 = (i, w3) → VisitCtx body (.rest path 0 i) as1.reverse w3 e → VisitCtx body (.node path n) as w e
  /-- No more children: the node is no longer among the ancestors. -/
  | done {path : List Nat} {k : Nat} {i i' : I} {as : List V} {w w1 : W} : pollC (N := N) i w = (none, i', w1) →
      VisitCtx body (.rest path k i) as w (.through as.tail w1)
  /-- An empty slot. -/
  | empty {path : List Nat} {k : Nat} {i i' : I} {as : List V} {w w1 : W} {e : Outcome W V} :
      pollC (N := N) i w = (some none, i', w1) → VisitCtx body (.rest path (k + 1) i') as w1 e →
      VisitCtx body (.rest path k i) as w e
  | stop {path : List Nat} {k : Nat} {i i' : I} {d : N} {as : List V} {w w1 w2 : W} :
      pollC i w = (some (some d), i', w1) → VisitCtx body (.node (k % 2 ^ 64 :: path) d) as w1 (.broke w2) →
      VisitCtx body (.rest path k i) as w (.broke w2)
  | child {path : List Nat} {k : Nat} {i i' : I} {d : N} {as as1 : List V} {w w1 w2 : W} {e : Outcome W V} :
      pollC i w = (some (some d), i', w1) → VisitCtx body (.node (k % 2 ^ 64 :: path) d) as w1 (.through as1 w2) →
      VisitCtx body (.rest path (k + 1) i') as1 w2 e → VisitCtx body (.rest path k i) as w e

/-- The visit of a tree. -/
def VisitTreeCtx [CtxNode W N V C I] (body : CtxBody W V C) (n : N) (w : W) : Ending W → Prop
  | .panicked => False
  | .broke w' => VisitCtx body (.node [] n) [] w (.broke w')
  | .ended w' => ∃ as, VisitCtx body (.node [] n) [] w (.through as w')

end Shared

end TreeIter
