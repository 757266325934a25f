import Verif.Model.SharedPost
import Verif.Spec.SharedCtx

/-!
# A recursive visitor that calls the body after the children, with path and ancestors
-/

universe u v w x y

namespace TreeIter

namespace Shared

variable {W : Type x} {N : Type u} {V : Type v} {C : Type y} {I : Type w}

/-- What is to be visited: a node, or the rest of the children `c` of the node with the given path, `k` slots of which have been
seen. -/
inductive PostTask (N : Type u) (C : Type y) (I : Type w) where
  | node (path : List Nat) (n : N)
  | rest (path : List Nat) (c : C) (k : Nat) (i : I)

/-- The visitor.  While the rest of the children of a node is visited, the ancestors begin with the value of the node itself. -/
inductive VisitPost [CtxNode W N V C I] (keep : Bool) (body : PostBody W V C) :
    PostTask N C I → List V → W → Outcome W V → Prop
  | node {path : List Nat} {n : N} {as : List V} {v : V} {c : C} {i : I} {w w1 w2 : W} {e : Outcome W V} :
      splitC n w = (v, c, w1) → intoC (N := N) c w1 = (i, w2) → VisitPost keep body (.rest path c 0 i) (v :: as) w2 e →
      VisitPost keep body (.node path n) as w e
  /-- No more children: the body, which stops the visit. -/
  | halt {path : List Nat} {c : C} {k : Nat} {i i' : I} {as as1 : List V} {ch : Option C} {w w1 w2 : W} :
      pollC (N := N) i w = (none, i', w1) →
      body path.reverse as.reverse (if keep then some c else none) w1 = (false, as1, ch, w2) →
      VisitPost keep body (.rest path c k i) as w (.broke w2)
  /-- No more children: the body; then the node is no longer among the ancestors. -/
  | done {path : List Nat} {c : C} {k : Nat} {i i' : I} {as as1 : List V} {ch : Option C} {w w1 w2 : W} :
      pollC (N := N) i w = (none, i', w1) →
      body path.reverse as.reverse (if keep then some c else none) w1 = (true, as1, ch, w2) →
      VisitPost keep body (.rest path c k i) as w (.through as1.reverse.tail w2)
  /-- An empty slot. -/
  | empty {path : List Nat} {c : C} {k : Nat} {i i' : I} {as : List V} {w w1 : W} {e : Outcome W V} :
      pollC (N := N) i w = (some none, i', w1) → VisitPost keep body (.rest path c (k + 1) i') as w1 e →
      VisitPost keep body (.rest path c k i) as w e
  | stop {path : List Nat} {c : C} {k : Nat} {i i' : I} {d : N} {as : List V} {w w1 w2 : W} :
      pollC i w = (some (some d), i', w1) → VisitPost keep body (.node (k % 2 ^ 64 :: path) d) as w1 (.broke w2) →
      VisitPost keep body (.rest path c k i) as w (.broke w2)
  | child {path : List Nat} {c : C} {k : Nat} {i i' : I} {d : N} {as as1 : List V} {w w1 w2 : W} {e : Outcome W V} :
      pollC i w = (some (some d), i', w1) → VisitPost keep body (.node (k % 2 ^ 64 :: path) d) as w1 (.through as1 w2) →
      VisitPost keep body (.rest path c (k + 1) i') as1 w2 e → VisitPost keep body (.rest path c k i) as w e

/-- The visit of a tree. -/
def VisitTreePost [CtxNode W N V C I] (keep : Bool) (body : PostBody W V C) (n : N) (w : W) : Ending W → Prop
  | .panicked => False
  | .broke w' => VisitPost keep body (.node [] n) [] w (.broke w')
  | .ended w' => ∃ as, VisitPost keep body (.node [] n) [] w (.through as w')

end Shared

end TreeIter
