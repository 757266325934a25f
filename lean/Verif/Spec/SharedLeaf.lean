import Verif.Model.SharedLeaf
import Verif.Spec.Shared

/-!
# The visitor of the leaves level by level that knows the ancestors of each node
-/

universe u v w x

namespace TreeIter

namespace Shared

variable {W : Type x} {N : Type u} {V : Type v} {I : Type w}

/-- As `VisitLeafLevels`, with the values from the root to the node whose children an iterator gives.  The iterator of a leaf stays in
its level; that it has no child is known. -/
inductive VisitLeafLevelsAnc [SharedNode W N V I] (body : Body W (List V)) :
    List (List V × Started N I) → List (List V × Started N I) → W → Ending W → Prop
  | ended {w : W} : VisitLeafLevelsAnc body [] [] w (.ended w)
  | level {j : List V × Started N I} {js : List (List V × Started N I)} {w : W} {e : Ending W} :
      VisitLeafLevelsAnc body (j :: js) [] w e → VisitLeafLevelsAnc body [] (j :: js) w e
  | done {as : List V} {i i' : Started N I} {is js : List (List V × Started N I)} {w w1 : W} {e : Ending W} :
      Ask i w none i' w1 → VisitLeafLevelsAnc body is js w1 e → VisitLeafLevelsAnc body ((as, i) :: is) js w e
  /-- A node that has a child. -/
  | inner {as : List V} {i i' : Started N I} {is js : List (List V × Started N I)} {c d : N} {v : V} {j j' : I}
      {w w1 w2 w3 : W} {e : Ending W} : Ask i w (some c) i' w1 → splitW c w1 = (v, j, w2) → pollW j w2 = (some d, j', w3) →
      VisitLeafLevelsAnc body ((as, i') :: is) (js ++ [(as ++ [v], (some (some d), j'))]) w3 e →
      VisitLeafLevelsAnc body ((as, i) :: is) js w e
  | stop {as : List V} {i i' : Started N I} {is js : List (List V × Started N I)} {c : N} {v : V} {j j' : I}
      {w w1 w2 w3 w4 : W} : Ask i w (some c) i' w1 → splitW c w1 = (v, j, w2) → pollW (N := N) j w2 = (none, j', w3) →
      body (as ++ [v]) w3 = (false, w4) → VisitLeafLevelsAnc body ((as, i) :: is) js w (.broke w4)
  | leaf {as : List V} {i i' : Started N I} {is js : List (List V × Started N I)} {c : N} {v : V} {j j' : I}
      {w w1 w2 w3 w4 : W} {e : Ending W} : Ask i w (some c) i' w1 → splitW c w1 = (v, j, w2) →
      pollW (N := N) j w2 = (none, j', w3) → body (as ++ [v]) w3 = (true, w4) →
      VisitLeafLevelsAnc body ((as, i') :: is) (js ++ [(as ++ [v], (some none, j'))]) w4 e →
      VisitLeafLevelsAnc body ((as, i) :: is) js w e

/-- The same from the root.  If the root turns out to have no child, then the body is called, and after it the iterator of the root is
asked once more: this is what the code does (C50). -/
inductive VisitWideLeavesAnc [SharedNode W N V I] (body : Body W (List V)) : N → W → Ending W → Prop
  | inner {n d : N} {v : V} {j j' : I} {w w1 w2 : W} {e : Ending W} : splitW n w = (v, j, w1) →
      pollW j w1 = (some d, j', w2) → VisitLeafLevelsAnc body [([v], (some (some d), j'))] [] w2 e →
      VisitWideLeavesAnc body n w e
  | stop {n : N} {v : V} {j j' : I} {w w1 w2 w3 : W} : splitW n w = (v, j, w1) → pollW (N := N) j w1 = (none, j', w2) →
      body [v] w2 = (false, w3) → VisitWideLeavesAnc body n w (.broke w3)
  | leaf {n : N} {v : V} {j j' : I} {w w1 w2 w3 : W} {e : Ending W} : splitW n w = (v, j, w1) →
      pollW (N := N) j w1 = (none, j', w2) → body [v] w2 = (true, w3) →
      VisitLeafLevelsAnc (N := N) body [([v], (none, j'))] [] w3 e → VisitWideLeavesAnc body n w e

end Shared

end TreeIter
