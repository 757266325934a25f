import Verif.Model.SharedWide

/-!
# Visitors that go level by level and know the ancestors of each node
-/

universe u v w x y

namespace TreeIter

namespace Shared

variable {W : Type x} {N : Type u} {V : Type v} {C : Type y} {I : Type w}

/-- The visitor goes through the iterators over the children of one level and collects those of the next, each with the values from
the root to the node whose children they are. -/
inductive VisitLevelsAnc (N : Type u) [SharedNode W N V I] (body : Body W (List V)) :
    List (List V × I) → List (List V × I) → W → Ending W → Prop
  | ended {w : W} : VisitLevelsAnc N body [] [] w (.ended w)
  /-- A level is done; the next one has iterators. -/
  | level {j : List V × I} {js : List (List V × I)} {w : W} {e : Ending W} : VisitLevelsAnc N body (j :: js) [] w e →
      VisitLevelsAnc N body [] (j :: js) w e
  | done {as : List V} {i i' : I} {is js : List (List V × I)} {w w1 : W} {e : Ending W} :
      pollW (N := N) i w = (none, i', w1) → VisitLevelsAnc N body is js w1 e →
      VisitLevelsAnc N body ((as, i) :: is) js w e
  | stop {as : List V} {i i' j : I} {is js : List (List V × I)} {c : N} {v : V} {w w1 w2 w3 : W} :
      pollW i w = (some c, i', w1) → splitW c w1 = (v, j, w2) → body (as ++ [v]) w2 = (false, w3) →
      VisitLevelsAnc N body ((as, i) :: is) js w (.broke w3)
  | child {as : List V} {i i' j : I} {is js : List (List V × I)} {c : N} {v : V} {w w1 w2 w3 : W} {e : Ending W} :
      pollW i w = (some c, i', w1) → splitW c w1 = (v, j, w2) → body (as ++ [v]) w2 = (true, w3) →
      VisitLevelsAnc N body ((as, i') :: is) (js ++ [(as ++ [v], j)]) w3 e →
      VisitLevelsAnc N body ((as, i) :: is) js w e

/-- The same from the root. -/
inductive VisitWideAnc [SharedNode W N V I] (body : Body W (List V)) : N → W → Ending W → Prop
  | halt {n : N} {v : V} {i : I} {w w1 w2 : W} : splitW n w = (v, i, w1) → body [v] w1 = (false, w2) →
      VisitWideAnc body n w (.broke w2)
  | node {n : N} {v : V} {i : I} {w w1 w2 : W} {e : Ending W} : splitW n w = (v, i, w1) → body [v] w1 = (true, w2) →
      VisitLevelsAnc N body [([v], i)] [] w2 e → VisitWideAnc body n w e

/-- An iterator over children, with path and values of the node whose children they are, and the number of slots seen. -/
structure Below (V : Type v) (I : Type w) where
  path : List Nat
  anc : List V
  seen : Nat
  iter : I

/-- The visitor with paths.  After the body the children that it leaves behind are made an iterator.  A counter that comes to
`usize::MAX` cannot be raised. -/
inductive VisitLevelsCtx (N : Type u) [CtxNode W N V C I] (body : WideBody W V C) :
    List (Below V I) → List (Below V I) → W → Ending W → Prop
  | ended {w : W} : VisitLevelsCtx N body [] [] w (.ended w)
  | level {j : Below V I} {js : List (Below V I)} {w : W} {e : Ending W} : VisitLevelsCtx N body (j :: js) [] w e →
      VisitLevelsCtx N body [] (j :: js) w e
  | done {p : List Nat} {as : List V} {k : Nat} {i i' : I} {is js : List (Below V I)} {w w1 : W} {e : Ending W} :
      pollC (N := N) i w = (none, i', w1) → VisitLevelsCtx N body is js w1 e →
      VisitLevelsCtx N body (⟨p, as, k, i⟩ :: is) js w e
  | overflow {p : List Nat} {as : List V} {k : Nat} {i i' : I} {o : Option N} {is js : List (Below V I)} {w w1 : W} :
      pollC i w = (some o, i', w1) → 2 ^ 64 ≤ k + 1 → VisitLevelsCtx N body (⟨p, as, k, i⟩ :: is) js w .panicked
  | empty {p : List Nat} {as : List V} {k : Nat} {i i' : I} {is js : List (Below V I)} {w w1 : W} {e : Ending W} :
      pollC (N := N) i w = (some none, i', w1) → k + 1 < 2 ^ 64 → VisitLevelsCtx N body (⟨p, as, k + 1, i'⟩ :: is) js w1 e →
      VisitLevelsCtx N body (⟨p, as, k, i⟩ :: is) js w e
  | stop {p : List Nat} {as : List V} {k : Nat} {i i' : I} {is js : List (Below V I)} {d : N} {v : V} {c c1 : C}
      {w w1 w2 w3 : W} : pollC i w = (some (some d), i', w1) → k + 1 < 2 ^ 64 → splitC d w1 = (v, c, w2) →
      body (p ++ [k]) (as ++ [v]) c w2 = (false, c1, w3) → VisitLevelsCtx N body (⟨p, as, k, i⟩ :: is) js w (.broke w3)
  | child {p : List Nat} {as : List V} {k : Nat} {i i' j : I} {is js : List (Below V I)} {d : N} {v : V} {c c1 : C}
      {w w1 w2 w3 w4 : W} {e : Ending W} : pollC i w = (some (some d), i', w1) → k + 1 < 2 ^ 64 →
      splitC d w1 = (v, c, w2) → body (p ++ [k]) (as ++ [v]) c w2 = (true, c1, w3) → intoC (N := N) c1 w3 = (j, w4) →
      VisitLevelsCtx N body (⟨p, as, k + 1, i'⟩ :: is) (js ++ [⟨p ++ [k], as ++ [v], 0, j⟩]) w4 e →
      VisitLevelsCtx N body (⟨p, as, k, i⟩ :: is) js w e

/-- The same from the root. -/
inductive VisitWideCtx [CtxNode W N V C I] (body : WideBody W V C) : N → W → Ending W → Prop
  | halt {n : N} {v : V} {c c1 : C} {w w1 w2 : W} : splitC n w = (v, c, w1) → body [] [v] c w1 = (false, c1, w2) →
      VisitWideCtx body n w (.broke w2)
  | node {n : N} {v : V} {c c1 : C} {j : I} {w w1 w2 w3 : W} {e : Ending W} : splitC n w = (v, c, w1) →
      body [] [v] c w1 = (true, c1, w2) → intoC (N := N) c1 w2 = (j, w3) →
      VisitLevelsCtx N body [⟨[], [v], 0, j⟩] [] w3 e → VisitWideCtx body n w e

end Shared

end TreeIter
