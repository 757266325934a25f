import Verif.Spec.SharedCollPlain

/-!
# Collections of trees that share no state: helper lemmas
-/

universe u v w x

namespace TreeIter

namespace Shared

variable {W : Type x} {N : Type u} {O : Type v}

theorem forList_append (body : Body W O) (os ps : List O) (w : W) :
    forList body (os ++ ps) w = match forList body os w with
      | (false, w) => (false, w)
      | (true, w) => forList body ps w := by
  induction os generalizing w with
  | nil => rfl
  | cons o os ih =>
    simp only [List.cons_append, forList]
    rcases body o w with ⟨_ | _, w1⟩
    · rfl
    · exact ih w1

theorem visitAll_plain (body : Body W O) (one : N → W → Bool → W → Prop) (f : N → List O)
    (h : ∀ n w b w', one n w b w' ↔ forList body (f n) w = (b, w')) (ns : List N) (w : W) (b : Bool) (w' : W) :
    VisitAll askList one ns w b w' ↔ forList body (ns.flatMap f) w = (b, w') := by
  induction ns generalizing w b w' with
  | nil =>
    constructor
    · intro h
      cases h with
      | ended h => cases h; rfl
      | stop h => cases h
      | tree h => cases h
    · intro h
      cases h
      exact .ended rfl
  | cons n ns ih =>
    rw [List.flatMap_cons, forList_append]
    constructor
    · intro hv
      cases hv with
      | ended h => cases h
      | stop h1 h2 =>
        cases h1
        rw [(h _ _ _ _).1 h2]
      | tree h1 h2 h3 =>
        cases h1
        rw [(h _ _ _ _).1 h2]
        exact (ih _ _ _).1 h3
    · rcases hf : forList body (f n) w with ⟨_ | _, w1⟩
      · intro e
        cases e
        exact .stop rfl ((h _ _ _ _).2 hf)
      · intro e
        exact .tree rfl ((h _ _ _ _).2 hf) ((ih _ _ _).2 e)

end Shared

end TreeIter
