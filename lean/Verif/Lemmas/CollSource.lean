import Verif.Lemmas.PipeStart
import Verif.Model.CollectionPipeline

/-! # The source of a collection pipeline enumerates the trees one after another -/

universe u v w x

namespace TreeIter

namespace CollPipe
variable {N : Type u} {S : Type v} {V : Type w} {σ : Type x}

/-- The trees of a collection from number `i` on, labelled. -/
def labs (lab : N → List Nat → Lab V) : Nat → List N → List (Lab V)
  | _, [] => []
  | i, n :: ns => lab n [i] :: labs lab (i + 1) ns

/-- The state of the source of a collection pipeline, the last path and the nodes still to come. -/
def Rel (R : S → List Nat → List (Lab V) → Prop) (lab : N → List Nat → Lab V) (s : State N S) (a : List Nat)
    (l : List (Lab V)) : Prop :=
  ∃ l1, l = l1 ++ labs lab s.index s.rest ∧
    match s.current with
    | none => a = [] ∧ l1 = []
    | some c => R c a l1

variable {P : Pipe S V σ} {R : S → List Nat → List (Lab V) → Prop} {start : N → List Nat → S} {lab : N → List Nat → Lab V}

theorem advance_some (hP : Enum P (idVisitor σ V) R) (hs : ∀ n p, R (start n p) p [lab n p])
    {rest : List N} {index : Nat} {current : Option S} (w : σ) {p : List Nat} {x : V} {cs ts : List (Lab V)}
    (h : labs lab index rest = .node (p, x) cs :: ts) :
    ∃ s', advance P start rest index current w = .ok (some x, s', w) ∧ Rel R lab s' p (cs ++ ts) ∧
      Rel R lab ((pipe P start).prune s') p ts := by
  cases rest with
  | nil => simp [labs] at h
  | cons n rest =>
    simp only [labs, List.cons.injEq] at h
    have h0 := hs n [index]
    rw [h.1] at h0
    obtain ⟨s', h1, h2, h3⟩ := hP.next_some (w := w) h0 (y := x) (cs := cs) (rest := []) (a' := p) (w' := w)
      (by simp [visitNext, idVisitor])
    refine ⟨⟨rest, index + 1, some s'⟩, ?_, ?_, ?_⟩
    · rw [advance]
      simp only [h1]
    · refine ⟨cs, by rw [h.2], ?_⟩
      simpa using h2
    · exact ⟨[], by simp [pipe, h.2], h3⟩

theorem enum (hP : Enum P (idVisitor σ V) R) (hs : ∀ n p, R (start n p) p [lab n p]) :
    Enum (pipe P start) (idVisitor σ V) (Rel R lab) where
  path := by
    rintro ⟨rest, index, current⟩ a l ⟨l1, -, h⟩
    cases current with
    | none => exact h.1.symm
    | some c => exact hP.path h
  next_none := by
    rintro ⟨rest, index, current⟩ a l w a' w' ⟨l1, h1, h⟩ hv
    cases l with
    | cons t ts => obtain ⟨⟨p, x⟩, cs⟩ := t; simp [visitNext, idVisitor] at hv
    | nil =>
      simp only [visitNext, Prod.mk.injEq, true_and] at hv
      obtain ⟨-, rfl⟩ := hv
      obtain ⟨rfl, h2⟩ := List.append_eq_nil_iff.1 h1.symm
      cases rest with
      | cons n rest => simp [labs] at h2
      | nil =>
        cases current with
        | none =>
          exact ⟨⟨[], index, none⟩, [], by simp only [pipe, next, advance], [], by simp [labs], rfl, rfl⟩
        | some c =>
          obtain ⟨s'', a'', h3, h4⟩ := hP.next_none (w := w) (a' := a) (w' := w) h rfl
          refine ⟨⟨[], index, some s''⟩, a'', ?_, [], by simp [labs], h4⟩
          simp only [pipe]
          unfold next
          simp only [h3, advance]
  next_some := by
    rintro ⟨rest, index, current⟩ a l w y cs ts a' w' ⟨l1, h1, h⟩ hv
    cases l with
    | nil => simp [visitNext] at hv
    | cons t us =>
      obtain ⟨⟨p, x⟩, ds⟩ := t
      simp only [visitNext, idVisitor, if_true, Prod.mk.injEq, Option.some.injEq] at hv
      obtain ⟨⟨rfl, rfl, rfl⟩, rfl, rfl⟩ := hv
      dsimp only at h1 h
      cases current with
      | none =>
        obtain ⟨-, rfl⟩ := h
        obtain ⟨s', h2, h3, h4⟩ := advance_some (current := none) hP hs w h1.symm
        refine ⟨s', ?_, h3, h4⟩
        simp only [pipe]
        unfold next
        exact h2
      | some c =>
        cases l1 with
        | nil =>
          obtain ⟨s'', a'', h5, h6⟩ := hP.next_none (w := w) (a' := a) (w' := w) h rfl
          obtain ⟨s', h2, h3, h4⟩ := advance_some (current := some s'') hP hs w h1.symm
          refine ⟨s', ?_, h3, h4⟩
          simp only [pipe]
          unfold next
          simp only [h5]
          exact h2
        | cons t l1 =>
          simp only [List.cons_append, List.cons.injEq] at h1
          obtain ⟨rfl, rfl⟩ := h1
          obtain ⟨s', h2, h3, h4⟩ := hP.next_some (w := w) h (y := x) (cs := ds) (rest := l1) (a' := p) (w' := w)
            (by simp [visitNext, idVisitor])
          refine ⟨⟨rest, index, some s'⟩, ?_, ⟨ds ++ l1, by simp, h3⟩, ⟨l1, rfl, h4⟩⟩
          simp only [pipe]
          unfold next
          simp only [h2]

theorem rel_new (ns : List N) : Rel R lab (State.new ns) [] (labs lab 0 ns) := ⟨[], by simp [State.new], rfl, rfl⟩

end CollPipe

end TreeIter
