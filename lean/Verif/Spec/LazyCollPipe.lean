import Verif.Spec.LazyColl

/-! # What a source of trees answers at first -/

universe u v

namespace TreeIter

/-- Asked again and again, the source first gives the trees `ns`.  Nothing is said about what it does then. -/
def Begins {C : Type u} {N : Type v} (poll : C → Option N × C) (c : C) (ns : List N) : Prop :=
  ∀ i (h : i < ns.length), asked poll i c = some ns[i]

/-- The source first gives the trees `ns` and then answers `None` for the first time.  After that it may give trees
again. -/
def GivesOnly {C : Type u} {N : Type v} (poll : C → Option N × C) (c : C) (ns : List N) : Prop :=
  Begins poll c ns ∧ asked poll ns.length c = none

end TreeIter
