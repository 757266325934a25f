import Verif.Node

/-! # Positions and relabelling -/

universe u v w

namespace TreeIter

variable {α : Type u} {β : Type v}

/-- Relabel the items of a position. -/
def Pos.map (f : α → β) (p : Pos α) : Pos β := ⟨p.path, p.ancestors.map f, f p.item⟩

theorem Tree.withPosL_map (f : α → β) (cs : List (Tree α))
    (ih : ∀ c ∈ cs, ∀ (path : List Nat) (anc : List α),
      (c.map f).withPos path (anc.map f) = (c.withPos path anc).map (Pos.map f))
    (path : List Nat) (anc : List α) (i : Nat) :
    Tree.withPosL path (anc.map f) i (cs.map (Tree.map f)) =
      (Tree.withPosL path anc i cs).map (Tree.map (Pos.map f)) := by
  induction cs generalizing i with
  | nil => rfl
  | cons c cs ih' =>
    rw [List.map_cons, Tree.withPosL, Tree.withPosL, List.map_cons, ih c (by simp),
      ih' fun c hc => ih c (by simp [hc])]

theorem Tree.withPos_map (f : α → β) (t : Tree α) (path : List Nat) (anc : List α) :
    (t.map f).withPos path (anc.map f) = (t.withPos path anc).map (Pos.map f) := by
  induction t using Tree.ind generalizing path anc with
  | h a cs ih =>
    rw [Tree.map_node, Tree.withPos, Tree.withPos, Tree.map_node]
    have : anc.map f ++ [f a] = (anc ++ [a]).map f := by simp
    rw [this, Tree.withPosL_map f cs ih]
    rfl

theorem Tree.located_map (f : α → β) (t : Tree α) : (t.map f).located = t.located.map (Pos.map f) :=
  Tree.withPos_map f t [] []

theorem BinTree.withPos_map (f : α → β) (t : BinTree α) (path : List Nat) (anc : List α) :
    (t.map f).withPos path (anc.map f) = (t.withPos path anc).map (Pos.map f) := by
  induction t using BinTree.ind generalizing path anc with
  | h a l r ihl ihr =>
    rw [BinTree.map, BinTree.withPos, BinTree.withPos, BinTree.map]
    have : anc.map f ++ [f a] = (anc ++ [a]).map f := by simp
    rw [this]
    congr 1
    · cases l with
      | none => rfl
      | some l => simp only [BinTree.mapO, BinTree.withPosO, ihl l rfl]
    · cases r with
      | none => rfl
      | some r => simp only [BinTree.mapO, BinTree.withPosO, ihr r rfl]

theorem BinTree.located_map (f : α → β) (t : BinTree α) : (t.map f).located = t.located.map (Pos.map f) :=
  BinTree.withPos_map f t [] []

end TreeIter
