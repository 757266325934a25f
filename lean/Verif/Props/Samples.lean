import Verif.Node

/-! # Sample trees used by the concrete cases beside the theorems -/

namespace TreeIter

mutual
/-- Equality of trees is decidable. -/
def Tree.decEq {α : Type} [DecidableEq α] : (s t : Tree α) → Decidable (s = t)
  | .node a cs, .node b ds =>
    if h : a = b then
      match Tree.decEqL cs ds with
      | isTrue h' => isTrue (by rw [h, h'])
      | isFalse h' => isFalse fun e => h' (Tree.node.inj e).2
    else isFalse fun e => h (Tree.node.inj e).1
/-- Equality of forests is decidable. -/
def Tree.decEqL {α : Type} [DecidableEq α] : (s t : List (Tree α)) → Decidable (s = t)
  | [], [] => isTrue rfl
  | [], _ :: _ => isFalse (by simp)
  | _ :: _, [] => isFalse (by simp)
  | c :: cs, d :: ds =>
    match Tree.decEq c d, Tree.decEqL cs ds with
    | isTrue h, isTrue h' => isTrue (by rw [h, h'])
    | isFalse h, _ => isFalse fun e => h (List.cons.inj e).1
    | _, isFalse h => isFalse fun e => h (List.cons.inj e).2
end

instance {α : Type} [DecidableEq α] : DecidableEq (Tree α) := Tree.decEq

mutual
/-- Equality of binary trees is decidable. -/
def BinTree.decEq {α : Type} [DecidableEq α] : (s t : BinTree α) → Decidable (s = t)
  | .node a l r, .node b l' r' =>
    if h : a = b then
      match BinTree.decEqO l l', BinTree.decEqO r r' with
      | isTrue h1, isTrue h2 => isTrue (by rw [h, h1, h2])
      | isFalse h1, _ => isFalse fun e => h1 (BinTree.node.inj e).2.1
      | _, isFalse h2 => isFalse fun e => h2 (BinTree.node.inj e).2.2
    else isFalse fun e => h (BinTree.node.inj e).1
/-- Equality of slots is decidable. -/
def BinTree.decEqO {α : Type} [DecidableEq α] : (s t : Option (BinTree α)) → Decidable (s = t)
  | none, none => isTrue rfl
  | none, some _ => isFalse (by simp)
  | some _, none => isFalse (by simp)
  | some c, some d =>
    match BinTree.decEq c d with
    | isTrue h => isTrue (by rw [h])
    | isFalse h => isFalse fun e => h (Option.some.inj e)
end

instance {α : Type} [DecidableEq α] : DecidableEq (BinTree α) := BinTree.decEq

/-- `0` with children `1` (children `3`, `4`), `2` (child `5`). -/
def sampleTree : Tree Nat :=
  .node 0 [.node 1 [.node 3 [], .node 4 []], .node 2 [.node 5 []]]

/-- `0` with left child `1` (only a right child `3`) and right child `2` (only a left child `4`). -/
def sampleBin : BinTree Nat :=
  .node 0 (some (.node 1 none (some (.node 3 none none)))) (some (.node 2 (some (.node 4 none none)) none))

/-- The first `k` answers of an iterator. -/
def answers {S : Type} {O : Type} (next : S → Option O × S) (k : Nat) (s : S) : List (Option O) :=
  (List.range k).map fun i => nthCall next i s

/-- The first `k` answers of an iterator that may panic; `none` if one of the calls panics. -/
def answersE {S : Type} {O : Type} (next : S → Except Panic (Option O × S)) (k : Nat) (s : S) :
    Option (List (Option O)) :=
  ((List.range k).mapM fun i => nthCallE next i s).toOption

/-- A context with only the number of children kept. -/
def Ctx.brief {V N : Type} (c : Ctx V (List N)) : Ctx V Nat := ⟨c.path, c.ancestors, c.children.map List.length⟩

/-- A context with only the occupancy of the two slots kept. -/
def Ctx.brief2 {V N : Type} (c : Ctx V (Option N × Option N)) : Ctx V (Bool × Bool) :=
  ⟨c.path, c.ancestors, c.children.map fun p => (p.1.isSome, p.2.isSome)⟩

/-- No node of `sampleTree` has too many children. -/
theorem sampleTree_arity : ArityOk sampleTree := by
  intro m hm
  have h : ∀ m ∈ (unfold sampleTree).preorder, (kids m).length ≤ 3 := by decide +kernel
  have := h m hm
  omega

end TreeIter
