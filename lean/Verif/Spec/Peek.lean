import Verif.Model.Poll

/-!
# Specification of traversals of trees of any depth and width

Neither the depth of the tree nor the number of children of a node is bounded.  The tree is described by its finite
pieces: `Peek j n` stands for the node `n` of which the first `j` children are known, of the first child the first
`j - 1`, of the second the first `j - 2`, and so on.
-/

universe u v w

namespace TreeIter

variable {N : Type u} {V : Type v} {I : Type w}

/-- A node and the number of children that may be asked of it. -/
structure Peek (N : Type u) where
  steps : Nat
  node : N
  deriving DecidableEq, Repr

/-- What `j` questions to a child iterator give; every answer leaves one question less for the child and for the
iterator. -/
def peekI [PollNode N V I] : Nat → I → List (Peek N)
  | 0, _ => []
  | j + 1, i =>
    match poll (N := N) i with
    | (some n, i') => ⟨j, n⟩ :: peekI j i'
    | (none, _) => []

theorem peekI_steps [PollNode N V I] (j : Nat) (i : I) : ∀ c ∈ peekI (N := N) j i, c.steps < j := by
  induction j generalizing i with
  | zero => simp [peekI]
  | succ j ih =>
    intro c hc
    rw [peekI] at hc
    split at hc
    · rcases List.mem_cons.1 hc with rfl | hc
      · exact Nat.lt_succ_self _
      · exact Nat.lt_succ_of_lt (ih _ c hc)
    · simp at hc

/-- The finite piece below a node is a tree. -/
instance [PollNode N V I] : TreeNode (Peek N) V where
  split p := ((splitI p.node).1, peekI p.steps (splitI p.node).2)
  size p := p.steps
  size_lt h := peekI_steps _ _ _ h

/-- The nodes an iterator hands out when it is asked at most `j` times, up to its first `None`. -/
def polls [PollNode N V I] : Nat → I → List N
  | 0, _ => []
  | j + 1, i =>
    match poll (N := N) i with
    | (some n, i') => n :: polls j i'
    | (none, _) => []

/-- The context `o` has the path and the ancestors of the context `o'`, and its child iterator hands out, to the first `j`
questions, the nodes that `o'` lists. -/
def CtxShows [PollNode N V I] (j : Nat) : Option (Ctx V I) → Option (Ctx V (List (Peek N))) → Prop
  | none, none => True
  | some c, some d =>
    c.path = d.path ∧ c.ancestors = d.ancestors ∧
      ∃ i l, c.children = some i ∧ d.children = some l ∧ polls j i = (l.take j).map Peek.node
  | _, _ => False

end TreeIter
