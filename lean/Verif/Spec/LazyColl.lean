import Verif.Node

/-!
# What an iterator over any source of trees should answer

A source of trees is asked again and again.  Every time it answers with a tree, the client of the collection iterator is
to see the values of that tree, and every time it answers `None` the client is to see one `None`.  So the answers come in
blocks, one for each time the source is asked.
-/

universe u v w x

namespace TreeIter

/-- The source after it was asked `i` times. -/
def polled {C : Type u} {N : Type v} (poll : C → Option N × C) : Nat → C → C
  | 0, c => c
  | i + 1, c => polled poll i (poll c).2

/-- What the source answers when it is asked for the time number `i` (counting from 0). -/
def asked {C : Type u} {N : Type v} (poll : C → Option N × C) (i : Nat) (c : C) : Option N := (poll (polled poll i c)).1

/-- The answers of the collection iterator up to the next time it asks its source, if the source answered `o`. -/
def block {N : Type u} {O : Type v} (spec : N → List O) : Option N → List (Option O)
  | none => [none]
  | some n => (spec n).map some

/-- The number of answers in the blocks before block number `i`. -/
def before {A : Type u} (b : Nat → List A) : Nat → Nat
  | 0 => 0
  | i + 1 => before b i + (b i).length

/-- The calls of `next` from `s` on answer block by block as `b` says, and ask the source, `c` at first, just when a block
begins: during block number `i` it has been asked `i + 1` times. -/
def AnswersInBlocks {C : Type u} {N : Type v} {S : Type w} {O : Type x} (poll : C → Option N × C)
    (next : S → Except Panic (Option O × S)) (source : S → C) (s : S) (c : C) (b : Nat → List (Option O)) : Prop :=
  ∀ i j (hj : j < (b i).length), nthCallE next (before b i + j) s = .ok (b i)[j] ∧
    ∃ s', stateAfterE next (before b i + j + 1) s = .ok s' ∧ source s' = polled poll (i + 1) c

end TreeIter
