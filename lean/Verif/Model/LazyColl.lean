import Verif.Model.Collection

/-!
# Collections of trees whose iterator is an arbitrary state machine: `tree_iterators_rs/src/collection_iterators.rs`

`Model/Collection` has the list of the trees that are left in place of the collection's own iterator.  Here this iterator
is any state `C` with a function `poll`, the `next` of the Rust trait: it may go on for ever, and after a `None` it may
answer with further trees.  The loops take a bound on the number of turns (`fuel`) and stop with `outOfFuel`.

Simplification: as in `Model/Collection`.
-/

universe u v w x y

namespace TreeIter

namespace LazyColl

variable {C : Type u} {N : Type v} {S : Type w} {O : Type x}

/-- `OwnedBFSCollectionIterator` and its kin: `collection_iterators.rs` 3-10. -/
structure State (C : Type u) (S : Type w) where
  /-- `collection` -/
  source : C
  /-- `tree_traversal_iterator` -/
  inner : Option S

/-- `collection_iterators.rs` 17-22. -/
def new (c : C) : State C S := ⟨c, none⟩

/-- `collection_iterators.rs` 32-48; a turn of the loop for each unit of fuel. -/
def next (poll : C → Option N × C) (mk : N → S) (innerNext : S → Option O × S) :
    Nat → State C S → Except Panic (Option O × State C S)
  | 0, _ => .error .outOfFuel
  | fuel + 1, s =>
    match s.inner.map innerNext with
    | some (some o, i) => .ok (some o, { s with inner := some i })
    | _ =>
      match poll s.source with
      | (none, c) => .ok (none, ⟨c, none⟩)
      | (some n, c) => next poll mk innerNext fuel ⟨c, some (mk n)⟩

/-- `OwnedBFSCollectionIteratorWithContext` and its kin: `collection_iterators.rs` 54-62. -/
structure CtxState (C : Type u) (S : Type w) where
  /-- `collection` -/
  source : C
  /-- `index` -/
  index : Nat
  /-- `tree_traversal_iterator` -/
  inner : Option S

/-- `attach_context`: `collection_iterators.rs` 69-79.  `T` is the state of the context iterator. -/
def attachContext {T : Type y} (s : State C S) : Except Panic (CtxState C T) :=
  if s.inner.isSome then .error .attachMidTraversal else .ok ⟨s.source, usizeMax, none⟩

/-- `collection_iterators.rs` 102-120: ask the source, count, and begin with the tree if there is one. -/
def ctxPull (poll : C → Option N × C) (mk : N → List Nat → S) (s : CtxState C S) : CtxState C S :=
  ⟨(poll s.source).2, wrapSucc s.index, (poll s.source).1.map fun n => mk n [wrapSucc s.index]⟩

/-- `collection_iterators.rs` 93-122; a turn of the loop for each unit of fuel. -/
def ctxAdvance (poll : C → Option N × C) (mk : N → List Nat → S) (innerNext : S → Except Panic (Option O × S)) :
    Nat → CtxState C S → Except Panic (CtxState C S)
  | 0, _ => .error .outOfFuel
  | fuel + 1, s =>
    match s.inner.map innerNext with
    | some (.error e) => .error e
    | some (.ok (some _, i)) => .ok { s with inner := some i }
    | _ =>
      if (ctxPull poll mk s).inner.isNone then .ok (ctxPull poll mk s)
      else ctxAdvance poll mk innerNext fuel (ctxPull poll mk s)

/-- `collection_iterators.rs` 124-128. -/
def ctxGet (innerGet : S → Option O) (s : CtxState C S) : Option O := s.inner.bind innerGet

/-- `StreamingIterator::next` of the collection context iterator. -/
def ctxNext (poll : C → Option N × C) (mk : N → List Nat → S) (innerAdvance : S → Except Panic S) (innerGet : S → Option O)
    (fuel : Nat) : CtxState C S → Except Panic (Option O × CtxState C S) :=
  streamNextE (ctxAdvance poll mk (streamNextE innerAdvance innerGet) fuel) (ctxGet innerGet)

end LazyColl

end TreeIter
