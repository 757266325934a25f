import Verif.Model.BfsCache

/-! # Collections of trees: `tree_iterators_rs/src/collection_iterators.rs`

The nine macros of that file differ only in the traits they mention; each generated iterator wraps one
of the single-tree iterators, so the model takes the single-tree iterator as a parameter.

Simplifications: the collection's own iterator is the list of the trees it has left, so it is fused
(asked again after its end, it answers `None` again); the capacity that `path_with_index` inherits from
the previous tree's path is not modelled. -/

universe u v w x

namespace TreeIter

namespace Coll

variable {N : Type u} {S : Type v} {O : Type w}

/-- `OwnedBFSCollectionIterator` and its kin: `collection_iterators.rs` 3-10. -/
structure State (N : Type u) (S : Type v) where
  /-- the trees the collection's iterator has left -/
  rest : List N
  /-- `tree_traversal_iterator` -/
  inner : Option S

/-- `collection_iterators.rs` 17-22. -/
def new (ns : List N) : State N S := ⟨ns, none⟩

/-- The part of the loop at `collection_iterators.rs` 33-47 entered when the current tree is finished:
lines 41-46 and then the next turn of the loop. -/
def pull (mk : N → S) (next : S → Option O × S) : List N → Option O × State N S
  | [] => (none, ⟨[], none⟩)
  | n :: rest =>
    match next (mk n) with
    | (some o, s) => (some o, ⟨rest, some s⟩)
    | (none, _) => pull mk next rest

/-- `collection_iterators.rs` 32-48. -/
def next (mk : N → S) (innerNext : S → Option O × S) (s : State N S) : Option O × State N S :=
  match s.inner with
  | none => pull mk innerNext s.rest
  | some i =>
    match innerNext i with
    | (some o, i') => (some o, ⟨s.rest, some i'⟩)
    | (none, _) => pull mk innerNext s.rest

/-- `OwnedBFSCollectionIteratorWithContext` and its kin: `collection_iterators.rs` 54-62. -/
structure CtxState (N : Type u) (S : Type v) where
  /-- the trees the collection's iterator has left -/
  rest : List N
  /-- `index` -/
  index : Nat
  /-- `tree_traversal_iterator` -/
  inner : Option S

/-- `attach_context`: `collection_iterators.rs` 69-79. `T` is the state of the context iterator. -/
def attachContext {T : Type x} (s : State N S) : Except Panic (CtxState N T) :=
  if s.inner.isSome then .error .attachMidTraversal else .ok ⟨s.rest, usizeMax, none⟩

/-- The part of the loop at `collection_iterators.rs` 94-121 entered when the current tree is finished:
lines 102-120 and then the next turn of the loop. -/
def ctxPull (mk : N → List Nat → S) (next : S → Except Panic (Option O × S)) (index : Nat) :
    List N → Except Panic (CtxState N S)
  | [] => .ok ⟨[], wrapSucc index, none⟩
  | n :: rest =>
    match next (mk n [wrapSucc index]) with
    | .error e => .error e
    | .ok (some _, s) => .ok ⟨rest, wrapSucc index, some s⟩
    | .ok (none, _) => ctxPull mk next (wrapSucc index) rest

/-- `collection_iterators.rs` 93-122. -/
def ctxAdvance (mk : N → List Nat → S) (innerNext : S → Except Panic (Option O × S)) (s : CtxState N S) :
    Except Panic (CtxState N S) :=
  match s.inner with
  | none => ctxPull mk innerNext s.index s.rest
  | some i =>
    match innerNext i with
    | .error e => .error e
    | .ok (some _, i') => .ok { s with inner := some i' }
    | .ok (none, _) => ctxPull mk innerNext s.index s.rest

/-- `collection_iterators.rs` 124-128. -/
def ctxGet (innerGet : S → Option O) (s : CtxState N S) : Option O := s.inner.bind innerGet

/-- `StreamingIterator::next` of the collection context iterator over a single-tree context iterator with
the given constructor, `advance` and `get`. -/
def ctxNext (mk : N → List Nat → S) (innerAdvance : S → Except Panic S) (innerGet : S → Option O) :
    CtxState N S → Except Panic (Option O × CtxState N S) :=
  streamNextE (ctxAdvance mk (streamNextE innerAdvance innerGet)) (ctxGet innerGet)

end Coll

end TreeIter
