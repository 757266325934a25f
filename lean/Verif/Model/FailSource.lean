import Verif.Model.Fail
import Verif.Model.Collection

/-!
# Traversals of collections with panics caught

`collection_iterators.rs` once more, when the collection's own iterator, or `get_value_and_children` of a node, may panic and the
program catches the panic and calls `next` again.  The items of the collection are a list in which `none` is a call that panics; a
reply `some none` of `next` is a panic.  Simplification: the collection's iterator goes on after a panic with the rest of the list.
-/

universe u v w

namespace TreeIter

namespace Fail

variable {N : Type u} {S : Type v} {O : Type w}

/-- `collection_iterators.rs` 41-46 and the next turn of the loop.  If `collection.next()` panics, `tree_traversal_iterator` is still
the finished iterator of the last tree, if there was one. -/
def srcPull (mk : N → S) (next : S → Option (Option O) × S) :
    Option S → List (Option N) → Option (Option O) × Coll.State (Option N) S
  | _, [] => (none, ⟨[], none⟩)
  | inner, none :: rest => (some none, ⟨rest, inner⟩)
  | _, some n :: rest =>
    match next (mk n) with
    | (some o, s) => (some o, ⟨rest, some s⟩)
    | (none, s) => srcPull mk next (some s) rest

/-- `collection_iterators.rs` 32-48. -/
def srcNext (mk : N → S) (next : S → Option (Option O) × S) (s : Coll.State (Option N) S) :
    Option (Option O) × Coll.State (Option N) S :=
  match s.inner with
  | none => srcPull mk next none s.rest
  | some i =>
    match next i with
    | (some o, i') => (some o, ⟨s.rest, some i'⟩)
    | (none, i') => srcPull mk next (some i') s.rest

/-- `collection_iterators.rs` 102-120 and the next turn of the loop, with the `get` of lines 124-128 after it: `get` of the collection
is `get` of the current tree, which is what `iter.next()` has returned.  If `collection.next()` panics, the index has not been
changed; `mk` is the constructor at line 116, `none` if it panics, which leaves the new index and the old iterator. -/
def srcCtxPull (mk : N → List Nat → Option S) (next : S → Except Panic (Option (Option O) × S)) :
    Option S → Nat → List (Option N) → Except Panic (Option (Option O) × Coll.CtxState (Option N) S)
  | _, index, [] => .ok (none, ⟨[], wrapSucc index, none⟩)
  | inner, index, none :: rest => .ok (some none, ⟨rest, index, inner⟩)
  | inner, index, some n :: rest =>
    match mk n [wrapSucc index] with
    | none => .ok (some none, ⟨rest, wrapSucc index, inner⟩)
    | some s =>
      match next s with
      | .error e => .error e
      | .ok (some o, s) => .ok (some o, ⟨rest, wrapSucc index, some s⟩)
      | .ok (none, s) => srcCtxPull mk next (some s) (wrapSucc index) rest

/-- `collection_iterators.rs` 93-128, `StreamingIterator::next`. -/
def srcCtxNext (mk : N → List Nat → Option S) (next : S → Except Panic (Option (Option O) × S))
    (s : Coll.CtxState (Option N) S) : Except Panic (Option (Option O) × Coll.CtxState (Option N) S) :=
  match s.inner with
  | none => srcCtxPull mk next none s.index s.rest
  | some i =>
    match next i with
    | .error e => .error e
    | .ok (some o, i') => .ok (some o, { s with inner := some i' })
    | .ok (none, i') => srcCtxPull mk next (some i') s.index s.rest

/-- A single-tree iterator in which no panic is caught. -/
def lift (next : S → Except Panic (Option O × S)) (s : S) : Except Panic (Option (Option O) × S) :=
  match next s with
  | .error e => .error e
  | .ok (o, s') => .ok (o.map some, s')

end Fail

end TreeIter
