import Verif.Model.Poll
import Verif.Model.Collection

/-!
# Collections whose source is any iterator, with contexts

As `Verif.Model.Collection`, but the source is given by the answers it will give, one by one, `None` among them; it answers
`None` when they are used up.
-/

universe u v w

namespace TreeIter

namespace Poll

variable {N : Type u} {S : Type v} {O : Type w}

/-- `collection_iterators.rs` 54-62. -/
structure SourceCtx (N : Type u) (S : Type v) where
  source : List (Option N)
  index : Nat
  inner : Option S

/-- `collection_iterators.rs` 69-79, with the source not yet asked. -/
def SourceCtx.new (source : List (Option N)) : SourceCtx N S := ⟨source, usizeMax, none⟩

/-- As `Coll.ctxPull`: `collection_iterators.rs` 102-120 and the next turn of the loop. -/
def ctxPull (mk : N → List Nat → S) (next : S → Except Panic (Option O × S)) (index : Nat) :
    List (Option N) → Except Panic (SourceCtx N S)
  | [] => .ok ⟨[], wrapSucc index, none⟩
  | none :: source => .ok ⟨source, wrapSucc index, none⟩
  | some n :: source =>
    match next (mk n [wrapSucc index]) with
    | .error e => .error e
    | .ok (some _, s) => .ok ⟨source, wrapSucc index, some s⟩
    | .ok (none, _) => ctxPull mk next (wrapSucc index) source

/-- `collection_iterators.rs` 93-122. -/
def sourceCtxAdvance (mk : N → List Nat → S) (innerNext : S → Except Panic (Option O × S)) (s : SourceCtx N S) :
    Except Panic (SourceCtx N S) :=
  match s.inner with
  | none => ctxPull mk innerNext s.index s.source
  | some i =>
    match innerNext i with
    | .error e => .error e
    | .ok (some _, i') => .ok { s with inner := some i' }
    | .ok (none, _) => ctxPull mk innerNext s.index s.source

/-- `collection_iterators.rs` 124-128. -/
def sourceCtxGet (innerGet : S → Option O) (s : SourceCtx N S) : Option O := s.inner.bind innerGet

/-- `StreamingIterator::next`. -/
def sourceCtxNext (mk : N → List Nat → S) (innerAdvance : S → Except Panic S) (innerGet : S → Option O) :
    SourceCtx N S → Except Panic (Option O × SourceCtx N S) :=
  streamNextE (sourceCtxAdvance mk (streamNextE innerAdvance innerGet)) (sourceCtxGet innerGet)

end Poll

end TreeIter
