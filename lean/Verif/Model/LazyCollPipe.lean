import Verif.Model.CollChain
import Verif.Model.LazyPipe

/-! # Pipelines on any source of trees

`Model/CollectionPipeline.lean` models pipelines on finite lists of trees.  The code takes any iterator, wraps it in a
`Fuse` and an `Enumerate`, and asks it for a tree when it needs one.  Here the source is a function `poll` on a state of
type `C`: it may be endless, and it may give trees again after a `None`.  A loop that is entered more than `fuel` times
gives `Panic.outOfFuel` ("the Rust loop would still be running").

Simplified: the numbers that `Enumerate` gives to the trees do not overflow. -/

universe u v w x y z t

namespace TreeIter

/-! ## The source -/

namespace LazyCollPipe

/-- `OwnedDFSPreorderCollectionIteratorWithPathTracking`: `dfs_preorder_iterators/owned.rs` 54-61 (binary: 349-356).
`source` and `ended` are the `Fuse`, `index` the counter of the `Enumerate`. -/
structure State (C : Type u) (S : Type v) where
  source : C
  ended : Bool
  index : Nat
  current : Option S

/-- `new`: `dfs_preorder_iterators/owned.rs` 68-73. -/
def State.new {C : Type u} {S : Type v} (c : C) : State C S := ⟨c, false, 0, none⟩

variable {C : Type u} {N : Type t} {S : Type v} {V : Type w} {σ : Type x}

/-- `self.tree_collection.next()` on an `Enumerate<Fuse<I>>`: `dfs_preorder_iterators/owned.rs` 91.  A `Fuse` drops its
iterator at the first `None`; here it is kept, and not asked again. -/
def ask (poll : C → Option N × C) (s : State C S) : Option N × State C S :=
  if s.ended then (none, s)
  else
    match poll s.source with
    | (none, c) => (none, { s with source := c, ended := true })
    | (some n, c) => (some n, { s with source := c, index := s.index + 1 })

/-- `if let Some(current) = &mut self.current_tree_iterator`: `dfs_preorder_iterators/owned.rs` 85-89. -/
def tryCurrent (P : Pipe S V σ) (current : Option S) (w : σ) : Except Panic (Option V × Option S × σ) :=
  match current with
  | none => .ok (none, none, w)
  | some c =>
    match P.next c w with
    | .error e => .error e
    | .ok (v, c', w') => .ok (v, some c', w')

/-- `next`: `dfs_preorder_iterators/owned.rs` 83-102. -/
def next (P : Pipe S V σ) (start : N → List Nat → S) (poll : C → Option N × C) :
    Nat → State C S → σ → Except Panic (Option V × State C S × σ)
  | 0, _, _ => .error .outOfFuel
  | fuel + 1, s, w =>
    match tryCurrent P s.current w with
    | .error e => .error e
    | .ok (some v, cur, w') => .ok (some v, { s with current := cur }, w')
    | .ok (none, cur, w') =>
      match ask poll { s with current := cur } with
      | (none, s') => .ok (none, s', w')
      | (some n, s') => next P start poll fuel { s' with current := some (start n [s.index]) } w'

/-- `into_pipeline()` on a collection: `prelude.rs` 3600-3602; `current_path` and `prune_current_subtree`:
`dfs_preorder_iterators/owned.rs` 113-124. -/
def pipe (P : Pipe S V σ) (start : N → List Nat → S) (poll : C → Option N × C) (fuel : Nat) : Source (State C S) V σ where
  next := next P start poll fuel
  path s :=
    match s.current with
    | none => []
    | some c => P.path c
  prune s := { s with current := s.current.map P.prune }

end LazyCollPipe

/-! ## Stages -/

/-- `prune_depth` on a collection: `tree_collection_iterators/prune_depth.rs` 21-31. -/
def Source.collPruneDepth {S : Type u} {V : Type v} {σ : Type w} (M : Source S V σ) (depth : Nat) : Source S V σ where
  next s w :=
    match M.next s w with
    | .error e => .error e
    | .ok (none, s', w') => .ok (none, s', w')
    | .ok (some v, s', w') =>
      match Pipe.collDepth (M.path s') with
      | .error e => .error e
      | .ok d => .ok (some v, if d = depth then M.prune s' else s', w')
  path := M.path
  prune := M.prune

namespace Chain

/-- The pipeline of a chain on a source of general trees (`tree_collection_iterators/mod.rs` 20-425); `fuel` bounds the
inner loops of `prune` and `prune_path`. -/
def collLazyPipe {σ : Type w} {V : Type v} {S : Type u} (M : Source S V σ) (fuel : Nat) :
    {W : Type v} → (c : Chain σ V W) → Source (c.St S) W σ
  | _, source => M
  | _, map c f => (c.collLazyPipe M fuel).map f
  | _, prune c f => (c.collLazyPipe M fuel).prunePipe fuel f
  | _, prunePath c f => (c.collLazyPipe M fuel).prunePath fuel f
  | _, pruneDepth c d => (c.collLazyPipe M fuel).collPruneDepth d

/-- The pipeline of a chain on a source of binary trees (`tree_collection_iterators/mod.rs` 427-635). -/
def binCollLazyPipe {σ : Type w} {V : Type v} {S : Type u} (M : Source S V σ) (fuel : Nat) :
    {W : Type v} → Chain σ V W → Source S W σ
  | _, source => M
  | _, map c f => (c.binCollLazyPipe M fuel).map f
  | _, prune c f => (c.binCollLazyPipe M fuel).binPrune fuel f
  | _, prunePath c f => (c.binCollLazyPipe M fuel).binPrunePath fuel f
  | _, pruneDepth c d => (c.binCollLazyPipe M fuel).collPruneDepth d

/-- The innermost iterator of a chain, the one `into_pipeline()` made. -/
def base {σ : Type w} {V : Type v} {S : Type u} : {W : Type v} → (c : Chain σ V W) → c.St S → S
  | _, source, s => s
  | _, map c _, s => c.base s
  | _, prune c _, s => c.base (Pipe.PruneState.inner s)
  | _, prunePath c _, s => c.base (Pipe.PruneState.inner s)
  | _, pruneDepth c _, s => c.base s

end Chain

/-! ## Ends -/

namespace CollEnd
variable {S : Type u} {Q : Type v} {V : Type w} {O : Type x} {σ : Type y} {τ : Type z}

/-- The loop of `next` with nothing put aside: `trees.rs` 38-73, `fold.rs` 48-82, `fold_path.rs` 49-90; binary
`trees.rs` 116-164, `fold.rs` 127-161, `fold_path.rs` 137-174. -/
def lazyLoop (E : CollEnd Q V O τ) (M : Source S V σ) :
    Nat → S → σ → Q → τ → Except Panic (Option O × (S × Option V) × σ × τ)
  | 0, _, _, _, _ => .error .outOfFuel
  | fuel + 1, s, w, q, t =>
    match M.next s w with
    | .error e => .error e
    | .ok (none, s', w') =>
      match E.drain q t with
      | .error e => .error e
      | .ok (o, t') => .ok (o, (s', none), w', t')
    | .ok (some v, s', w') =>
      match E.step q (M.path s') v t with
      | .error e => .error e
      | .ok (.inl o, t') => .ok (some o, (s', some v), w', t')
      | .ok (.inr q', t') => lazyLoop E M fuel s' w' q' t'

/-- `next`: as `lazyLoop`, with `peeked.take()` (`lookahead.take()`) first. -/
def lazyNext (E : CollEnd Q V O τ) (M : Source S V σ) (fuel : Nat) (st : S × Option V) (w : σ) (t : τ) :
    Except Panic (Option O × (S × Option V) × σ × τ) :=
  match st.2 with
  | some v =>
    match E.step E.empty (M.path st.1) v t with
    | .error e => .error e
    | .ok (.inl o, t') => .ok (some o, (st.1, some v), w, t')
    | .ok (.inr q, t') => E.lazyLoop M fuel st.1 w q t'
  | none => E.lazyLoop M fuel st.1 w E.empty t

/-- A client that calls `next()` `n` times: the results of the calls, and the iterator and the states of the closures
after them. -/
def lazyCalls (E : CollEnd Q V O τ) (M : Source S V σ) (fuel : Nat) :
    Nat → S × Option V → σ → τ → Except Panic (List (Option O) × (S × Option V) × σ × τ)
  | 0, st, w, t => .ok ([], st, w, t)
  | n + 1, st, w, t =>
    match E.lazyNext M fuel st w t with
    | .error e => .error e
    | .ok (o, st', w', t') =>
      match lazyCalls E M fuel n st' w' t' with
      | .error e => .error e
      | .ok (l, r) => .ok (o :: l, r)

end CollEnd

namespace Api

/-- `into_pipeline`, `prelude.rs` 3600-3602, on any source of general trees. -/
def lazyCollPipe {C : Type u} {N : Type v} {V : Type w} [TreeNode N V] (σ : Type x) (poll : C → Option N × C)
    (fuel : Nat) : Source (LazyCollPipe.State C (Track.State N (List N) N)) V σ :=
  LazyCollPipe.pipe (Track.pipe σ) startAt poll fuel

/-- `into_pipeline`, `prelude.rs` 3865-3869, on any source of binary trees. -/
def binLazyCollPipe {C : Type u} {N : Type v} {V : Type w} [BinNode N V] (σ : Type x) (poll : C → Option N × C)
    (fuel : Nat) : Source (LazyCollPipe.State C (Track.State N (Option N × Option N) (Option N))) V σ :=
  LazyCollPipe.pipe (Track.binPipe σ) binStartAt poll fuel

end Api

end TreeIter
