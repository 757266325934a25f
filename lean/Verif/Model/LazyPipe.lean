import Verif.Model.PipelineApi
import Verif.Model.Chain

/-!
# Pipelines on trees that may be infinite

`Model/Pipeline.lean` models pipelines on finite trees: its loops need a bound on the number of items still to come.
Nothing in the crate asks for one.  Here the same code is modelled on nodes of which nothing is known; a loop that is
entered more than `fuel` times gives `Panic.outOfFuel` ("the Rust loop would still be running").
-/

universe u v w x y

namespace TreeIter

/-- `TreeIteratorBase`, `tree_iterators/mod.rs` 17-51. -/
structure Source (S : Type u) (V : Type v) (σ : Type w) where
  next : S → σ → Except Panic (Option V × S × σ)
  /-- `current_path` -/
  path : S → List Nat
  /-- `prune_current_subtree` -/
  prune : S → S

namespace Track
variable {N : Type u} {V : Type v}

/-- `into_pipeline()` on a general tree: `prelude.rs` 938-940; `dfs_preorder_iterators/owned.rs` 222-240. -/
def source [SplitNode N V] (σ : Type w) : Source (State N (List N) N) V σ where
  next s w :=
    match next s with
    | .error e => .error e
    | .ok (v, s') => .ok (v, s', w)
  path s := s.path.reverse
  prune s := { s with onDeck := none }

/-- `into_pipeline()` on a binary tree: `prelude.rs` 401-403; `dfs_preorder_iterators/owned.rs` 528-546. -/
def binSource [SplitNode2 N V] (σ : Type w) : Source (State N (Option N × Option N) (Option N)) V σ where
  next s w :=
    match binNext s with
    | .error e => .error e
    | .ok (v, s') => .ok (v, s', w)
  path s := s.path.reverse
  prune s := { s with onDeck := none }

end Track

namespace Source
variable {S : Type u} {V : Type v} {W : Type x} {σ : Type w}

/-! ## Stages -/

/-- `map`: `tree_iterators/map.rs` 38-40, 49-55. -/
def map (M : Source S V σ) (f : σ → V → σ × W) : Source S W σ where
  next s w :=
    match M.next s w with
    | .error e => .error e
    | .ok (none, s', w') => .ok (none, s', w')
    | .ok (some v, s', w') => .ok (some (f w' v).2, s', (f w' v).1)
  path := M.path
  prune := M.prune

/-- `prune_depth`: `tree_iterators/prune_depth.rs` 21-31, 39-48. -/
def pruneDepth (M : Source S V σ) (depth : Nat) : Source S V σ where
  next s w :=
    match M.next s w with
    | .error e => .error e
    | .ok (none, s', w') => .ok (none, s', w')
    | .ok (some v, s', w') => .ok (some v, if (M.path s').length = depth then M.prune s' else s', w')
  path := M.path
  prune := M.prune

/-- `PrunePath::next`: `tree_iterators/prune_path.rs` 44-86, and `Prune::next`: `tree_iterators/prune.rs` 44-86. -/
def pruneNext (M : Source S V σ) (f : σ → List Nat → V → σ × Bool) :
    Nat → Pipe.PruneState S → σ → Except Panic (Option V × Pipe.PruneState S × σ)
  | 0, _, _ => .error .outOfFuel
  | fuel + 1, s, w =>
    match M.next s.inner w with
    | .error e => .error e
    | .ok (none, s', w') => .ok (none, ⟨s', [], []⟩, w')
    | .ok (some v, s', w') =>
      let vs := Pipe.adjust (M.path s').length s.pruned s.current
      if (f w' (M.path s') v).2 then
        match Pipe.count vs.1 vs.2 with
        | .error e => .error e
        | .ok pruned => pruneNext M f fuel ⟨M.prune s', pruned, vs.2⟩ (f w' (M.path s') v).1
      else .ok (some v, ⟨s', vs.1, vs.2⟩, (f w' (M.path s') v).1)

/-- `prune_path`: `tree_iterators/prune_path.rs` 44-86, 95-101. -/
def prunePath (M : Source S V σ) (fuel : Nat) (f : σ → List Nat → V → σ × Bool) : Source (Pipe.PruneState S) V σ where
  next := M.pruneNext f fuel
  path s := s.current
  prune s := { s with inner := M.prune s.inner }

/-- `prune`: `tree_iterators/prune.rs` 44-86, 95-101. -/
def prunePipe (M : Source S V σ) (fuel : Nat) (f : σ → V → σ × Bool) : Source (Pipe.PruneState S) V σ :=
  M.prunePath fuel fun w _ v => f w v

/-- `BinaryPrunePath::next`: `tree_iterators/prune_path.rs` 145-157, and `BinaryPrune::next`: `tree_iterators/prune.rs`
145-156. -/
def binPruneNext (M : Source S V σ) (f : σ → List Nat → V → σ × Bool) :
    Nat → S → σ → Except Panic (Option V × S × σ)
  | 0, _, _ => .error .outOfFuel
  | fuel + 1, s, w =>
    match M.next s w with
    | .error e => .error e
    | .ok (none, s', w') => .ok (none, s', w')
    | .ok (some v, s', w') =>
      if (f w' (M.path s') v).2 then binPruneNext M f fuel (M.prune s') (f w' (M.path s') v).1
      else .ok (some v, s', (f w' (M.path s') v).1)

/-- `BinaryPrunePath`: `tree_iterators/prune_path.rs` 145-157, 166-172. -/
def binPrunePath (M : Source S V σ) (fuel : Nat) (f : σ → List Nat → V → σ × Bool) : Source S V σ where
  next := M.binPruneNext f fuel
  path := M.path
  prune := M.prune

/-- `BinaryPrune`: `tree_iterators/prune.rs` 145-156, 165-171. -/
def binPrune (M : Source S V σ) (fuel : Nat) (f : σ → V → σ × Bool) : Source S V σ :=
  M.binPrunePath fuel fun w _ v => f w v

/-! ## Ends -/

variable {τ : Type y} {O : Type x}

/-- The loop `while let Some(item) = self.next() { .. }` at the end of a pipeline; `step` is the body of the loop, given
`current_path()` and the item. -/
def loop {A : Type y} (M : Source S V σ) (step : A → List Nat → V → Except Panic A) :
    Nat → S → σ → A → Except Panic (A × σ)
  | 0, _, _, _ => .error .outOfFuel
  | fuel + 1, s, w, a =>
    match M.next s w with
    | .error e => .error e
    | .ok (none, _, w') => .ok (a, w')
    | .ok (some item, s', w') =>
      match step a (M.path s') item with
      | .error e => .error e
      | .ok a' => loop M step fuel s' w' a'

/-- `tree_iterators/mod.rs` 296-311. -/
def collectStep (keep : List (Tree V)) (path : List Nat) (item : V) : Except Panic (List (Tree V)) :=
  match Pipe.collapse path.length keep with
  | .error e => .error e
  | .ok keep' => .ok (.node item [] :: keep')

/-- `collect_tree`: `tree_iterators/mod.rs` 293-327. -/
def collectTree (M : Source S V σ) (fuel : Nat) (s : S) (w : σ) : Except Panic (Option (Tree V) × σ) :=
  match M.loop collectStep fuel s w [] with
  | .error e => .error e
  | .ok (keep, w') =>
    match Pipe.collapse 1 keep with
    | .error e => .error e
    | .ok keep' => .ok (keep'.head?, w')

/-- `tree_iterators/mod.rs` 386-395. -/
def foldStep (f : τ → List O → V → τ × O) (a : List V × List (List O) × τ) (path : List Nat) (item : V) :
    Except Panic (List V × List (List O) × τ) :=
  match Pipe.foldCollapse f path.length a.1 a.2.1 a.2.2 with
  | .error e => .error e
  | .ok (inv', folded', t') => .ok (item :: inv', [] :: folded', t')

/-- `fold_tree`: `tree_iterators/mod.rs` 379-407. -/
def foldTree (M : Source S V σ) (fuel : Nat) (f : τ → List O → V → τ × O) (s : S) (w : σ) (t : τ) :
    Except Panic (Option O × τ × σ) :=
  match M.loop (foldStep f) fuel s w ([], [], t) with
  | .error e => .error e
  | .ok ((inv, folded, t), w') =>
    match Pipe.foldCollapse f 1 inv folded t with
    | .error e => .error e
    | .ok ([], _, t) => .ok (none, t, w')
    | .ok (root :: _, folded, t) => .ok (some (f t (folded.head?.getD []) root).2, (f t (folded.head?.getD []) root).1, w')

/-- A client loop, `while let Some(item) = p.next() { .. p.current_path() .. }`: every item the pipeline emits, with the
path reported then. -/
def emits (M : Source S V σ) (fuel : Nat) (s : S) (w : σ) : Except Panic (List (V × List Nat) × σ) :=
  M.loop (fun l path item => .ok (l ++ [(item, path)])) fuel s w []

/-- `tree_iterators/mod.rs` 567-594. -/
def binCollectStep (keep : List (Nat × BinTree V)) (path : List Nat) (item : V) :
    Except Panic (List (Nat × BinTree V)) :=
  match Pipe.binCollapse path.length keep with
  | .error e => .error e
  | .ok keep' => .ok ((path.getLast?.getD 0, .node item none none) :: keep')

/-- `BinaryTreeIterator::collect_tree`: `tree_iterators/mod.rs` 564-616. -/
def binCollectTree (M : Source S V σ) (fuel : Nat) (s : S) (w : σ) : Except Panic (Option (BinTree V) × σ) :=
  match M.loop binCollectStep fuel s w [] with
  | .error e => .error e
  | .ok (keep, w') =>
    match Pipe.binCollapse 1 keep with
    | .error e => .error e
    | .ok keep' => .ok (keep'.head?.map (·.2), w')

/-- `tree_iterators/mod.rs` 690-703. -/
def binFoldStep (f : τ → Option O × Option O → List Nat → V → τ × O)
    (a : List V × List (Option O × Option O) × List Nat × τ) (path : List Nat) (item : V) :
    Except Panic (List V × List (Option O × Option O) × List Nat × τ) :=
  match Pipe.binFoldCollapse f path.length a.1 a.2.1 a.2.2.1 a.2.2.2 with
  | .error e => .error e
  | .ok (inv', folded', paths', t') =>
    match Pipe.pushPath path paths' with
    | .error e => .error e
    | .ok paths'' => .ok (item :: inv', (none, none) :: folded', paths'', t')

/-- `BinaryTreeIterator::fold_path`: `tree_iterators/mod.rs` 682-716. -/
def binFoldPath (M : Source S V σ) (fuel : Nat) (f : τ → Option O × Option O → List Nat → V → τ × O) (s : S) (w : σ)
    (t : τ) : Except Panic (Option O × τ × σ) :=
  match M.loop (binFoldStep f) fuel s w ([], [], [], t) with
  | .error e => .error e
  | .ok ((inv, folded, paths, t), w') =>
    match Pipe.binFoldCollapse f 1 inv folded paths t with
    | .error e => .error e
    | .ok ([], _, _, t) => .ok (none, t, w')
    | .ok (root :: _, folded, _, t) =>
      .ok (some (f t (folded.head?.getD (none, none)) [] root).2, (f t (folded.head?.getD (none, none)) [] root).1, w')

end Source

namespace Chain

/-- The pipeline of a chain on a general tree; `fuel` bounds the inner loops of `prune` and `prune_path`. -/
def lazyPipe {σ : Type w} {V : Type v} {S : Type u} (M : Source S V σ) (fuel : Nat) :
    {W : Type v} → (c : Chain σ V W) → Source (c.St S) W σ
  | _, source => M
  | _, map c f => (c.lazyPipe M fuel).map f
  | _, prune c f => (c.lazyPipe M fuel).prunePipe fuel f
  | _, prunePath c f => (c.lazyPipe M fuel).prunePath fuel f
  | _, pruneDepth c d => (c.lazyPipe M fuel).pruneDepth d

/-- The pipeline of a chain on a binary tree. -/
def binLazyPipe {σ : Type w} {V : Type v} {S : Type u} (M : Source S V σ) (fuel : Nat) :
    {W : Type v} → Chain σ V W → Source S W σ
  | _, source => M
  | _, map c f => (c.binLazyPipe M fuel).map f
  | _, prune c f => (c.binLazyPipe M fuel).binPrune fuel f
  | _, prunePath c f => (c.binLazyPipe M fuel).binPrunePath fuel f
  | _, pruneDepth c d => (c.binLazyPipe M fuel).pruneDepth d

end Chain

namespace Api

/-- `into_pipeline`, `prelude.rs` 938-940, on a node that may have infinitely many descendants. -/
def lazyStart {N : Type u} (n : N) : Track.State N (List N) N := Track.State.new n []

/-- `into_pipeline`, `prelude.rs` 401-403, on a binary node that may have infinitely many descendants. -/
def binLazyStart {N : Type u} (n : N) : Track.State N (Option N × Option N) (Option N) := Track.State.new n []

/-- `prune_depth`, `prelude.rs` 1138-1143. -/
def lazyPruneDepth {N : Type u} {V : Type v} [SplitNode N V] (fuel d : Nat) (n : N) : Except Panic (Tree V × Unit) :=
  unwrapRes (((Track.source Unit).pruneDepth d).collectTree fuel (lazyStart n) ())

/-- `prune_depth` on a binary tree, `prelude.rs` 537-542. -/
def binLazyPruneDepth {N : Type u} {V : Type v} [SplitNode2 N V] (fuel d : Nat) (n : N) :
    Except Panic (BinTree V × Unit) :=
  unwrapRes (((Track.binSource Unit).pruneDepth d).binCollectTree fuel (binLazyStart n) ())

end Api

end TreeIter
