import Verif.Model.Pipeline

/-! # The whole-tree operations of the node traits

`tree_iterators_rs/src/prelude.rs`: each is a pipeline followed by `collect_tree`, `fold_tree` or `fold_path`.  The
citations are of the owned versions; the `_mut` and `_ref` versions have the same bodies (general trees: 2045-2373 and
3148-3476; binary trees: 1509-1844 and 2615-2950). -/

universe u v w x y

namespace TreeIter

/-- `.unwrap()` or `.expect(..)` on the result. -/
def unwrapRes {α : Type u} {β : Type v} : Except Panic (Option α × β) → Except Panic (α × β)
  | .error e => .error e
  | .ok (none, _) => .error .unwrapNone
  | .ok (some a, b) => .ok (a, b)

namespace Api

section General
variable {N : Type u} {V : Type v} [TreeNode N V] {σ : Type w} {W : Type x} {O : Type y}

/-- `into_pipeline`, `prelude.rs` 938-940. -/
def start (n : N) : Track.State N (List N) N := Track.State.new n []

/-- `into_pipeline().collect_tree()`: `prelude.rs` 938-940 and `tree_iterators/mod.rs` 293-327. -/
def collect (n : N) : Except Panic (Option (Tree V) × Unit) := (Track.pipe Unit).collectTree (start n) ()

/-- `map`, `prelude.rs` 1199-1204. -/
def map (f : σ → V → σ × W) (n : N) (w : σ) : Except Panic (Tree W × σ) :=
  unwrapRes (((Track.pipe σ).map f).collectTree (start n) w)

/-- `map_path`, `prelude.rs` 1209-1214. -/
def mapPath (stale : σ → List Nat → List Nat → List Nat) (f : σ → List Nat → V → σ × W) (n : N) (w : σ) :
    Except Panic (Tree W × σ) :=
  unwrapRes (((Track.pipe σ).mapPath stale f).collectTree (start n) w)

/-- `prune`, `prelude.rs` 1005-1010. -/
def prune (f : σ → V → σ × Bool) (n : N) (w : σ) : Except Panic (Option (Tree V) × σ) :=
  ((Track.pipe σ).prunePipe f).collectTree (.new (start n)) w

/-- `prune_path`, `prelude.rs` 1075-1080. -/
def prunePath (f : σ → List Nat → V → σ × Bool) (n : N) (w : σ) : Except Panic (Option (Tree V) × σ) :=
  ((Track.pipe σ).prunePath f).collectTree (.new (start n)) w

/-- `prune_depth`, `prelude.rs` 1138-1143. -/
def pruneDepth (d : Nat) (n : N) : Except Panic (Tree V × Unit) :=
  unwrapRes (((Track.pipe Unit).pruneDepth Pipe.treeDepth d).collectTree (start n) ())

/-- `fold`, `prelude.rs` 1249-1254. -/
def fold (f : σ → List O → V → σ × O) (n : N) (t : σ) : Except Panic (O × σ × Unit) :=
  unwrapRes ((Track.pipe Unit).foldTree f (start n) () t)

/-- `fold_path`, `prelude.rs` 1259-1264. -/
def foldPath (f : σ → List O → List Nat → V → σ × O) (n : N) (t : σ) : Except Panic (O × σ × Unit) :=
  unwrapRes ((Track.pipe Unit).foldPath f (start n) () t)

end General

section Binary
variable {N : Type u} {V : Type v} [BinNode N V] {σ : Type w} {W : Type x} {O : Type y}

/-- `into_pipeline`, `prelude.rs` 401-403. -/
def binStart (n : N) : Track.State N (Option N × Option N) (Option N) := Track.State.new n []

/-- `into_pipeline().collect_tree()`: `prelude.rs` 401-403 and `tree_iterators/mod.rs` 564-616. -/
def binCollect (n : N) : Except Panic (Option (BinTree V) × Unit) := (Track.binPipe Unit).binCollectTree (binStart n) ()

/-- `map`, `prelude.rs` 668-673. -/
def binMap (f : σ → V → σ × W) (n : N) (w : σ) : Except Panic (BinTree W × σ) :=
  unwrapRes (((Track.binPipe σ).map f).binCollectTree (binStart n) w)

/-- `map_path`, `prelude.rs` 678-683. -/
def binMapPath (stale : σ → List Nat → List Nat → List Nat) (f : σ → List Nat → V → σ × W) (n : N) (w : σ) :
    Except Panic (BinTree W × σ) :=
  unwrapRes (((Track.binPipe σ).mapPath stale f).binCollectTree (binStart n) w)

/-- `prune`, `prelude.rs` 472-477. -/
def binPrune (f : σ → V → σ × Bool) (n : N) (w : σ) : Except Panic (Option (BinTree V) × σ) :=
  ((Track.binPipe σ).binPrune f).binCollectTree (binStart n) w

/-- `prune_path`, `prelude.rs` 607-612. -/
def binPrunePath (f : σ → List Nat → V → σ × Bool) (n : N) (w : σ) : Except Panic (Option (BinTree V) × σ) :=
  ((Track.binPipe σ).binPrunePath f).binCollectTree (binStart n) w

/-- `prune_depth`, `prelude.rs` 537-542. -/
def binPruneDepth (d : Nat) (n : N) : Except Panic (BinTree V × Unit) :=
  unwrapRes (((Track.binPipe Unit).pruneDepth Pipe.treeDepth d).binCollectTree (binStart n) ())

/-- `fold`, `prelude.rs` 719-726. -/
def binFold (f : σ → Option O × Option O → V → σ × O) (n : N) (t : σ) : Except Panic (O × σ × Unit) :=
  unwrapRes ((Track.binPipe Unit).binFoldTree f (binStart n) () t)

/-- `fold_path`, `prelude.rs` 731-738. -/
def binFoldPath (f : σ → Option O × Option O → List Nat → V → σ × O) (n : N) (t : σ) : Except Panic (O × σ × Unit) :=
  unwrapRes ((Track.binPipe Unit).binFoldPath f (binStart n) () t)

end Binary

end Api

end TreeIter
