import Verif.Model.CollectionPipeline
import Verif.Model.PipelineApi

/-! # The operations on collections of trees

`tree_iterators_rs/src/prelude.rs`: each is a pipeline over the collection followed by `trees()`, `fold_trees` or
`fold_path`, which are iterators.  The definitions here give the results of the first `k` calls of `next()` on such an
iterator, and the states of the closures afterwards.  The citations are of the owned versions; the `_mut` and `_ref`
versions have the same bodies (general trees: 4150-4387 and 4704-4941; binary trees: 4418-4674 and 4971-5223). -/

universe u v w x y

namespace TreeIter

namespace Api

section General
variable {N : Type u} {V : Type v} [TreeNode N V] {σ : Type w} {W : Type x} {O : Type y}

/-- The iterator over one tree of a collection: `dfs_preorder_iterators/owned.rs` 91-100. -/
def startAt (n : N) (path : List Nat) : Track.State N (List N) N := Track.State.new n path.reverse

/-- `into_pipeline`, `prelude.rs` 3600-3602. -/
def collPipe (N : Type u) {V : Type v} [TreeNode N V] (σ : Type w) :
    Pipe (CollPipe.State N (Track.State N (List N) N)) V σ := CollPipe.pipe (Track.pipe σ) startAt

/-- `into_pipeline().trees()`. -/
def trees (ns : List N) (k : Nat) : Except Panic (List (Option (Tree V)) × Unit × Unit) :=
  treesEnd.calls (collPipe N Unit) k (.new ns, none) () ()

/-- `prune_each`, `prelude.rs` 3701-3718. -/
def pruneEach (f : σ → V → σ × Bool) (ns : List N) (k : Nat) (w : σ) : Except Panic (List (Option (Tree V)) × σ × Unit) :=
  treesEnd.calls ((collPipe N σ).prunePipe f) k (CollPipe.pruneNew (.new ns), none) w ()

/-- `prune_path_each`, `prelude.rs` 3724-3741. -/
def prunePathEach (f : σ → List Nat → V → σ × Bool) (ns : List N) (k : Nat) (w : σ) :
    Except Panic (List (Option (Tree V)) × σ × Unit) :=
  treesEnd.calls ((collPipe N σ).prunePath f) k (CollPipe.prunePathNew (.new ns), none) w ()

/-- `prune_depth_each`, `prelude.rs` 3748-3761. -/
def pruneDepthEach (d : Nat) (ns : List N) (k : Nat) : Except Panic (List (Option (Tree V)) × Unit × Unit) :=
  treesEnd.calls ((collPipe N Unit).pruneDepth Pipe.collDepth d) k (.new ns, none) () ()

/-- `map_each`, `prelude.rs` 3767-3785. -/
def mapEach (f : σ → V → σ × W) (ns : List N) (k : Nat) (w : σ) : Except Panic (List (Option (Tree W)) × σ × Unit) :=
  treesEnd.calls ((collPipe N σ).map f) k (.new ns, none) w ()

/-- `map_path_each`, `prelude.rs` 3791-3809. -/
def mapPathEach (stale : σ → List Nat → List Nat → List Nat) (f : σ → List Nat → V → σ × W) (ns : List N) (k : Nat) (w : σ) :
    Except Panic (List (Option (Tree W)) × σ × Unit) :=
  treesEnd.calls ((collPipe N σ).mapPath stale f) k (.new ns, none) w ()

/-- `fold_each`, `prelude.rs` 3815-3829. -/
def foldEach (f : σ → List O → V → σ × O) (ns : List N) (k : Nat) (t : σ) : Except Panic (List (Option O) × Unit × σ) :=
  (foldEnd f).calls (collPipe N Unit) k (.new ns, none) () t

/-- `fold_path_each`, `prelude.rs` 3835-3849. -/
def foldPathEach (f : σ → List O → List Nat → V → σ × O) (ns : List N) (k : Nat) (t : σ) :
    Except Panic (List (Option O) × Unit × σ) :=
  (foldPathEnd f).calls (collPipe N Unit) k (.new ns, none) () t

end General

section Binary
variable {N : Type u} {V : Type v} [BinNode N V] {σ : Type w} {W : Type x} {O : Type y}

/-- The iterator over one tree of a collection: `dfs_preorder_iterators/owned.rs` 386-395. -/
def binStartAt (n : N) (path : List Nat) : Track.State N (Option N × Option N) (Option N) := Track.State.new n path.reverse

/-- `into_pipeline`, `prelude.rs` 3865-3869. -/
def binCollPipe (N : Type u) {V : Type v} [BinNode N V] (σ : Type w) :
    Pipe (CollPipe.State N (Track.State N (Option N × Option N) (Option N))) V σ := CollPipe.pipe (Track.binPipe σ) binStartAt

/-- `into_pipeline().trees()`. -/
def binTrees (ns : List N) (k : Nat) : Except Panic (List (Option (BinTree V)) × Unit × Unit) :=
  binTreesEnd.calls (binCollPipe N Unit) k (.new ns, none) () ()

/-- `prune_each`, `prelude.rs` 3986-4003. -/
def binPruneEach (f : σ → V → σ × Bool) (ns : List N) (k : Nat) (w : σ) :
    Except Panic (List (Option (BinTree V)) × σ × Unit) :=
  binTreesEnd.calls ((binCollPipe N σ).binPrune f) k (.new ns, none) w ()

/-- `prune_path_each`, `prelude.rs` 4009-4026. -/
def binPrunePathEach (f : σ → List Nat → V → σ × Bool) (ns : List N) (k : Nat) (w : σ) :
    Except Panic (List (Option (BinTree V)) × σ × Unit) :=
  binTreesEnd.calls ((binCollPipe N σ).binPrunePath f) k (.new ns, none) w ()

/-- `prune_depth_each`, `prelude.rs` 4033-4046. -/
def binPruneDepthEach (d : Nat) (ns : List N) (k : Nat) : Except Panic (List (Option (BinTree V)) × Unit × Unit) :=
  binTreesEnd.calls ((binCollPipe N Unit).pruneDepth Pipe.collDepth d) k (.new ns, none) () ()

/-- `map_each`, `prelude.rs` 4052-4070 (and `map_path_each` of owned binary trees, 4076-4094, whose closure gets no path). -/
def binMapEach (f : σ → V → σ × W) (ns : List N) (k : Nat) (w : σ) : Except Panic (List (Option (BinTree W)) × σ × Unit) :=
  binTreesEnd.calls ((binCollPipe N σ).map f) k (.new ns, none) w ()

/-- `map_path_each` of borrowed binary trees. -/
def binMapPathEach (stale : σ → List Nat → List Nat → List Nat) (f : σ → List Nat → V → σ × W) (ns : List N) (k : Nat)
    (w : σ) : Except Panic (List (Option (BinTree W)) × σ × Unit) :=
  binTreesEnd.calls ((binCollPipe N σ).mapPath stale f) k (.new ns, none) w ()

/-- `fold_each`, `prelude.rs` 4100-4114. -/
def binFoldEach (f : σ → Option O × Option O → V → σ × O) (ns : List N) (k : Nat) (t : σ) :
    Except Panic (List (Option O) × Unit × σ) :=
  (binFoldEnd f).calls (binCollPipe N Unit) k (.new ns, none) () t

/-- `fold_path_each`, `prelude.rs` 4120-4134. -/
def binFoldPathEach (f : σ → Option O × Option O → List Nat → V → σ × O) (ns : List N) (k : Nat) (t : σ) :
    Except Panic (List (Option O) × Unit × σ) :=
  (binFoldPathEnd f).calls (binCollPipe N Unit) k (.new ns, none) () t

end Binary

end Api

end TreeIter
