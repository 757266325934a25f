import Verif.Model.FailColl
import Verif.Spec.FailPath

/-! # Pipelines whose closures may panic: positions

The chains of `Spec/FailPath`, and a client that calls `current_path` after every call of `next`, also one that panicked, and
then `prune_current_subtree` if it likes. -/

universe u v w x y

namespace TreeIter

/-- The client's loop: `next()`, caught; `current_path()`; `prune_current_subtree()` or not.  `tree_iterators/mod.rs` 22, 51
(collections: `tree_collection_iterators/mod.rs` 25, 57). -/
def FPipe.drive {S : Type u} {V : Type v} {σ : Type w} {τ : Type x} (M : FPipe S V σ) (f : τ → List Nat → Option V → τ × Bool) :
    FPipe S V (σ × τ) where
  next s w :=
    match M.next s w.1 with
    | .error e => .error e
    | .ok (none, s', w') => .ok (none, s', w', w.2)
    | .ok (some o, s', w') =>
      .ok (some o, if (f w.2 (M.path s') o).2 then M.prune s' else s', w', (f w.2 (M.path s') o).1)
  path := M.path
  prune := M.prune
  size := M.size
  size_next := by
    intro s w o s' w' h
    split at h
    · simp at h
    · simp at h
    · next s1 w1 h1 =>
      simp only [Except.ok.injEq, Prod.mk.injEq] at h
      rw [← h.2.1]
      split
      · exact Nat.lt_of_le_of_lt (M.size_prune s1) (M.size_next h1)
      · exact M.size_next h1
  size_prune := M.size_prune
  path_prune := M.path_prune
  prune_prune := M.prune_prune

namespace PChain

/-- The type of the states of the chain's pipeline, on a source with states `S`. -/
def St (S : Type u) {σ : Type w} {V : Type v} : {W : Type v} → PChain σ V W → Type u
  | _, source => S
  | _, map c _ => c.St S
  | _, prunePath c _ => Pipe.PruneState (c.St S)
  | _, pruneDepth c _ => c.St S

/-- The pipeline of a chain on general trees; `depthOf` computes `current_depth()` from the path. -/
def pipe {σ : Type w} {V : Type v} {S : Type u} (depthOf : List Nat → Except Panic Nat) (M : FPipe S V σ) :
    {W : Type v} → (c : PChain σ V W) → FPipe (c.St S) W σ
  | _, source => M
  | _, map c f => (c.pipe depthOf M).map f
  | _, prunePath c f => (c.pipe depthOf M).prunePipe f
  | _, pruneDepth c d => (c.pipe depthOf M).pruneDepth depthOf d

/-- The state of the pipeline after the stages were added. -/
def init {σ : Type w} {V : Type v} {S : Type u} (s : S) : {W : Type v} → (c : PChain σ V W) → c.St S
  | _, source => s
  | _, map c _ => c.init s
  | _, prunePath c _ => .new (c.init s)
  | _, pruneDepth c _ => c.init s

/-- The pipeline of a chain on binary trees; no stage has a state. -/
def binPipe {σ : Type w} {V : Type v} {S : Type u} (depthOf : List Nat → Except Panic Nat) (M : FPipe S V σ) :
    {W : Type v} → PChain σ V W → FPipe S W σ
  | _, source => M
  | _, map c f => (c.binPipe depthOf M).map f
  | _, prunePath c f => (c.binPipe depthOf M).binPrune f
  | _, pruneDepth c d => (c.binPipe depthOf M).pruneDepth depthOf d

end PChain

end TreeIter
