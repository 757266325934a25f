import Verif.Spec.Chain
import Verif.Model.PipelineApi

/-! # Chains of stages as pipelines

Every stage wraps the pipeline before it (`tree_iterators_rs/src/tree_iterators/mod.rs`, `TreeIteratorBase` 17-181, `TreeIterator` 183-447 and
`BinaryTreeIterator` 449-717: each method is `Stage::new(self, f)`). -/

universe u v w

namespace TreeIter

namespace Chain

/-- The state of the pipeline of a chain on a general tree. -/
def St {σ : Type w} {V : Type v} (S : Type u) : {W : Type v} → Chain σ V W → Type u
  | _, source => S
  | _, map c _ => c.St S
  | _, prune c _ => Pipe.PruneState (c.St S)
  | _, prunePath c _ => Pipe.PruneState (c.St S)
  | _, pruneDepth c _ => c.St S

/-- The pipeline of a chain on a general tree. -/
def pipe {σ : Type w} {V : Type v} {S : Type u} (M : Pipe S V σ) : {W : Type v} → (c : Chain σ V W) → Pipe (c.St S) W σ
  | _, source => M
  | _, map c f => (c.pipe M).map f
  | _, prune c f => (c.pipe M).prunePipe f
  | _, prunePath c f => (c.pipe M).prunePath f
  | _, pruneDepth c d => (c.pipe M).pruneDepth Pipe.treeDepth d

/-- The state of the pipeline after the stages were added. -/
def init {σ : Type w} {V : Type v} {S : Type u} (s : S) : {W : Type v} → (c : Chain σ V W) → c.St S
  | _, source => s
  | _, map c _ => c.init s
  | _, prune c _ => .new (c.init s)
  | _, prunePath c _ => .new (c.init s)
  | _, pruneDepth c _ => c.init s

/-- The pipeline of a chain on a binary tree; no stage has a state. -/
def binPipe {σ : Type w} {V : Type v} {S : Type u} (M : Pipe S V σ) : {W : Type v} → Chain σ V W → Pipe S W σ
  | _, source => M
  | _, map c f => (c.binPipe M).map f
  | _, prune c f => (c.binPipe M).binPrune f
  | _, prunePath c f => (c.binPipe M).binPrunePath f
  | _, pruneDepth c d => (c.binPipe M).pruneDepth Pipe.treeDepth d

end Chain

end TreeIter
