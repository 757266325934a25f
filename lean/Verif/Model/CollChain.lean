import Verif.Model.Chain
import Verif.Model.CollectionApi

/-! # Chains of stages on collections of trees

Every stage wraps the pipeline before it (`tree_iterators_rs/src/tree_collection_iterators/mod.rs`,
`TreeCollectionIteratorBase` 20-219, `TreeCollectionIterator` 221-425 and `BinaryTreeCollectionIterator` 427-635: each method
is `Stage::new(self, f)`).  A state is a state of the chain on a single tree, with the pipeline of the collection as source. -/

universe u v w

namespace TreeIter

namespace Chain

/-- The pipeline of a chain on a collection of general trees. -/
def collPipe {σ : Type w} {V : Type v} {S : Type u} (M : Pipe S V σ) : {W : Type v} → (c : Chain σ V W) → Pipe (c.St S) W σ
  | _, source => M
  | _, map c f => (c.collPipe M).map f
  | _, prune c f => (c.collPipe M).prunePipe f
  | _, prunePath c f => (c.collPipe M).prunePath f
  | _, pruneDepth c d => (c.collPipe M).pruneDepth Pipe.collDepth d

/-- The state after the stages were added: `tree_collection_iterators/prune.rs` 25-34, `prune_path.rs` 25-39. -/
def collInit {σ : Type w} {V : Type v} {S : Type u} (s : S) : {W : Type v} → (c : Chain σ V W) → c.St S
  | _, source => s
  | _, map c _ => c.collInit s
  | _, prune c _ => CollPipe.pruneNew (c.collInit s)
  | _, prunePath c _ => CollPipe.prunePathNew (c.collInit s)
  | _, pruneDepth c _ => c.collInit s

/-- The pipeline of a chain on a collection of binary trees; no stage has a state. -/
def binCollPipe {σ : Type w} {V : Type v} {S : Type u} (M : Pipe S V σ) : {W : Type v} → Chain σ V W → Pipe S W σ
  | _, source => M
  | _, map c f => (c.binCollPipe M).map f
  | _, prune c f => (c.binCollPipe M).binPrune f
  | _, prunePath c f => (c.binCollPipe M).binPrunePath f
  | _, pruneDepth c d => (c.binCollPipe M).pruneDepth Pipe.collDepth d

end Chain

end TreeIter
