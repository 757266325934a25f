import Verif.Model.CollChain

/-! # What a pipeline holds between calls

The lengths of the vectors in the states of `Verif.Model.Pipeline` and `Verif.Model.CollectionPipeline`, and the states a
client can bring a pipeline into. -/

universe u v w x

namespace TreeIter

/-- The states a client reaches from `s` by `next` and `prune_current_subtree` in any order
(`tree_iterators/mod.rs` 17-51).  Whatever the closures share may change between calls. -/
inductive Pipe.Reach {S : Type u} {V : Type v} {σ : Type w} (M : Pipe S V σ) (s : S) : S → Prop
  | start : Reach M s s
  | next {s1 s2 : S} {w w' : σ} {o : Option V} (h : Reach M s s1) (e : M.next s1 w = .ok (o, s2, w')) : Reach M s s2
  | prune {s1 : S} (h : Reach M s s1) : Reach M s (M.prune s1)

/-- The lengths of `current_path` and `traversal_stack`, `dfs_preorder_iterators/owned.rs` 197-205. -/
def Track.lens {N : Type u} {C : Type v} {I : Type w} (s : Track.State N C I) : List Nat :=
  [s.path.length, s.stack.length]

/-- The lengths of the vectors of a pipeline on a collection: those of the tree at hand
(`dfs_preorder_iterators/owned.rs` 57-65). -/
def CollPipe.lens {N : Type u} {S : Type v} (m : S → List Nat) (s : CollPipe.State N S) : List Nat :=
  (s.current.map m).getD []

/-- The lengths of all vectors of the pipeline of a chain; `m` are those of its source.  `prune` and `prune_path` hold
`pruned_at_each_depth` and `current_path` (`tree_iterators/prune.rs` 7-18, `prune_path.rs` 7-18), the other stages hold
none (`map.rs` 6-14, `prune_depth.rs` 6-11). -/
def Chain.lens {σ : Type w} {V : Type v} {S : Type u} (m : S → List Nat) :
    {W : Type v} → (c : Chain σ V W) → c.St S → List Nat
  | _, .source, s => m s
  | _, .map c _, s => c.lens m s
  | _, .prune c _, s => List.length (Pipe.PruneState.pruned s) :: List.length (Pipe.PruneState.current s) :: c.lens m (Pipe.PruneState.inner s)
  | _, .prunePath c _, s => List.length (Pipe.PruneState.pruned s) :: List.length (Pipe.PruneState.current s) :: c.lens m (Pipe.PruneState.inner s)
  | _, .pruneDepth c _, s => c.lens m s

/-- The number of stages that drop nodes by a closure. -/
def Chain.prunes {σ : Type w} {V : Type v} : {W : Type v} → Chain σ V W → Nat
  | _, .source => 0
  | _, .map c _ => c.prunes
  | _, .prune c _ => c.prunes + 1
  | _, .prunePath c _ => c.prunes + 1
  | _, .pruneDepth c _ => c.prunes

end TreeIter
