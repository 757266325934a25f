import Verif.Model.PathBuf
import Verif.Model.CollChain

/-! # The memory of the path that `map_path` shows to its closure, after other stages

As in `Verif.Model.PathBuf`, with any stages but `map_path` between `into_pipeline()` and `map_path`, for trees and for
collections of trees.  The stages
`map_tree`, `prune_depth` and, on binary trees, `prune` and `prune_path` hand on the path of the iterator behind them; on
general trees `prune` and `prune_path` hold a path of their own, in a vector of their own. -/

universe u v w x

namespace TreeIter

/-- Pushing `k` elements, one after the other, onto a vector holding `len` elements: `tree_iterators/prune.rs` 51-57. -/
def Buf.pushMany (grow : Nat → Nat) (b : Buf) (len : Nat) : Nat → Buf
  | 0 => b
  | k + 1 => (b.push grow len).pushMany grow (len + 1) k

/-- `clear()` and `shrink_to_fit()`: the allocation is freed.  `tree_iterators/prune.rs` 80-83. -/
def Buf.release (b : Buf) : Buf := ⟨b.id + 1, 0⟩

/-- A pipeline, and the vector that holds what `current_path` shows. -/
structure BufPipe (S : Type u) (V : Type v) (σ : Type w) extends Pipe S V σ where
  buf : S → Buf

namespace BufPipe
variable {S : Type u} {V : Type v} {W : Type x} {σ : Type w}

/-- The source with the vector of its path; `after` gives the vector after a call of `next`. -/
def ofSource (M : Pipe S V σ) (after : S → Buf → Buf) : BufPipe (S × Buf) V σ where
  next s w :=
    match M.next s.1 w with
    | .error e => .error e
    | .ok (o, s', w') => .ok (o, (s', after s.1 s.2), w')
  path s := M.path s.1
  prune s := (M.prune s.1, s.2)
  size s := M.size s.1
  size_next := by
    intro s w v s' w' h
    split at h
    · simp at h
    · next h1 =>
      simp only [Except.ok.injEq, Prod.mk.injEq] at h
      rw [h.1] at h1
      rw [← h.2.1]
      exact M.size_next h1
  size_prune s := M.size_prune s.1
  path_prune s := M.path_prune s.1
  prune_prune s := by simp [M.prune_prune]
  buf s := s.2

/-- The vector of the path of a collection's source while it goes on to the next tree, `dfs_preorder_iterators/owned.rs` 91-100 and
then 85-89. -/
def collRenew {N : Type x} (P : Spied S V) (grow : Nat → Nat) (start : N → List Nat → S) : List N → Nat → Buf → Buf
  | [], _, b => b
  | n :: rest, index, b =>
    match P.next (start n [index]) with
    | .ok (none, _) => collRenew P grow start rest (index + 1) (P.after grow (start n [index]) (b.renew grow))
    | _ => P.after grow (start n [index]) (b.renew grow)

/-- The vector of the path of a collection's source after `next`, `dfs_preorder_iterators/owned.rs` 83-102. -/
def collAfter {N : Type x} (P : Spied S V) (grow : Nat → Nat) (start : N → List Nat → S) (s : CollPipe.State N S) (b : Buf) : Buf :=
  match s.current with
  | none => collRenew P grow start s.rest s.index b
  | some c =>
    match P.next c with
    | .ok (none, _) => collRenew P grow start s.rest s.index (P.after grow c b)
    | _ => P.after grow c b

/-- `map_tree`: `tree_iterators/map.rs` 38-40, 49-55. -/
def map (M : BufPipe S V σ) (f : σ → V → σ × W) : BufPipe S W σ := { M.toPipe.map f with buf := M.buf }

/-- `prune_depth`: `tree_iterators/prune_depth.rs` 21-31, 39-48. -/
def pruneDepth (M : BufPipe S V σ) (d : Nat) : BufPipe S V σ := { M.toPipe.pruneDepth Pipe.treeDepth d with buf := M.buf }

/-- `prune_depth` on a collection: `tree_collection_iterators/prune_depth.rs` 21-31. -/
def collPruneDepth (M : BufPipe S V σ) (d : Nat) : BufPipe S V σ :=
  { M.toPipe.pruneDepth Pipe.collDepth d with buf := M.buf }

/-- `BinaryPrune`: `tree_iterators/prune.rs` 145-156, 165-171. -/
def binPrune (M : BufPipe S V σ) (f : σ → V → σ × Bool) : BufPipe S V σ := { M.toPipe.binPrune f with buf := M.buf }

/-- `BinaryPrunePath`: `tree_iterators/prune_path.rs` 145-157, 166-172. -/
def binPrunePath (M : BufPipe S V σ) (f : σ → List Nat → V → σ × Bool) : BufPipe S V σ :=
  { M.toPipe.binPrunePath f with buf := M.buf }

/-- `Pipe.pruneNext` with the vector of `current_path`: `tree_iterators/prune.rs` 44-86 and `prune_path.rs` 44-86. -/
def pruneNext (M : Pipe S V σ) (grow : Nat → Nat) (f : σ → List Nat → V → σ × Bool) (s : Pipe.PruneState S × Buf) (w : σ) :
    Except Panic (Option V × (Pipe.PruneState S × Buf) × σ) :=
  match _h : M.next s.1.inner w with
  | .error e => .error e
  | .ok (none, s', w') => .ok (none, (⟨s', [], []⟩, s.2.release), w')
  | .ok (some v, s', w') =>
    let vs := Pipe.adjust (M.path s').length s.1.pruned s.1.current
    let b := s.2.pushMany grow s.1.current.length ((M.path s').length - s.1.pruned.length)
    if (f w' (M.path s') v).2 then
      match Pipe.count vs.1 vs.2 with
      | .error e => .error e
      | .ok pruned => pruneNext M grow f (⟨M.prune s', pruned, vs.2⟩, b) (f w' (M.path s') v).1
    else .ok (some v, (⟨s', vs.1, vs.2⟩, b), (f w' (M.path s') v).1)
termination_by M.size s.1.inner
decreasing_by exact Nat.lt_of_le_of_lt (M.size_prune _) (M.size_next (by assumption))

/-- `PrunePath`: `tree_iterators/prune_path.rs` 44-86, 95-101; and `Prune`: `tree_iterators/prune.rs` 44-86, 95-101. -/
def prunePath (M : BufPipe S V σ) (grow : Nat → Nat) (f : σ → List Nat → V → σ × Bool) :
    BufPipe (Pipe.PruneState S × Buf) V σ where
  next := pruneNext M.toPipe grow f
  path s := s.1.current
  prune s := ({ s.1 with inner := M.prune s.1.inner }, s.2)
  size s := M.size s.1.inner
  size_next := by
    intro s w v s' w' h
    fun_induction pruneNext M.toPipe grow f s w with
    | case1 => simp at h
    | case2 => simp at h
    | case3 => simp at h
    | case4 s w v1 s1 w1 h1 _ _ _ _ _ ih =>
      exact Nat.lt_trans (ih h) (Nat.lt_of_le_of_lt (M.size_prune _) (M.size_next h1))
    | case5 s w v1 s1 w1 h1 _ _ _ =>
      simp only [Except.ok.injEq, Prod.mk.injEq] at h
      rw [← h.2.1]
      exact M.size_next h1
  size_prune s := M.size_prune s.1.inner
  path_prune _ := rfl
  prune_prune s := by simp [M.prune_prune]
  buf s := s.2

/-- `next` of `MapPath` as the last stage, `tree_iterators/map_path.rs` 39-45, as far as the closure's slice goes.  `f` is what
the closure does to what the closures of the pipeline share. -/
def mapPath (M : BufPipe S V σ) (f : σ → Slice → V → σ) (s : S × σ) : Except Panic (Option Slice × (S × σ)) :=
  match M.next s.1 s.2 with
  | .error e => .error e
  | .ok (none, s', w') => .ok (none, (s', w'))
  | .ok (some v, s', w') =>
    let x : Slice := ⟨(M.buf s.1).id, (M.path s.1).length, (M.buf s').id⟩
    .ok (some x, (s', f w' x v))

end BufPipe

namespace Chain
variable {σ : Type w} {V : Type v} {S : Type u}

/-- As `Chain.St`, with the vectors of the stages that hold a path. -/
def BSt (S : Type u) : {W : Type v} → Chain σ V W → Type u
  | _, source => S
  | _, map c _ => c.BSt S
  | _, prune c _ => Pipe.PruneState (c.BSt S) × Buf
  | _, prunePath c _ => Pipe.PruneState (c.BSt S) × Buf
  | _, pruneDepth c _ => c.BSt S

/-- As `Chain.pipe`. -/
def bufPipe (grow : Nat → Nat) (M : BufPipe S V σ) : {W : Type v} → (c : Chain σ V W) → BufPipe (c.BSt S) W σ
  | _, source => M
  | _, map c f => (c.bufPipe grow M).map f
  | _, prune c f => (c.bufPipe grow M).prunePath grow fun w _ v => f w v
  | _, prunePath c f => (c.bufPipe grow M).prunePath grow f
  | _, pruneDepth c d => (c.bufPipe grow M).pruneDepth d

/-- As `Chain.init`. -/
def bufInit (s : S) : {W : Type v} → (c : Chain σ V W) → c.BSt S
  | _, source => s
  | _, map c _ => c.bufInit s
  | _, prune c _ => (.new (c.bufInit s), .none)
  | _, prunePath c _ => (.new (c.bufInit s), .none)
  | _, pruneDepth c _ => c.bufInit s

/-- As `Chain.binPipe`. -/
def binBufPipe (M : BufPipe S V σ) : {W : Type v} → Chain σ V W → BufPipe S W σ
  | _, source => M
  | _, map c f => (c.binBufPipe M).map f
  | _, prune c f => (c.binBufPipe M).binPrune f
  | _, prunePath c f => (c.binBufPipe M).binPrunePath f
  | _, pruneDepth c d => (c.binBufPipe M).pruneDepth d

/-- As `Chain.collPipe`. -/
def collBufPipe (grow : Nat → Nat) (M : BufPipe S V σ) : {W : Type v} → (c : Chain σ V W) → BufPipe (c.BSt S) W σ
  | _, source => M
  | _, map c f => (c.collBufPipe grow M).map f
  | _, prune c f => (c.collBufPipe grow M).prunePath grow fun w _ v => f w v
  | _, prunePath c f => (c.collBufPipe grow M).prunePath grow f
  | _, pruneDepth c d => (c.collBufPipe grow M).collPruneDepth d

/-- As `Chain.collInit`; `prune_path` pushes onto its vectors when it is made (`tree_collection_iterators/prune_path.rs` 25-39). -/
def collBufInit (grow : Nat → Nat) (s : S) : {W : Type v} → (c : Chain σ V W) → c.BSt S
  | _, source => s
  | _, map c _ => c.collBufInit grow s
  | _, prune c _ => (CollPipe.pruneNew (c.collBufInit grow s), .none)
  | _, prunePath c _ => (CollPipe.prunePathNew (c.collBufInit grow s), Buf.none.push grow 0)
  | _, pruneDepth c _ => c.collBufInit grow s

/-- As `Chain.binCollPipe`. -/
def binCollBufPipe (M : BufPipe S V σ) : {W : Type v} → Chain σ V W → BufPipe S W σ
  | _, source => M
  | _, map c f => (c.binCollBufPipe M).map f
  | _, prune c f => (c.binCollBufPipe M).binPrune f
  | _, prunePath c f => (c.binCollBufPipe M).binPrunePath f
  | _, pruneDepth c d => (c.binCollBufPipe M).collPruneDepth d

end Chain

namespace Api
variable {N : Type u} {V W : Type v} {σ : Type w}

/-- The slice in call number `k` of the closure of `map_path` after the stages `c` on a general tree. -/
def mapPathSliceAfter [TreeNode N V] (grow : Nat → Nat) (c : Chain σ V W) (f : σ → Slice → W → σ) (n : N) (w : σ) (k : Nat) :
    Except Panic (Option Slice) :=
  nthCallE ((c.bufPipe grow (.ofSource (Track.pipe (N := N) σ) (Track.spied.after grow))).mapPath f) k
    (c.bufInit (.new n [], .none), w)

/-- As `mapPathSliceAfter` for a binary tree. -/
def binMapPathSliceAfter [BinNode N V] (grow : Nat → Nat) (c : Chain σ V W) (f : σ → Slice → W → σ) (n : N) (w : σ) (k : Nat) :
    Except Panic (Option Slice) :=
  nthCallE ((c.binBufPipe (.ofSource (Track.binPipe (N := N) σ) (Track.binSpied.after grow))).mapPath f) k ((.new n [], .none), w)

/-- As `mapPathSliceAfter` for a collection of general trees. -/
def collMapPathSliceAfter [TreeNode N V] (grow : Nat → Nat) (c : Chain σ V W) (f : σ → Slice → W → σ) (ns : List N) (w : σ)
    (k : Nat) : Except Panic (Option Slice) :=
  nthCallE ((c.collBufPipe grow (.ofSource (collPipe N σ) (BufPipe.collAfter Track.spied grow startAt))).mapPath f) k
    (c.collBufInit grow (.new ns, .none), w)

/-- As `mapPathSliceAfter` for a collection of binary trees. -/
def binCollMapPathSliceAfter [BinNode N V] (grow : Nat → Nat) (c : Chain σ V W) (f : σ → Slice → W → σ) (ns : List N) (w : σ)
    (k : Nat) : Except Panic (Option Slice) :=
  nthCallE ((c.binCollBufPipe (.ofSource (binCollPipe N σ) (BufPipe.collAfter Track.binSpied grow binStartAt))).mapPath f) k
    ((.new ns, .none), w)

end Api

end TreeIter
