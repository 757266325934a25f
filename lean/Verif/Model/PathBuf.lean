import Verif.Model.CollectionPipeline

/-! # The memory of the path that `map_path` shows to its closure

`map_path` takes a pointer to the path before it asks the iterator behind it for the next value, and hands the slice
behind that pointer to the closure afterwards.  The path is a `Vec`: asking for the next value may push onto it, which
moves it to another allocation when it is full, and a collection replaces it when it goes on to the next tree.  Here
the allocations are numbered, and every call of the closure records which allocation its slice lies in and which
allocation is live by then.

Simplified: only `map_path` directly after `into_pipeline()`; `Verif.Model.PathBufChain` has other stages in between, for single
trees.
The memory of the path is the only memory that is modelled.  An allocation is never given the number of an earlier one. -/

universe u v w

namespace TreeIter

/-- The buffer of a `Vec<usize>`: the number of its allocation, and its capacity.  Capacity `0` means no allocation. -/
structure Buf where
  id : Nat
  cap : Nat
  deriving Repr, DecidableEq

/-- `Vec::new()`. -/
def Buf.none : Buf := ⟨0, 0⟩

/-- `Vec::push` on a vector holding `len` elements: a full vector moves to a new allocation of capacity `grow cap`, and
the old allocation is freed. -/
def Buf.push (grow : Nat → Nat) (b : Buf) (len : Nat) : Buf :=
  if len < b.cap then b else ⟨b.id + 1, grow b.cap⟩

/-- `let mut path = Vec::new(); path.push(index)` and the assignment that drops the iterator over the tree before, and its path with
it: `dfs_preorder_iterators/owned.rs` 92-97. -/
def Buf.renew (grow : Nat → Nat) (b : Buf) : Buf := ⟨b.id + 1, grow 0⟩

/-- The slice the closure gets: the allocation and the length it was taken with, and the allocation of the path when the
closure is called. -/
structure Slice where
  id : Nat
  len : Nat
  live : Nat
  deriving Repr, DecidableEq

/-- The slice has elements and they lie in an allocation that has been freed. -/
def Slice.dangles (s : Slice) : Bool := s.len != 0 && s.id != s.live

/-- What matters about a source: its `next`, the length of its path, and whether `next` begins by pushing onto the path. -/
structure Spied (S : Type u) (V : Type v) where
  next : S → Except Panic (Option V × S)
  len : S → Nat
  pushes : S → Bool

namespace Spied
variable {S : Type u} {V : Type v} {N : Type w}

/-- The buffer of the path after `next`: only the push at the start of `next` can move it; popping and writing to the
last element do not. -/
def after (P : Spied S V) (grow : Nat → Nat) (s : S) (b : Buf) : Buf :=
  if P.pushes s then b.push grow (P.len s) else b

/-- `next` of `MapPath`, `tree_iterators/map_path.rs` 39-45, as far as the closure's slice goes. -/
def mapPath (P : Spied S V) (grow : Nat → Nat) (s : S × Buf) : Except Panic (Option Slice × (S × Buf)) :=
  match P.next s.1 with
  | .error e => .error e
  | .ok (v, s') =>
    .ok (v.map fun _ => ⟨s.2.id, P.len s.1, (P.after grow s.1 s.2).id⟩, (s', P.after grow s.1 s.2))

/-- The part of `next` of a collection that goes on to the next tree, `dfs_preorder_iterators/owned.rs` 91-100 and then
85-89; `taken` and `len` are the allocation and the length of the slice taken at the beginning. -/
def collAdvance (P : Spied S V) (grow : Nat → Nat) (start : N → List Nat → S) (taken len : Nat) :
    List N → Nat → Option S → Buf → Except Panic (Option Slice × (CollPipe.State N S × Buf))
  | [], index, current, b => .ok (.none, (⟨[], index, current⟩, b))
  | n :: rest, index, _, b =>
    match P.next (start n [index]) with
    | .error e => .error e
    | .ok (some _, c') =>
      .ok (some ⟨taken, len, (P.after grow (start n [index]) (b.renew grow)).id⟩,
        (⟨rest, index + 1, some c'⟩, P.after grow (start n [index]) (b.renew grow)))
    | .ok (none, c') =>
      collAdvance P grow start taken len rest (index + 1) (some c') (P.after grow (start n [index]) (b.renew grow))

/-- `next` of `CollectionMapPath`, `tree_collection_iterators/map_path.rs` 39-43, as far as the closure's slice goes, on
top of `dfs_preorder_iterators/owned.rs` 83-102 and `current_path` (113-118: `&[]` before the first tree). -/
def collMapPath (P : Spied S V) (grow : Nat → Nat) (start : N → List Nat → S) (s : CollPipe.State N S × Buf) :
    Except Panic (Option Slice × (CollPipe.State N S × Buf)) :=
  match s.1.current with
  | none => collAdvance P grow start s.2.id 0 s.1.rest s.1.index none s.2
  | some c =>
    match P.next c with
    | .error e => .error e
    | .ok (some _, c') =>
      .ok (some ⟨s.2.id, P.len c, (P.after grow c s.2).id⟩, (⟨s.1.rest, s.1.index, some c'⟩, P.after grow c s.2))
    | .ok (none, c') => collAdvance P grow start s.2.id (P.len c) s.1.rest s.1.index (some c') (P.after grow c s.2)

end Spied

namespace Track
variable {N : Type u} {V : Type v}

/-- The source on a general tree: `dfs_preorder_iterators/mod.rs` 37-68; the push is in line 46. -/
def spied [SplitNode N V] : Spied (State N (List N) N) V where
  next := next
  len s := s.path.length
  pushes s := s.root.isNone && s.onDeck.isSome

/-- The source on a binary tree: `dfs_preorder_iterators/mod.rs` 75-111; the push is in line 84. -/
def binSpied [SplitNode2 N V] : Spied (State N (Option N × Option N) (Option N)) V where
  next := binNext
  len s := s.path.length
  pushes s := s.root.isNone && s.onDeck.isSome

end Track

namespace Api
variable {N : Type u} {V : Type v}

/-- The slice in call number `k` of the closure of `into_pipeline().map_path(…)` on a general tree; `grow` gives the
capacity of a vector after it was full with the given capacity.  `prelude.rs` 938-940. -/
def mapPathSlice [SplitNode N V] (grow : Nat → Nat) (n : N) (k : Nat) : Except Panic (Option Slice) :=
  nthCallE (Track.spied (N := N).mapPath grow) k (.new n [], .none)

/-- As `mapPathSlice` for a binary tree.  `prelude.rs` 401-403. -/
def binMapPathSlice [SplitNode2 N V] (grow : Nat → Nat) (n : N) (k : Nat) : Except Panic (Option Slice) :=
  nthCallE (Track.binSpied (N := N).mapPath grow) k (.new n [], .none)

/-- As `mapPathSlice` for a collection of general trees.  `prelude.rs` 3600-3602. -/
def collMapPathSlice [SplitNode N V] (grow : Nat → Nat) (ns : List N) (k : Nat) : Except Panic (Option Slice) :=
  nthCallE (Track.spied (N := N).collMapPath grow (fun n p => .new n p)) k (.new ns, .none)

/-- As `collMapPathSlice` for a collection of binary trees. -/
def binCollMapPathSlice [SplitNode2 N V] (grow : Nat → Nat) (ns : List N) (k : Nat) : Except Panic (Option Slice) :=
  nthCallE (Track.binSpied (N := N).collMapPath grow (fun n p => .new n p)) k (.new ns, .none)

end Api

end TreeIter
