import Verif.Model.Preorder

/-! # Pipelines

`into_pipeline()` and the stages `map_tree`, `map_path`, `prune`, `prune_path`, `prune_depth`:
`tree_iterators_rs/src/dfs_preorder_iterators/{mod,owned}.rs` and
`tree_iterators_rs/src/tree_iterators/*.rs`.

A closure (`FnMut`) is a function `w → args → w × result` on a world `w`: everything the closures can read or
change, shared by all closures of the pipeline.  Closures that panic are in `Model/FailPipe`.

The counters in `Prune` and `PrunePath` are natural numbers: that they fit a `usize` is assumed (they are bounded by
the number of nodes). -/

universe u v w x y z

namespace TreeIter

/-- `TreeIteratorBase` (`tree_iterators/mod.rs` 17-51) and `TreeCollectionIteratorBase`
(`tree_collection_iterators/mod.rs` 24-59): an iterator over the nodes of a tree in preorder that can report the path
of the current node and skip the subtree of the current node.  `size` bounds the number of items still to come; the laws
hold of every implementation in the crate. -/
structure Pipe (S : Type u) (V : Type v) (σ : Type w) where
  next : S → σ → Except Panic (Option V × S × σ)
  /-- `current_path` -/
  path : S → List Nat
  /-- `prune_current_subtree` -/
  prune : S → S
  size : S → Nat
  size_next : ∀ {s w v s' w'}, next s w = .ok (some v, s', w') → size s' < size s
  size_prune : ∀ s, size (prune s) ≤ size s
  path_prune : ∀ s, path (prune s) = path s
  prune_prune : ∀ s, prune (prune s) = prune s

/-! ## The source -/

namespace Track

variable {N : Type u} {V : Type v}

/-- `OwnedDFSPreorderIteratorWithPathTracking`, `dfs_preorder_iterators/owned.rs` 197-205.  `path` and `stack` have
the last element first.  `C` is the type of `Node::OwnedChildren`. -/
structure State (N : Type u) (C : Type v) (I : Type w) where
  root : Option N
  path : List Nat
  onDeck : Option C
  stack : List (List I)

/-- `dfs_preorder_iterators/owned.rs` 211-218. -/
def State.new {C : Type v} {I : Type w} (root : N) (path : List Nat) : State N C I := ⟨some root, path, none, []⟩

/-- `dfs_preorder_iterators/mod.rs` 48-60 (the loop) and 62-66. -/
def loop [SplitNode N V] : List (List N) → List Nat → Except Panic (Option V × State N (List N) N)
  | [], path => .ok (none, ⟨none, path, none, []⟩)
  | (_ :: _) :: _, [] => .error .unwrapNone
  | (c :: cs) :: rest, p :: ps => .ok (some (val c), ⟨none, wrapSucc p :: ps, some (kids c), cs :: rest⟩)
  | [] :: rest, path => loop rest path.tail

/-- `dfs_preorder_iterators/mod.rs` 37-68 (`dfs_preorder_next_with_path_tracking!`). -/
def next [SplitNode N V] (s : State N (List N) N) : Except Panic (Option V × State N (List N) N) :=
  match s.root with
  | some r => .ok (some (val r), { s with root := none, onDeck := some (kids r) })
  | none =>
    match s.onDeck with
    | some cs => loop (cs :: s.stack) (usizeMax :: s.path)
    | none => loop s.stack s.path

/-- `dfs_preorder_iterators/mod.rs` 88-103 (the loop) and 105-109. -/
def binLoop [SplitNode2 N V] : List (List (Option N)) → List Nat →
    Except Panic (Option V × State N (Option N × Option N) (Option N))
  | [], path => .ok (none, ⟨none, path, none, []⟩)
  | (_ :: _) :: _, [] => .error .unwrapNone
  | (some c :: cs) :: rest, p :: ps => .ok (some (val2 c), ⟨none, wrapSucc p :: ps, some (split2 c).2, cs :: rest⟩)
  | (none :: cs) :: rest, p :: ps => binLoop (cs :: rest) (wrapSucc p :: ps)
  | [] :: rest, path => binLoop rest path.tail
termination_by st => (st.map List.length).sum + st.length

/-- `dfs_preorder_iterators/mod.rs` 75-111 (`dfs_preorder_binary_next_with_path_tracking!`). -/
def binNext [SplitNode2 N V] (s : State N (Option N × Option N) (Option N)) :
    Except Panic (Option V × State N (Option N × Option N) (Option N)) :=
  match s.root with
  | some r => .ok (some (val2 r), { s with root := none, onDeck := some (split2 r).2 })
  | none =>
    match s.onDeck with
    | some cs => binLoop ([cs.1, cs.2] :: s.stack) (usizeMax :: s.path)
    | none => binLoop s.stack s.path

/-- The number of nodes below the given nodes, themselves included. -/
def nodes [TreeNode N V] (ns : List N) : Nat := (ns.map fun n => (unfold n).size).sum

/-- The number of nodes still to come. -/
def size [TreeNode N V] (s : State N (List N) N) : Nat :=
  nodes s.root.toList + nodes (s.onDeck.getD []) + (s.stack.map nodes).sum

theorem nodes_cons [TreeNode N V] (n : N) (ns : List N) : nodes (n :: ns) = 1 + nodes (kids n) + nodes ns := by
  rw [nodes, List.map_cons, List.sum_cons, unfold_eq, Tree.size, Tree.sizeL_eq, List.map_map]
  rfl

theorem loop_size [TreeNode N V] {st : List (List N)} {path : List Nat} {v : V} {s' : State N (List N) N}
    (h : loop st path = .ok (some v, s')) : size s' < (st.map nodes).sum := by
  fun_induction loop st path with
  | case1 => simp at h
  | case2 => simp at h
  | case3 c cs rest p ps =>
    simp only [Except.ok.injEq, Prod.mk.injEq] at h
    rw [← h.2]
    simp only [size, Option.toList_none, Option.getD_some, List.map_cons, List.sum_cons, nodes_cons]
    have : nodes ([] : List N) = 0 := rfl
    omega
  | case4 rest path ih =>
    have := ih h
    simpa [nodes] using this

theorem next_size [TreeNode N V] {s : State N (List N) N} {v : V} {s' : State N (List N) N}
    (h : next s = .ok (some v, s')) : size s' < size s := by
  obtain ⟨root, path, onDeck, stack⟩ := s
  rcases root with _ | r
  · rcases onDeck with _ | cs
    · have := loop_size (show loop stack path = _ from h)
      simpa [size, nodes] using this
    · have := loop_size (show loop (cs :: stack) _ = _ from h)
      simpa [size, nodes] using this
  · simp only [next, Except.ok.injEq, Prod.mk.injEq] at h
    rw [← h.2]
    have h1 : nodes [r] = 1 + nodes (kids r) + 0 := nodes_cons r []
    simp only [size, Option.toList_none, Option.toList_some, Option.getD_some, h1]
    have : nodes ([] : List N) = 0 := rfl
    omega

/-- `into_pipeline()` on a general tree: `prelude.rs` 938-940; `current_path` and `prune_current_subtree`:
`dfs_preorder_iterators/owned.rs` 234-240. -/
def pipe [TreeNode N V] (σ : Type w) : Pipe (State N (List N) N) V σ where
  next s w :=
    match next s with
    | .error e => .error e
    | .ok (v, s') => .ok (v, s', w)
  path s := s.path.reverse
  prune s := { s with onDeck := none }
  size := size
  size_next := by
    intro s w v s' w' h
    split at h
    · simp at h
    · next h1 =>
      simp only [Except.ok.injEq, Prod.mk.injEq] at h
      rw [h.1, h.2.1] at h1
      exact next_size h1
  size_prune s := by simp [size, nodes]
  path_prune _ := rfl
  prune_prune _ := rfl

/-- The number of nodes below the given slots. -/
def binNodes [BinNode N V] (ns : List (Option N)) : Nat := nodes (ns.filterMap id)

/-- The number of nodes still to come. -/
def binSize [BinNode N V] (s : State N (Option N × Option N) (Option N)) : Nat :=
  nodes s.root.toList + (s.onDeck.map fun p => binNodes [p.1, p.2]).getD 0 + (s.stack.map binNodes).sum

theorem binLoop_size [BinNode N V] {st : List (List (Option N))} {path : List Nat} {v : V}
    {s' : State N (Option N × Option N) (Option N)}
    (h : binLoop st path = .ok (some v, s')) : binSize s' < (st.map binNodes).sum := by
  fun_induction binLoop st path with
  | case1 => simp at h
  | case2 => simp at h
  | case3 c cs rest p ps =>
    simp only [Except.ok.injEq, Prod.mk.injEq] at h
    rw [← h.2]
    have h1 : binNodes (some c :: cs) = 1 + nodes (kids c) + binNodes cs := nodes_cons c _
    have h2 : binNodes [(split2 c).2.1, (split2 c).2.2] = nodes (kids c) := rfl
    simp only [binSize, Option.toList_none, Option.getD_some, List.map_cons, List.sum_cons, h1, h2, Option.map_some]
    have : nodes ([] : List N) = 0 := rfl
    omega
  | case4 cs rest p ps ih =>
    have := ih h
    simpa [binNodes] using this
  | case5 rest path ih =>
    have := ih h
    simpa [binNodes, nodes] using this

theorem binNext_size [BinNode N V] {s : State N (Option N × Option N) (Option N)} {v : V}
    {s' : State N (Option N × Option N) (Option N)} (h : binNext s = .ok (some v, s')) : binSize s' < binSize s := by
  obtain ⟨root, path, onDeck, stack⟩ := s
  rcases root with _ | r
  · rcases onDeck with _ | cs
    · have := binLoop_size (show binLoop stack path = _ from h)
      simpa [binSize, nodes] using this
    · have := binLoop_size (show binLoop ([cs.1, cs.2] :: stack) _ = _ from h)
      simpa [binSize, nodes] using this
  · simp only [binNext, Except.ok.injEq, Prod.mk.injEq] at h
    rw [← h.2]
    have h1 : nodes [r] = 1 + nodes (kids r) + 0 := nodes_cons r []
    have h2 : binNodes [(split2 r).2.1, (split2 r).2.2] = nodes (kids r) := rfl
    simp only [binSize, Option.toList_none, Option.toList_some, Option.map_some, Option.getD_some, h1, h2]
    have : nodes ([] : List N) = 0 := rfl
    omega

/-- `into_pipeline()` on a binary tree: `prelude.rs` 401-403; `current_path` and `prune_current_subtree`:
`dfs_preorder_iterators/owned.rs` 540-546. -/
def binPipe [BinNode N V] (σ : Type w) : Pipe (State N (Option N × Option N) (Option N)) V σ where
  next s w :=
    match binNext s with
    | .error e => .error e
    | .ok (v, s') => .ok (v, s', w)
  path s := s.path.reverse
  prune s := { s with onDeck := none }
  size := binSize
  size_next := by
    intro s w v s' w' h
    split at h
    · simp at h
    · next h1 =>
      simp only [Except.ok.injEq, Prod.mk.injEq] at h
      rw [h.1, h.2.1] at h1
      exact binNext_size h1
  size_prune s := by simp [binSize]
  path_prune _ := rfl
  prune_prune _ := rfl

end Track

/-! ## Stages -/

namespace Pipe

variable {S : Type u} {V : Type v} {W : Type x} {σ : Type w}

/-- `map_tree`: `tree_iterators/map.rs` 38-40, 49-55 (collections: `tree_collection_iterators/map.rs` 39-41, 50-56). -/
def map (M : Pipe S V σ) (f : σ → V → σ × W) : Pipe S W σ where
  next s w :=
    match M.next s w with
    | .error e => .error e
    | .ok (none, s', w') => .ok (none, s', w')
    | .ok (some v, s', w') => .ok (some (f w' v).2, s', (f w' v).1)
  path := M.path
  prune := M.prune
  size := M.size
  size_next := by
    intro s w v s' w' h
    split at h
    · simp at h
    · simp at h
    · next h1 =>
      simp only [Except.ok.injEq, Prod.mk.injEq] at h
      rw [← h.2.1]
      exact M.size_next h1
  size_prune := M.size_prune
  path_prune := M.path_prune
  prune_prune := M.prune_prune

/-- `map_path`: `tree_iterators/map_path.rs` 39-45, 54-60 (collections: `tree_collection_iterators/map_path.rs` 39-43).
The pointer to `current_path` is taken before `inner.next()` and dereferenced after it: the slice has the length of the
old path, and its contents are whatever is at that address then.  `stale w old new` are those contents, given the
world, the old path and the new one; it is arbitrary in the theorems, but for its length. -/
def mapPath (M : Pipe S V σ) (stale : σ → List Nat → List Nat → List Nat) (f : σ → List Nat → V → σ × W) :
    Pipe S W σ where
  next s w :=
    match M.next s w with
    | .error e => .error e
    | .ok (none, s', w') => .ok (none, s', w')
    | .ok (some v, s', w') =>
      .ok (some (f w' (stale w' (M.path s) (M.path s')) v).2, s', (f w' (stale w' (M.path s) (M.path s')) v).1)
  path := M.path
  prune := M.prune
  size := M.size
  size_next := by
    intro s w v s' w' h
    split at h
    · simp at h
    · simp at h
    · next h1 =>
      simp only [Except.ok.injEq, Prod.mk.injEq] at h
      rw [← h.2.1]
      exact M.size_next h1
  size_prune := M.size_prune
  path_prune := M.path_prune
  prune_prune := M.prune_prune

/-- `current_depth` of a pipeline on a tree: `tree_iterators/mod.rs` 43-45. -/
def treeDepth (path : List Nat) : Except Panic Nat := .ok path.length

/-- `current_depth` of a pipeline on a collection: `tree_collection_iterators/mod.rs` 49-51, `len() - 1`. -/
def collDepth : List Nat → Except Panic Nat
  | [] => .error .overflow
  | _ :: path => .ok path.length

/-- `prune_depth`: `tree_iterators/prune_depth.rs` 21-31, 39-48 (collections:
`tree_collection_iterators/prune_depth.rs` 21-31); `depthOf` computes `current_depth()` from the path. -/
def pruneDepth (M : Pipe S V σ) (depthOf : List Nat → Except Panic Nat) (depth : Nat) : Pipe S V σ where
  next s w :=
    match M.next s w with
    | .error e => .error e
    | .ok (none, s', w') => .ok (none, s', w')
    | .ok (some v, s', w') =>
      match depthOf (M.path s') with
      | .error e => .error e
      | .ok d => .ok (some v, if d = depth then M.prune s' else s', w')
  path := M.path
  prune := M.prune
  size := M.size
  size_next := by
    intro s w v s' w' h
    split at h
    · simp at h
    · simp at h
    · next s1 _ h1 =>
      split at h
      · simp at h
      · simp only [Except.ok.injEq, Prod.mk.injEq] at h
        rw [← h.2.1]
        split
        · exact Nat.lt_of_le_of_lt (M.size_prune s1) (M.size_next h1)
        · exact M.size_next h1
  size_prune := M.size_prune
  path_prune := M.path_prune
  prune_prune := M.prune_prune

/-- `BinaryPrune::next`: `tree_iterators/prune.rs` 145-156 (collections: `tree_collection_iterators/prune.rs` 146-157). -/
def binPruneNext (M : Pipe S V σ) (f : σ → V → σ × Bool) (s : S) (w : σ) : Except Panic (Option V × S × σ) :=
  match _h : M.next s w with
  | .error e => .error e
  | .ok (none, s', w') => .ok (none, s', w')
  | .ok (some v, s', w') =>
    if (f w' v).2 then binPruneNext M f (M.prune s') (f w' v).1 else .ok (some v, s', (f w' v).1)
termination_by M.size s
decreasing_by exact Nat.lt_of_le_of_lt (M.size_prune _) (M.size_next (by assumption))

/-- `BinaryPrune`: `tree_iterators/prune.rs` 145-156, 165-171. -/
def binPrune (M : Pipe S V σ) (f : σ → V → σ × Bool) : Pipe S V σ where
  next := binPruneNext M f
  path := M.path
  prune := M.prune
  size := M.size
  size_next := by
    intro s w v s' w' h
    fun_induction binPruneNext M f s w with
    | case1 => simp at h
    | case2 => simp at h
    | case3 s w v1 s1 w1 h1 _ ih =>
      exact Nat.lt_trans (ih h) (Nat.lt_of_le_of_lt (M.size_prune _) (M.size_next h1))
    | case4 s w v1 s1 w1 h1 _ =>
      simp only [Except.ok.injEq, Prod.mk.injEq] at h
      rw [← h.2.1]
      exact M.size_next h1
  size_prune := M.size_prune
  path_prune := M.path_prune
  prune_prune := M.prune_prune

/-- `BinaryPrunePath::next`: `tree_iterators/prune_path.rs` 145-157 (collections:
`tree_collection_iterators/prune_path.rs` 151-163). -/
def binPrunePathNext (M : Pipe S V σ) (f : σ → List Nat → V → σ × Bool) (s : S) (w : σ) :
    Except Panic (Option V × S × σ) :=
  match _h : M.next s w with
  | .error e => .error e
  | .ok (none, s', w') => .ok (none, s', w')
  | .ok (some v, s', w') =>
    if (f w' (M.path s') v).2 then binPrunePathNext M f (M.prune s') (f w' (M.path s') v).1
    else .ok (some v, s', (f w' (M.path s') v).1)
termination_by M.size s
decreasing_by exact Nat.lt_of_le_of_lt (M.size_prune _) (M.size_next (by assumption))

/-- `BinaryPrunePath`: `tree_iterators/prune_path.rs` 145-157, 166-172. -/
def binPrunePath (M : Pipe S V σ) (f : σ → List Nat → V → σ × Bool) : Pipe S V σ where
  next := binPrunePathNext M f
  path := M.path
  prune := M.prune
  size := M.size
  size_next := by
    intro s w v s' w' h
    fun_induction binPrunePathNext M f s w with
    | case1 => simp at h
    | case2 => simp at h
    | case3 s w v1 s1 w1 h1 _ ih =>
      exact Nat.lt_trans (ih h) (Nat.lt_of_le_of_lt (M.size_prune _) (M.size_next h1))
    | case4 s w v1 s1 w1 h1 _ =>
      simp only [Except.ok.injEq, Prod.mk.injEq] at h
      rw [← h.2.1]
      exact M.size_next h1
  size_prune := M.size_prune
  path_prune := M.path_prune
  prune_prune := M.prune_prune

/-- State of `Prune` and `PrunePath`: `tree_iterators/prune.rs` 7-18, `prune_path.rs` 7-18 (and the collection
versions). Both vectors have the last element last. -/
structure PruneState (S : Type u) where
  inner : S
  pruned : List Nat
  current : List Nat

/-- `*last_path_segment += 1` on the last element, if any: `tree_iterators/prune.rs` 62-64. -/
def bumpLast (l : List Nat) : List Nat :=
  match l.getLast? with
  | none => l
  | some i => l.dropLast ++ [i + 1]

/-- `tree_iterators/prune.rs` 48-65: the two vectors after the inner iterator has moved to a node whose path has
length `len`. The loop at 51-57 pushes zeros until the first vector has length `len`. -/
def adjust (len : Nat) (pruned current : List Nat) : List Nat × List Nat :=
  if pruned.length < len then
    (pruned ++ List.replicate (len - pruned.length) 0, current ++ List.replicate (len - pruned.length) 0)
  else if pruned.length > len then (pruned.take len, bumpLast (current.take len))
  else (pruned, current)

/-- `tree_iterators/prune.rs` 69-73: count the pruned node; the index is checked. -/
def count (pruned current : List Nat) : Except Panic (List Nat) :=
  if current.length > 0 then
    match pruned[current.length - 1]? with
    | none => .error .indexOutOfRange
    | some c => .ok (pruned.set (current.length - 1) (c + 1))
  else .ok pruned

/-- `Prune::next`: `tree_iterators/prune.rs` 44-86, and `PrunePath::next`: `tree_iterators/prune_path.rs` 44-86 (and the
collection versions, `tree_collection_iterators/prune.rs` 44-86 and `prune_path.rs` 49-91).  The four differ in the
arguments of the closure: here it is given the inner path too. -/
def pruneNext (M : Pipe S V σ) (f : σ → List Nat → V → σ × Bool) (s : PruneState S) (w : σ) :
    Except Panic (Option V × PruneState S × σ) :=
  match _h : M.next s.inner w with
  | .error e => .error e
  | .ok (none, s', w') => .ok (none, ⟨s', [], []⟩, w')
  | .ok (some v, s', w') =>
    let vs := adjust (M.path s').length s.pruned s.current
    if (f w' (M.path s') v).2 then
      match count vs.1 vs.2 with
      | .error e => .error e
      | .ok pruned => pruneNext M f ⟨M.prune s', pruned, vs.2⟩ (f w' (M.path s') v).1
    else .ok (some v, ⟨s', vs.1, vs.2⟩, (f w' (M.path s') v).1)
termination_by M.size s.inner
decreasing_by exact Nat.lt_of_le_of_lt (M.size_prune _) (M.size_next (by assumption))

/-- `PrunePath`: `tree_iterators/prune_path.rs` 44-86, 95-101. -/
def prunePath (M : Pipe S V σ) (f : σ → List Nat → V → σ × Bool) : Pipe (PruneState S) V σ where
  next := pruneNext M f
  path s := s.current
  prune s := { s with inner := M.prune s.inner }
  size s := M.size s.inner
  size_next := by
    intro s w v s' w' h
    fun_induction pruneNext M f s w with
    | case1 => simp at h
    | case2 => simp at h
    | case3 => simp at h
    | case4 s w v1 s1 w1 h1 _ _ _ _ ih =>
      exact Nat.lt_trans (ih h) (Nat.lt_of_le_of_lt (M.size_prune _) (M.size_next h1))
    | case5 s w v1 s1 w1 h1 _ _ =>
      simp only [Except.ok.injEq, Prod.mk.injEq] at h
      rw [← h.2.1]
      exact M.size_next h1
  size_prune s := M.size_prune s.inner
  path_prune _ := rfl
  prune_prune s := by simp [M.prune_prune]

/-- `Prune`: `tree_iterators/prune.rs` 44-86, 95-101. -/
def prunePipe (M : Pipe S V σ) (f : σ → V → σ × Bool) : Pipe (PruneState S) V σ :=
  M.prunePath fun w _ v => f w v

/-- `Prune::new` and `PrunePath::new`: `tree_iterators/prune.rs` 25-34, `prune_path.rs` 25-34. -/
def PruneState.new (s : S) : PruneState S := ⟨s, [], []⟩

end Pipe

/-! ## Driving a pipeline by hand -/

section
variable {S : Type u} {V : Type v} {σ : Type w}

/-- A client loop, `while let Some(item) = p.next() { .. p.current_path() .. }`: every item the pipeline emits, with the
path reported then. -/
def Pipe.emits (M : Pipe S V σ) (s : S) (w : σ) : Except Panic (List (V × List Nat) × σ) :=
  match _h : M.next s w with
  | .error e => .error e
  | .ok (none, _, w') => .ok ([], w')
  | .ok (some item, s', w') =>
    match Pipe.emits M s' w' with
    | .error e => .error e
    | .ok (l, w'') => .ok ((item, M.path s') :: l, w'')
termination_by M.size s
decreasing_by exact M.size_next (by assumption)

end

/-! ## Ends of a pipeline: general trees -/

namespace Pipe

variable {S : Type u} {V : Type v} {O : Type x} {σ : Type w} {τ : Type y}

/-- `tree_iterators/mod.rs` 296-306 with `limit = current_depth`, and 314-324 with `limit = 1`: while the stack is
longer than `limit`, the top becomes the last child of the one below. The top of the stack is the head. -/
def collapse (limit : Nat) : List (Tree V) → Except Panic (List (Tree V))
  | [] => .ok []
  | [t] => if 1 > limit then .error .unwrapNone else .ok [t]
  | t :: .node a cs :: rest =>
    if rest.length + 2 > limit then collapse limit (.node a (cs ++ [t]) :: rest) else .ok (t :: .node a cs :: rest)
termination_by l => l.length

/-- `tree_iterators/mod.rs` 295-312. -/
def collectLoop (M : Pipe S V σ) (s : S) (w : σ) (keep : List (Tree V)) : Except Panic (List (Tree V) × σ) :=
  match _h : M.next s w with
  | .error e => .error e
  | .ok (none, _, w') => .ok (keep, w')
  | .ok (some item, s', w') =>
    match collapse (M.path s').length keep with
    | .error e => .error e
    | .ok keep' => collectLoop M s' w' (.node item [] :: keep')
termination_by M.size s
decreasing_by exact M.size_next (by assumption)

/-- `collect_tree`: `tree_iterators/mod.rs` 293-327. -/
def collectTree (M : Pipe S V σ) (s : S) (w : σ) : Except Panic (Option (Tree V) × σ) :=
  match collectLoop M s w [] with
  | .error e => .error e
  | .ok (keep, w') =>
    match collapse 1 keep with
    | .error e => .error e
    | .ok keep' => .ok (keep'.head?, w')

/-- `tree_iterators/mod.rs` 386-391 and 397-402 (`limit = 1`).  The closure's state `t` is separate from the world of
the pipeline's closures. -/
def foldCollapse (f : τ → List O → V → τ × O) (limit : Nat) :
    List V → List (List O) → τ → Except Panic (List V × List (List O) × τ)
  | inv, [], t => .ok (inv, [], t)
  | inv, items :: rest, t =>
    if rest.length + 1 > limit then
      match inv, rest with
      | [], _ => .error .unwrapNone
      | _ :: _, [] => .error .unwrapNone
      | v :: inv, last :: rest =>
        foldCollapse f limit inv ((last ++ [(f t items v).2]) :: rest) (f t items v).1
    else .ok (inv, items :: rest, t)
termination_by _ l => l.length

/-- `tree_iterators/mod.rs` 385-396. -/
def foldLoop (M : Pipe S V σ) (f : τ → List O → V → τ × O) (s : S) (w : σ) (inv : List V) (folded : List (List O))
    (t : τ) : Except Panic (List V × List (List O) × τ × σ) :=
  match _h : M.next s w with
  | .error e => .error e
  | .ok (none, _, w') => .ok (inv, folded, t, w')
  | .ok (some item, s', w') =>
    match foldCollapse f (M.path s').length inv folded t with
    | .error e => .error e
    | .ok (inv', folded', t') => foldLoop M f s' w' (item :: inv') ([] :: folded') t'
termination_by M.size s
decreasing_by exact M.size_next (by assumption)

/-- `fold_tree`: `tree_iterators/mod.rs` 379-407. -/
def foldTree (M : Pipe S V σ) (f : τ → List O → V → τ × O) (s : S) (w : σ) (t : τ) :
    Except Panic (Option O × τ × σ) :=
  match foldLoop M f s w [] [] t with
  | .error e => .error e
  | .ok (inv, folded, t, w') =>
    match foldCollapse f 1 inv folded t with
    | .error e => .error e
    | .ok ([], _, t) => .ok (none, t, w')
    | .ok (root :: _, folded, t) => .ok (some (f t (folded.head?.getD []) root).2, (f t (folded.head?.getD []) root).1, w')

/-- `tree_iterators/mod.rs` 421-427 and 435-441 (`limit = 1`). `paths` has the last element first. -/
def foldPathCollapse (f : τ → List O → List Nat → V → τ × O) (limit : Nat) :
    List V → List (List O) → List Nat → τ → Except Panic (List V × List (List O) × List Nat × τ)
  | inv, [], paths, t => .ok (inv, [], paths, t)
  | inv, items :: rest, paths, t =>
    if rest.length + 1 > limit then
      match inv, rest with
      | [], _ => .error .unwrapNone
      | _ :: _, [] => .error .unwrapNone
      | v :: inv, last :: rest =>
        foldPathCollapse f limit inv ((last ++ [(f t items paths.reverse v).2]) :: rest) paths.tail
          (f t items paths.reverse v).1
    else .ok (inv, items :: rest, paths, t)
termination_by _ l => l.length

/-- `tree_iterators/mod.rs` 429-433: pushing an item. -/
def pushPath (cur paths : List Nat) : Except Panic (List Nat) :=
  if paths.length < cur.length then
    match cur.getLast? with
    | none => .error .unwrapNone
    | some i => .ok (i :: paths)
  else .ok paths

/-- `tree_iterators/mod.rs` 420-434. -/
def foldPathLoop (M : Pipe S V σ) (f : τ → List O → List Nat → V → τ × O) (s : S) (w : σ) (inv : List V)
    (folded : List (List O)) (paths : List Nat) (t : τ) :
    Except Panic (List V × List (List O) × List Nat × τ × σ) :=
  match _h : M.next s w with
  | .error e => .error e
  | .ok (none, _, w') => .ok (inv, folded, paths, t, w')
  | .ok (some item, s', w') =>
    match foldPathCollapse f (M.path s').length inv folded paths t with
    | .error e => .error e
    | .ok (inv', folded', paths', t') =>
      match pushPath (M.path s') paths' with
      | .error e => .error e
      | .ok paths'' => foldPathLoop M f s' w' (item :: inv') ([] :: folded') paths'' t'
termination_by M.size s
decreasing_by exact M.size_next (by assumption)

/-- `fold_path`: `tree_iterators/mod.rs` 412-446. -/
def foldPath (M : Pipe S V σ) (f : τ → List O → List Nat → V → τ × O) (s : S) (w : σ) (t : τ) :
    Except Panic (Option O × τ × σ) :=
  match foldPathLoop M f s w [] [] [] t with
  | .error e => .error e
  | .ok (inv, folded, paths, t, w') =>
    match foldPathCollapse f 1 inv folded paths t with
    | .error e => .error e
    | .ok ([], _, _, t) => .ok (none, t, w')
    | .ok (root :: _, folded, _, t) =>
      .ok (some (f t (folded.head?.getD []) [] root).2, (f t (folded.head?.getD []) [] root).1, w')

/-! ## Ends of a pipeline: binary trees -/

/-- `tree_iterators/mod.rs` 576-582 and 606-612. -/
def putSlot (i : Nat) (child : BinTree V) : BinTree V → Except Panic (BinTree V)
  | .node a l r =>
    match i with
    | 0 => .ok (.node a (some child) r)
    | 1 => .ok (.node a l (some child))
    | _ => .error .unreachable

/-- `tree_iterators/mod.rs` 567-583 with `limit = current_depth`, and 597-613 with `limit = 1`. -/
def binCollapse (limit : Nat) : List (Nat × BinTree V) → Except Panic (List (Nat × BinTree V))
  | [] => .ok []
  | [t] => if 1 > limit then .error .unwrapNone else .ok [t]
  | t :: u :: rest =>
    if rest.length + 2 > limit then
      match putSlot t.1 t.2 u.2 with
      | .error e => .error e
      | .ok u' => binCollapse limit ((u.1, u') :: rest)
    else .ok (t :: u :: rest)
termination_by l => l.length

/-- `tree_iterators/mod.rs` 566-595. -/
def binCollectLoop (M : Pipe S V σ) (s : S) (w : σ) (keep : List (Nat × BinTree V)) :
    Except Panic (List (Nat × BinTree V) × σ) :=
  match _h : M.next s w with
  | .error e => .error e
  | .ok (none, _, w') => .ok (keep, w')
  | .ok (some item, s', w') =>
    match binCollapse (M.path s').length keep with
    | .error e => .error e
    | .ok keep' => binCollectLoop M s' w' (((M.path s').getLast?.getD 0, .node item none none) :: keep')
termination_by M.size s
decreasing_by exact M.size_next (by assumption)

/-- `BinaryTreeIterator::collect_tree`: `tree_iterators/mod.rs` 564-616. -/
def binCollectTree (M : Pipe S V σ) (s : S) (w : σ) : Except Panic (Option (BinTree V) × σ) :=
  match binCollectLoop M s w [] with
  | .error e => .error e
  | .ok (keep, w') =>
    match binCollapse 1 keep with
    | .error e => .error e
    | .ok keep' => .ok (keep'.head?.map (·.2), w')

/-- `array[i] = Some(x)` on an array of two: `tree_iterators/mod.rs` 695, 710. -/
def setSlot (i : Nat) (o : O) (p : Option O × Option O) : Except Panic (Option O × Option O) :=
  match i with
  | 0 => .ok (some o, p.2)
  | 1 => .ok (p.1, some o)
  | _ => .error .indexOutOfRange

/-- `tree_iterators/mod.rs` 690-696 and 705-711 (`limit = 1`). `paths` has the last element first. -/
def binFoldCollapse (f : τ → Option O × Option O → List Nat → V → τ × O) (limit : Nat) :
    List V → List (Option O × Option O) → List Nat → τ →
      Except Panic (List V × List (Option O × Option O) × List Nat × τ)
  | inv, [], paths, t => .ok (inv, [], paths, t)
  | inv, items :: rest, paths, t =>
    if rest.length + 1 > limit then
      match inv, paths, rest with
      | [], _, _ => .error .unwrapNone
      | _ :: _, [], _ => .error .unwrapNone
      | _ :: _, _ :: _, [] => .error .unwrapNone
      | v :: inv, i :: paths, last :: rest =>
        match setSlot i (f t items (i :: paths).reverse v).2 last with
        | .error e => .error e
        | .ok last' => binFoldCollapse f limit inv (last' :: rest) paths (f t items (i :: paths).reverse v).1
    else .ok (inv, items :: rest, paths, t)
termination_by _ l => l.length

/-- `tree_iterators/mod.rs` 689-703. -/
def binFoldLoop (M : Pipe S V σ) (f : τ → Option O × Option O → List Nat → V → τ × O) (s : S) (w : σ) (inv : List V)
    (folded : List (Option O × Option O)) (paths : List Nat) (t : τ) :
    Except Panic (List V × List (Option O × Option O) × List Nat × τ × σ) :=
  match _h : M.next s w with
  | .error e => .error e
  | .ok (none, _, w') => .ok (inv, folded, paths, t, w')
  | .ok (some item, s', w') =>
    match binFoldCollapse f (M.path s').length inv folded paths t with
    | .error e => .error e
    | .ok (inv', folded', paths', t') =>
      match pushPath (M.path s') paths' with
      | .error e => .error e
      | .ok paths'' => binFoldLoop M f s' w' (item :: inv') ((none, none) :: folded') paths'' t'
termination_by M.size s
decreasing_by exact M.size_next (by assumption)

/-- `BinaryTreeIterator::fold_path`: `tree_iterators/mod.rs` 682-716. -/
def binFoldPath (M : Pipe S V σ) (f : τ → Option O × Option O → List Nat → V → τ × O) (s : S) (w : σ) (t : τ) :
    Except Panic (Option O × τ × σ) :=
  match binFoldLoop M f s w [] [] [] t with
  | .error e => .error e
  | .ok (inv, folded, paths, t, w') =>
    match binFoldCollapse f 1 inv folded paths t with
    | .error e => .error e
    | .ok ([], _, _, t) => .ok (none, t, w')
    | .ok (root :: _, folded, _, t) =>
      .ok (some (f t (folded.head?.getD (none, none)) [] root).2, (f t (folded.head?.getD (none, none)) [] root).1, w')

/-- `BinaryTreeIterator::fold_tree`: `tree_iterators/mod.rs` 670-677. -/
def binFoldTree (M : Pipe S V σ) (f : τ → Option O × Option O → V → τ × O) (s : S) (w : σ) (t : τ) :
    Except Panic (Option O × τ × σ) :=
  M.binFoldPath (fun t acc _ v => f t acc v) s w t

end Pipe

end TreeIter
