import Verif.Model.Pipeline

/-! # Pipelines over collections of trees

The source of `into_pipeline()` on a collection and the iterators at the end of such a pipeline: `trees()`,
`fold_trees` and `fold_path` (general and binary).  The stages between them are those of `Verif.Model.Pipeline`.

Simplified: the collection is a finite list (the code fuses and enumerates an arbitrary iterator), and the numbers
that `Enumerate` gives to the trees do not overflow. -/

universe u v w x y z

namespace TreeIter

/-! ## The source -/

namespace CollPipe

/-- `OwnedDFSPreorderCollectionIteratorWithPathTracking`: `dfs_preorder_iterators/owned.rs` 54-61 (binary: 349-356;
borrowed versions in `borrow.rs` and `mut_borrow.rs`).  `rest` and `index` are the `Enumerate`. -/
structure State (N : Type u) (S : Type v) where
  rest : List N
  index : Nat
  current : Option S

/-- `new`: `dfs_preorder_iterators/owned.rs` 68-73. -/
def State.new {N : Type u} {S : Type v} (ns : List N) : State N S := ⟨ns, 0, none⟩

variable {N : Type u} {S : Type v} {V : Type w} {σ : Type x}

/-- The loop of `next` when the tree at hand has ended, `dfs_preorder_iterators/owned.rs` 91-100 and then 85-89 on the next
tree.  `start` is `new` of the iterator over one tree. -/
def advance (P : Pipe S V σ) (start : N → List Nat → S) :
    List N → Nat → Option S → σ → Except Panic (Option V × State N S × σ)
  | [], index, current, w => .ok (none, ⟨[], index, current⟩, w)
  | n :: rest, index, _, w =>
    match P.next (start n [index]) w with
    | .error e => .error e
    | .ok (some v, c', w') => .ok (some v, ⟨rest, index + 1, some c'⟩, w')
    | .ok (none, c', w') => advance P start rest (index + 1) (some c') w'

/-- `next`: `dfs_preorder_iterators/owned.rs` 83-102. -/
def next (P : Pipe S V σ) (start : N → List Nat → S) (rest : List N) (index : Nat) (current : Option S) (w : σ) :
    Except Panic (Option V × State N S × σ) :=
  match current with
  | none => advance P start rest index none w
  | some c =>
    match P.next c w with
    | .error e => .error e
    | .ok (some v, c', w') => .ok (some v, ⟨rest, index, some c'⟩, w')
    | .ok (none, c', w') => advance P start rest index (some c') w'

/-- The number of nodes of the trees not yet reached. -/
def sizes (P : Pipe S V σ) (start : N → List Nat → S) : Nat → List N → Nat
  | _, [] => 0
  | i, n :: ns => P.size (start n [i]) + sizes P start (i + 1) ns

/-- The number of nodes still to come. -/
def size (P : Pipe S V σ) (start : N → List Nat → S) (s : State N S) : Nat :=
  (s.current.map P.size).getD 0 + sizes P start s.index s.rest

theorem advance_size (P : Pipe S V σ) (start : N → List Nat → S) (rest : List N) :
    ∀ {index : Nat} {current : Option S} {w : σ} {v : V} {s' : State N S} {w' : σ},
    advance P start rest index current w = .ok (some v, s', w') → size P start s' < sizes P start index rest := by
  induction rest with
  | nil => intro index current w v s' w' h; simp [advance] at h
  | cons n rest ih =>
    intro index current w v s' w' h
    rw [advance] at h
    split at h
    · simp at h
    · next h1 =>
      simp only [Except.ok.injEq, Prod.mk.injEq, Option.some.injEq] at h
      have := P.size_next h1
      rw [← h.2.1]
      simp only [size, sizes, Option.map_some, Option.getD_some]
      omega
    · have := ih h
      simp only [sizes]
      omega

theorem next_size (P : Pipe S V σ) (start : N → List Nat → S) {s : State N S} {w : σ} {v : V} {s' : State N S} {w' : σ}
    (h : next P start s.rest s.index s.current w = .ok (some v, s', w')) : size P start s' < size P start s := by
  obtain ⟨rest, index, current⟩ := s
  unfold next at h
  cases current with
  | none =>
    have := advance_size P start rest h
    simpa [size] using this
  | some c =>
    dsimp only at h
    split at h
    · simp at h
    · next h1 =>
      simp only [Except.ok.injEq, Prod.mk.injEq, Option.some.injEq] at h
      have := P.size_next h1
      rw [← h.2.1]
      simp only [size, Option.map_some, Option.getD_some]
      omega
    · have := advance_size P start rest h
      show _ < (Option.map P.size (some c)).getD 0 + sizes P start index rest
      omega

/-- `into_pipeline()` on a collection: `prelude.rs` 3600-3602; `current_path` and `prune_current_subtree`:
`dfs_preorder_iterators/owned.rs` 113-124. -/
def pipe (P : Pipe S V σ) (start : N → List Nat → S) : Pipe (State N S) V σ where
  next s w := next P start s.rest s.index s.current w
  path s :=
    match s.current with
    | none => []
    | some c => P.path c
  prune s := { s with current := s.current.map P.prune }
  size := size P start
  size_next h := next_size P start h
  size_prune s := by
    obtain ⟨rest, index, current⟩ := s
    cases current with
    | none => simp [size]
    | some c =>
      have := P.size_prune c
      simp only [size, Option.map_some, Option.getD_some]
      omega
  path_prune s := by
    obtain ⟨rest, index, current⟩ := s
    cases current with
    | none => rfl
    | some c => exact P.path_prune c
  prune_prune s := by
    obtain ⟨rest, index, current⟩ := s
    cases current with
    | none => rfl
    | some c => simp [P.prune_prune]

/-- `CollectionPrune::new`: `tree_collection_iterators/prune.rs` 25-34. -/
def pruneNew (s : S) : Pipe.PruneState S := ⟨s, [], []⟩

/-- `CollectionPrunePath::new`: `tree_collection_iterators/prune_path.rs` 25-39. -/
def prunePathNew (s : S) : Pipe.PruneState S := ⟨s, [0], [0]⟩

end CollPipe

/-! ## The ends

Each of the six iterators at the end of a collection pipeline has the same `next`: it takes the item put aside by the
call before, or asks the pipeline, works on a stack that is local to the call, and when the item turns out to belong to
the next tree, puts it aside and returns.  What the six do with an item (`step`) and at the end of the pipeline
(`drain`) is given below, function by function. -/

/-- What an end does with an item: the tree on the stack is complete (and the item belongs to the next one), or the item
goes on the stack. -/
abbrev Step (Q : Type u) (O : Type v) (τ : Type w) := (O ⊕ Q) × τ

/-- An iterator at the end of a collection pipeline; `τ` is the state of its closure. -/
structure CollEnd (Q : Type u) (V : Type v) (O : Type w) (τ : Type x) where
  /-- the local stack at the beginning of a call -/
  empty : Q
  /-- an item at a path -/
  step : Q → List Nat → V → τ → Except Panic (Step Q O τ)
  /-- the pipeline has ended -/
  drain : Q → τ → Except Panic (Option O × τ)

namespace CollEnd

variable {S : Type u} {Q : Type v} {V : Type w} {O : Type x} {σ : Type y} {τ : Type z}

/-- The loop of `next` with nothing put aside: `trees.rs` 38-73, `fold.rs` 48-82, `fold_path.rs` 49-90; binary
`trees.rs` 116-164, `fold.rs` 127-161, `fold_path.rs` 137-174. -/
def loop (E : CollEnd Q V O τ) (M : Pipe S V σ) (s : S) (w : σ) (q : Q) (t : τ) :
    Except Panic (Option O × (S × Option V) × σ × τ) :=
  match _h : M.next s w with
  | .error e => .error e
  | .ok (none, s', w') =>
    match E.drain q t with
    | .error e => .error e
    | .ok (o, t') => .ok (o, (s', none), w', t')
  | .ok (some v, s', w') =>
    match E.step q (M.path s') v t with
    | .error e => .error e
    | .ok (.inl o, t') => .ok (some o, (s', some v), w', t')
    | .ok (.inr q', t') => loop E M s' w' q' t'
termination_by M.size s
decreasing_by exact M.size_next (by assumption)

/-- `next`: as `loop`, with `peeked.take()` (`lookahead.take()`) first. -/
def next (E : CollEnd Q V O τ) (M : Pipe S V σ) (st : S × Option V) (w : σ) (t : τ) :
    Except Panic (Option O × (S × Option V) × σ × τ) :=
  match st.2 with
  | some v =>
    match E.step E.empty (M.path st.1) v t with
    | .error e => .error e
    | .ok (.inl o, t') => .ok (some o, (st.1, some v), w, t')
    | .ok (.inr q, t') => E.loop M st.1 w q t'
  | none => E.loop M st.1 w E.empty t

/-- A client that calls `next()` `n` times: the results of the calls. -/
def calls (E : CollEnd Q V O τ) (M : Pipe S V σ) : Nat → S × Option V → σ → τ → Except Panic (List (Option O) × σ × τ)
  | 0, _, w, t => .ok ([], w, t)
  | n + 1, st, w, t =>
    match E.next M st w t with
    | .error e => .error e
    | .ok (o, st', w', t') =>
      match calls E M n st' w' t' with
      | .error e => .error e
      | .ok (l, w'', t'') => .ok (o :: l, w'', t'')

end CollEnd

section General
variable {V : Type u} {O : Type v} {τ : Type w}

/-- `Trees::next`, the loop `trees.rs` 48-61: while the stack has as many entries as the item's path is long, the top
becomes the last child of the one below, or is returned if there is none below. -/
def treesClose (depth : Nat) : List (Tree V) → Except Panic (Tree V ⊕ List (Tree V))
  | [] => if 0 ≥ depth then .error .unwrapNone else .ok (.inr [])
  | [t] => if 1 ≥ depth then .ok (.inl t) else .ok (.inr [t])
  | t :: .node a cs :: rest =>
    if rest.length + 2 ≥ depth then treesClose depth (.node a (cs ++ [t]) :: rest)
    else .ok (.inr (t :: .node a cs :: rest))
termination_by l => l.length

/-- `Trees::next`, `trees.rs` 68-73. -/
def treesDrain : List (Tree V) → Option (Tree V)
  | [] => none
  | [t] => some t
  | t :: .node a cs :: rest => treesDrain (.node a (cs ++ [t]) :: rest)
termination_by l => l.length

/-- `trees()`: `tree_collection_iterators/trees.rs` 30-79. -/
def treesEnd : CollEnd (List (Tree V)) V (Tree V) Unit where
  empty := []
  step keep p v _ :=
    match treesClose p.length keep with
    | .error e => .error e
    | .ok (.inl t) => .ok (.inl t, ())
    | .ok (.inr keep') => .ok (.inr (.node v [] :: keep'), ())
  drain keep _ := .ok (treesDrain keep, ())

/-- `Fold::next`, the loop `fold.rs` 57-67.  The first list is `inversion_stack`, the second `folded_so_far`. -/
def foldClose (f : τ → List O → V → τ × O) (depth : Nat) :
    List V → List (List O) → τ → Except Panic (Step (List V × List (List O)) O τ)
  | inv, [], t => .ok (.inr (inv, []), t)
  | inv, items :: rest, t =>
    if rest.length + 1 > depth then
      match inv, rest with
      | [], _ => .error .unwrapNone
      | v :: _, [] => .ok (.inl (f t items v).2, (f t items v).1)
      | v :: inv, last :: rest => foldClose f depth inv ((last ++ [(f t items v).2]) :: rest) (f t items v).1
    else .ok (.inr (inv, items :: rest), t)
termination_by _ l => l.length

/-- `Fold::next`, `fold.rs` 73-81. -/
def foldDrain (f : τ → List O → V → τ × O) : List V → List (List O) → τ → Except Panic (Option O × τ)
  | _, [], t => .ok (none, t)
  | [], _ :: _, _ => .error .unwrapNone
  | v :: _, [items], t => .ok (some (f t items v).2, (f t items v).1)
  | v :: inv, items :: last :: rest, t => foldDrain f inv ((last ++ [(f t items v).2]) :: rest) (f t items v).1
termination_by _ l => l.length

/-- `fold_trees`: `tree_collection_iterators/fold.rs` 37-85. -/
def foldEnd (f : τ → List O → V → τ × O) : CollEnd (List V × List (List O)) V O τ where
  empty := ([], [])
  step q p v t :=
    match Pipe.collDepth p with
    | .error e => .error e
    | .ok depth =>
      match foldClose f depth q.1 q.2 t with
      | .error e => .error e
      | .ok (.inl o, t') => .ok (.inl o, t')
      | .ok (.inr (inv, folded), t') => .ok (.inr (v :: inv, [] :: folded), t')
  drain q t := foldDrain f q.1 q.2 t

/-- `FoldPath::next`, the loop `fold_path.rs` 58-69.  The third list is `path`, last segment first. -/
def foldPathClose (f : τ → List O → List Nat → V → τ × O) (depth : Nat) :
    List V → List (List O) → List Nat → τ → Except Panic (Step (List V × List (List O) × List Nat) O τ)
  | inv, [], path, t => .ok (.inr (inv, [], path), t)
  | inv, items :: rest, path, t =>
    if rest.length + 1 > depth then
      match inv, path, rest with
      | [], _, _ => .error .unwrapNone
      | _ :: _, [], _ => .error .unwrapNone
      | v :: _, i :: path, [] => .ok (.inl (f t items (i :: path).reverse v).2, (f t items (i :: path).reverse v).1)
      | v :: inv, i :: path, last :: rest =>
        foldPathClose f depth inv ((last ++ [(f t items (i :: path).reverse v).2]) :: rest) path
          (f t items (i :: path).reverse v).1
    else .ok (.inr (inv, items :: rest, path), t)
termination_by _ l => l.length

/-- `FoldPath::next`, `fold_path.rs` 80-89. -/
def foldPathDrain (f : τ → List O → List Nat → V → τ × O) :
    List V → List (List O) → List Nat → τ → Except Panic (Option O × τ)
  | _, [], _, t => .ok (none, t)
  | [], _ :: _, _, _ => .error .unwrapNone
  | _ :: _, _ :: _, [], _ => .error .unwrapNone
  | v :: _, [items], i :: path, t => .ok (some (f t items (i :: path).reverse v).2, (f t items (i :: path).reverse v).1)
  | v :: inv, items :: last :: rest, i :: path, t =>
    foldPathDrain f inv ((last ++ [(f t items (i :: path).reverse v).2]) :: rest) path (f t items (i :: path).reverse v).1
termination_by _ l => l.length

/-- `fold_path.rs` 72-76: the path of the item that is pushed. -/
def foldPathPush (depth : Nat) (cur path : List Nat) : Except Panic (List Nat) :=
  match cur.getLast? with
  | none => .error .unwrapNone
  | some i => if path.length = depth + 1 then .ok (i :: path.tail) else .ok (i :: path)

/-- `fold_path`: `tree_collection_iterators/fold_path.rs` 37-93. -/
def foldPathEnd (f : τ → List O → List Nat → V → τ × O) : CollEnd (List V × List (List O) × List Nat) V O τ where
  empty := ([], [], [])
  step q p v t :=
    match Pipe.collDepth p with
    | .error e => .error e
    | .ok depth =>
      match foldPathClose f depth q.1 q.2.1 q.2.2 t with
      | .error e => .error e
      | .ok (.inl o, t') => .ok (.inl o, t')
      | .ok (.inr (inv, folded, path), t') =>
        match foldPathPush depth p path with
        | .error e => .error e
        | .ok path' => .ok (.inr (v :: inv, [] :: folded, path'), t')
  drain q t := foldPathDrain f q.1 q.2.1 q.2.2 t

end General

section Binary
variable {V : Type u} {O : Type v} {τ : Type w}

/-- `BinaryTrees::next`, the loop `trees.rs` 126-143. -/
def binTreesClose (depth : Nat) : List (Nat × BinTree V) → Except Panic (BinTree V ⊕ List (Nat × BinTree V))
  | [] => if 0 ≥ depth then .error .unwrapNone else .ok (.inr [])
  | [t] => if 1 ≥ depth then .ok (.inl t.2) else .ok (.inr [t])
  | t :: u :: rest =>
    if rest.length + 2 ≥ depth then
      match Pipe.putSlot t.1 t.2 u.2 with
      | .error e => .error e
      | .ok u' => binTreesClose depth ((u.1, u') :: rest)
    else .ok (.inr (t :: u :: rest))
termination_by l => l.length

/-- `BinaryTrees::next`, `trees.rs` 154-163. -/
def binTreesDrain : List (Nat × BinTree V) → Except Panic (Option (BinTree V))
  | [] => .ok none
  | [t] => .ok (some t.2)
  | t :: u :: rest =>
    match Pipe.putSlot t.1 t.2 u.2 with
    | .error e => .error e
    | .ok u' => binTreesDrain ((u.1, u') :: rest)
termination_by l => l.length

/-- `trees()`: `tree_collection_iterators/trees.rs` 108-169. -/
def binTreesEnd : CollEnd (List (Nat × BinTree V)) V (BinTree V) Unit where
  empty := []
  step keep p v _ :=
    match binTreesClose p.length keep with
    | .error e => .error e
    | .ok (.inl t) => .ok (.inl t, ())
    | .ok (.inr keep') =>
      match p.getLast? with
      | none => .error .unwrapNone
      | some i => .ok (.inr ((i, .node v none none) :: keep'), ())
  drain keep _ :=
    match binTreesDrain keep with
    | .error e => .error e
    | .ok o => .ok (o, ())

/-- `BinaryFold::next`, the loop `fold.rs` 136-146. -/
def binFoldClose (f : τ → Option O × Option O → V → τ × O) (depth : Nat) :
    List V → List (Nat × Option O × Option O) → τ → Except Panic (Step (List V × List (Nat × Option O × Option O)) O τ)
  | inv, [], t => .ok (.inr (inv, []), t)
  | inv, items :: rest, t =>
    if rest.length + 1 > depth then
      match inv, rest with
      | [], _ => .error .unwrapNone
      | v :: _, [] => .ok (.inl (f t items.2 v).2, (f t items.2 v).1)
      | v :: inv, last :: rest =>
        match Pipe.setSlot items.1 (f t items.2 v).2 last.2 with
        | .error e => .error e
        | .ok last' => binFoldClose f depth inv ((last.1, last') :: rest) (f t items.2 v).1
    else .ok (.inr (inv, items :: rest), t)
termination_by _ l => l.length

/-- `BinaryFold::next`, `fold.rs` 152-160. -/
def binFoldDrain (f : τ → Option O × Option O → V → τ × O) :
    List V → List (Nat × Option O × Option O) → τ → Except Panic (Option O × τ)
  | _, [], t => .ok (none, t)
  | [], _ :: _, _ => .error .unwrapNone
  | v :: _, [items], t => .ok (some (f t items.2 v).2, (f t items.2 v).1)
  | v :: inv, items :: last :: rest, t =>
    match Pipe.setSlot items.1 (f t items.2 v).2 last.2 with
    | .error e => .error e
    | .ok last' => binFoldDrain f inv ((last.1, last') :: rest) (f t items.2 v).1
termination_by _ l => l.length

/-- `fold_trees`: `tree_collection_iterators/fold.rs` 117-164. -/
def binFoldEnd (f : τ → Option O × Option O → V → τ × O) :
    CollEnd (List V × List (Nat × Option O × Option O)) V O τ where
  empty := ([], [])
  step q p v t :=
    match Pipe.collDepth p with
    | .error e => .error e
    | .ok depth =>
      match binFoldClose f depth q.1 q.2 t with
      | .error e => .error e
      | .ok (.inl o, t') => .ok (.inl o, t')
      | .ok (.inr (inv, folded), t') =>
        match p.getLast? with
        | none => .error .unwrapNone
        | some i => .ok (.inr (v :: inv, (i, none, none) :: folded), t')
  drain q t := binFoldDrain f q.1 q.2 t

/-- `BinaryFoldPath::next`, the loop `fold_path.rs` 146-157. -/
def binFoldPathClose (f : τ → Option O × Option O → List Nat → V → τ × O) (depth : Nat) :
    List V → List (Option O × Option O) → List Nat → τ →
      Except Panic (Step (List V × List (Option O × Option O) × List Nat) O τ)
  | inv, [], path, t => .ok (.inr (inv, [], path), t)
  | inv, items :: rest, path, t =>
    if rest.length + 1 > depth then
      match inv, path, rest with
      | [], _, _ => .error .unwrapNone
      | _ :: _, [], _ => .error .unwrapNone
      | v :: _, i :: path, [] => .ok (.inl (f t items (i :: path).reverse v).2, (f t items (i :: path).reverse v).1)
      | v :: inv, i :: path, last :: rest =>
        match Pipe.setSlot i (f t items (i :: path).reverse v).2 last with
        | .error e => .error e
        | .ok last' => binFoldPathClose f depth inv (last' :: rest) path (f t items (i :: path).reverse v).1
    else .ok (.inr (inv, items :: rest, path), t)
termination_by _ l => l.length

/-- `BinaryFoldPath::next`, `fold_path.rs` 164-173. -/
def binFoldPathDrain (f : τ → Option O × Option O → List Nat → V → τ × O) :
    List V → List (Option O × Option O) → List Nat → τ → Except Panic (Option O × τ)
  | _, [], _, t => .ok (none, t)
  | [], _ :: _, _, _ => .error .unwrapNone
  | _ :: _, _ :: _, [], _ => .error .unwrapNone
  | v :: _, [items], i :: path, t => .ok (some (f t items (i :: path).reverse v).2, (f t items (i :: path).reverse v).1)
  | v :: inv, items :: last :: rest, i :: path, t =>
    match Pipe.setSlot i (f t items (i :: path).reverse v).2 last with
    | .error e => .error e
    | .ok last' => binFoldPathDrain f inv (last' :: rest) path (f t items (i :: path).reverse v).1
termination_by _ l => l.length

/-- `fold_path`: `tree_collection_iterators/fold_path.rs` 127-176. -/
def binFoldPathEnd (f : τ → Option O × Option O → List Nat → V → τ × O) :
    CollEnd (List V × List (Option O × Option O) × List Nat) V O τ where
  empty := ([], [], [])
  step q p v t :=
    match Pipe.collDepth p with
    | .error e => .error e
    | .ok depth =>
      match binFoldPathClose f depth q.1 q.2.1 q.2.2 t with
      | .error e => .error e
      | .ok (.inl o, t') => .ok (.inl o, t')
      | .ok (.inr (inv, folded, path), t') =>
        match p.getLast? with
        | none => .error .unwrapNone
        | some i => .ok (.inr (v :: inv, (none, none) :: folded, i :: path), t')
  drain q t := binFoldPathDrain f q.1 q.2.1 q.2.2 t

end Binary

end TreeIter
