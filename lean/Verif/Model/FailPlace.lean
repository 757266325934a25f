import Verif.Model.FailFold
import Verif.Model.FailPath

/-! # The other ends of collection pipelines, with closures that may panic

`fold_path`, and `fold_trees` and `fold_path` on collections of binary trees.  All stacks and the item at hand are local to `next`:
a panic of the closure loses them. -/

universe u v w x y z

namespace TreeIter

section General
variable {V : Type u} {O : Type v} {τ : Type w}

/-- `FoldPath::next`, the loop `fold_path.rs` 58-69; see `foldPathClose`. -/
def foldPathCloseF (f : τ → List O → List Nat → V → τ × Option O) (depth : Nat) :
    List V → List (List O) → List Nat → τ → Except Panic (Option (O ⊕ (List V × List (List O) × List Nat)) × τ)
  | inv, [], path, t => .ok (some (.inr (inv, [], path)), t)
  | inv, items :: rest, path, t =>
    if rest.length + 1 > depth then
      match inv, path with
      | [], _ => .error .unwrapNone
      | v :: inv, path =>
        match f t items path.reverse v with
        | (t', none) => .ok (none, t')
        | (t', some o) =>
          match path, rest with
          | [], _ => .error .unwrapNone
          | _ :: _, [] => .ok (some (.inl o), t')
          | _ :: path, last :: rest => foldPathCloseF f depth inv ((last ++ [o]) :: rest) path t'
    else .ok (some (.inr (inv, items :: rest, path)), t)
termination_by _ l => l.length

/-- `FoldPath::next`, `fold_path.rs` 80-89; see `foldPathDrain`. -/
def foldPathDrainF (f : τ → List O → List Nat → V → τ × Option O) :
    List V → List (List O) → List Nat → τ → Except Panic (Option (Option O) × τ)
  | _, [], _, t => .ok (none, t)
  | [], _ :: _, _, _ => .error .unwrapNone
  | v :: inv, items :: rest, path, t =>
    match f t items path.reverse v with
    | (t', none) => .ok (some none, t')
    | (t', some o) =>
      match path, rest with
      | [], _ => .error .unwrapNone
      | _ :: _, [] => .ok (some (some o), t')
      | _ :: path, last :: rest => foldPathDrainF f inv ((last ++ [o]) :: rest) path t'
termination_by _ l => l.length

/-- `fold_path`: `tree_collection_iterators/fold_path.rs` 37-93, with a closure that may panic. -/
def foldPathEndF (f : τ → List O → List Nat → V → τ × Option O) : FEnd (List V × List (List O) × List Nat) V O τ where
  empty := ([], [], [])
  step q p v t :=
    match Pipe.collDepth p with
    | .error e => .error e
    | .ok depth =>
      match foldPathCloseF f depth q.1 q.2.1 q.2.2 t with
      | .error e => .error e
      | .ok (none, t') => .ok (none, t')
      | .ok (some (.inl o), t') => .ok (some (.inl o), t')
      | .ok (some (.inr (inv, folded, path)), t') =>
        match foldPathPush depth p path with
        | .error e => .error e
        | .ok path' => .ok (some (.inr (v :: inv, [] :: folded, path')), t')
  drain q t := foldPathDrainF f q.1 q.2.1 q.2.2 t

end General

section Binary
variable {V : Type u} {O : Type v} {τ : Type w}

/-- `BinaryFold::next`, the loop `fold.rs` 136-146; see `binFoldClose`. -/
def binFoldCloseF (f : τ → Option O × Option O → V → τ × Option O) (depth : Nat) :
    List V → List (Nat × Option O × Option O) → τ →
      Except Panic (Option (O ⊕ (List V × List (Nat × Option O × Option O))) × τ)
  | inv, [], t => .ok (some (.inr (inv, [])), t)
  | inv, items :: rest, t =>
    if rest.length + 1 > depth then
      match inv with
      | [] => .error .unwrapNone
      | v :: inv =>
        match f t items.2 v with
        | (t', none) => .ok (none, t')
        | (t', some o) =>
          match rest with
          | [] => .ok (some (.inl o), t')
          | last :: rest =>
            match Pipe.setSlot items.1 o last.2 with
            | .error e => .error e
            | .ok last' => binFoldCloseF f depth inv ((last.1, last') :: rest) t'
    else .ok (some (.inr (inv, items :: rest)), t)
termination_by _ l => l.length

/-- `BinaryFold::next`, `fold.rs` 152-160; see `binFoldDrain`. -/
def binFoldDrainF (f : τ → Option O × Option O → V → τ × Option O) :
    List V → List (Nat × Option O × Option O) → τ → Except Panic (Option (Option O) × τ)
  | _, [], t => .ok (none, t)
  | [], _ :: _, _ => .error .unwrapNone
  | v :: inv, items :: rest, t =>
    match f t items.2 v with
    | (t', none) => .ok (some none, t')
    | (t', some o) =>
      match rest with
      | [] => .ok (some (some o), t')
      | last :: rest =>
        match Pipe.setSlot items.1 o last.2 with
        | .error e => .error e
        | .ok last' => binFoldDrainF f inv ((last.1, last') :: rest) t'
termination_by _ l => l.length

/-- `fold_trees`: `tree_collection_iterators/fold.rs` 117-164, with a closure that may panic. -/
def binFoldEndF (f : τ → Option O × Option O → V → τ × Option O) :
    FEnd (List V × List (Nat × Option O × Option O)) V O τ where
  empty := ([], [])
  step q p v t :=
    match Pipe.collDepth p with
    | .error e => .error e
    | .ok depth =>
      match binFoldCloseF f depth q.1 q.2 t with
      | .error e => .error e
      | .ok (none, t') => .ok (none, t')
      | .ok (some (.inl o), t') => .ok (some (.inl o), t')
      | .ok (some (.inr (inv, folded)), t') =>
        match p.getLast? with
        | none => .error .unwrapNone
        | some i => .ok (some (.inr (v :: inv, (i, none, none) :: folded)), t')
  drain q t := binFoldDrainF f q.1 q.2 t

/-- `BinaryFoldPath::next`, the loop `fold_path.rs` 146-157; see `binFoldPathClose`. -/
def binFoldPathCloseF (f : τ → Option O × Option O → List Nat → V → τ × Option O) (depth : Nat) :
    List V → List (Option O × Option O) → List Nat → τ →
      Except Panic (Option (O ⊕ (List V × List (Option O × Option O) × List Nat)) × τ)
  | inv, [], path, t => .ok (some (.inr (inv, [], path)), t)
  | inv, items :: rest, path, t =>
    if rest.length + 1 > depth then
      match inv with
      | [] => .error .unwrapNone
      | v :: inv =>
        match f t items path.reverse v with
        | (t', none) => .ok (none, t')
        | (t', some o) =>
          match path, rest with
          | [], _ => .error .unwrapNone
          | _ :: _, [] => .ok (some (.inl o), t')
          | i :: path, last :: rest =>
            match Pipe.setSlot i o last with
            | .error e => .error e
            | .ok last' => binFoldPathCloseF f depth inv (last' :: rest) path t'
    else .ok (some (.inr (inv, items :: rest, path)), t)
termination_by _ l => l.length

/-- `BinaryFoldPath::next`, `fold_path.rs` 164-173; see `binFoldPathDrain`. -/
def binFoldPathDrainF (f : τ → Option O × Option O → List Nat → V → τ × Option O) :
    List V → List (Option O × Option O) → List Nat → τ → Except Panic (Option (Option O) × τ)
  | _, [], _, t => .ok (none, t)
  | [], _ :: _, _, _ => .error .unwrapNone
  | v :: inv, items :: rest, path, t =>
    match f t items path.reverse v with
    | (t', none) => .ok (some none, t')
    | (t', some o) =>
      match path, rest with
      | [], _ => .error .unwrapNone
      | _ :: _, [] => .ok (some (some o), t')
      | i :: path, last :: rest =>
        match Pipe.setSlot i o last with
        | .error e => .error e
        | .ok last' => binFoldPathDrainF f inv (last' :: rest) path t'
termination_by _ l => l.length

/-- `fold_path`: `tree_collection_iterators/fold_path.rs` 127-176, with a closure that may panic. -/
def binFoldPathEndF (f : τ → Option O × Option O → List Nat → V → τ × Option O) :
    FEnd (List V × List (Option O × Option O) × List Nat) V O τ where
  empty := ([], [], [])
  step q p v t :=
    match Pipe.collDepth p with
    | .error e => .error e
    | .ok depth =>
      match binFoldPathCloseF f depth q.1 q.2.1 q.2.2 t with
      | .error e => .error e
      | .ok (none, t') => .ok (none, t')
      | .ok (some (.inl o), t') => .ok (some (.inl o), t')
      | .ok (some (.inr (inv, folded, path)), t') =>
        match p.getLast? with
        | none => .error .unwrapNone
        | some i => .ok (some (.inr (v :: inv, (none, none) :: folded, i :: path)), t')
  drain q t := binFoldPathDrainF f q.1 q.2.1 q.2.2 t

end Binary

section
variable {N : Type u} {V W : Type v} {σ : Type w}

/-- A chain on a collection, in which asking a node for its value and children may panic. -/
abbrev PChain.collPipeF [TreeNode N V] (bad : N → Bool) (c : PChain σ V W) :
    FPipe (c.St (CollPipe.State N (Track.State N (List N) N))) W σ :=
  c.pipe Pipe.collDepth (Fail.collPipe (Fail.trackPipe bad σ) .new)

/-- The same for a collection of binary trees. -/
abbrev PChain.binCollPipeF [BinNode N V] (bad : N → Bool) (c : PChain σ V W) :
    FPipe (CollPipe.State N (Track.State N (Option N × Option N) (Option N))) W σ :=
  c.binPipe Pipe.collDepth (Fail.collPipe (Fail.binTrackPipe bad σ) .new)

end

end TreeIter
