import Verif.Model.FailColl

/-! # `fold_trees` on collections with a closure that may panic

The stacks of `Fold::next` are local, and so is the item at hand: a panic of the closure loses both. -/

universe u v w x y z

namespace TreeIter

/-- `CollEnd` with a closure that may panic: `none` for a panic. -/
structure FEnd (Q : Type u) (V : Type v) (O : Type w) (τ : Type x) where
  /-- the local stack at the beginning of a call -/
  empty : Q
  /-- an item at a path -/
  step : Q → List Nat → V → τ → Except Panic (Option (O ⊕ Q) × τ)
  /-- the pipeline has ended -/
  drain : Q → τ → Except Panic (Option (Option O) × τ)

namespace FEnd

variable {S : Type u} {Q : Type v} {V : Type w} {O : Type x} {σ : Type y} {τ : Type z}

/-- The loop of `next` with nothing put aside: `fold.rs` 48-82.  A panic of `inner.next()` or of the closure loses the stacks and
the item; `lookahead` stays empty. -/
def loop (E : FEnd Q V O τ) (M : FPipe S V σ) (s : S) (w : σ) (q : Q) (t : τ) :
    Except Panic (Option (Option O) × (S × Option V) × σ × τ) :=
  match _h : M.next s w with
  | .error e => .error e
  | .ok (none, s', w') =>
    match E.drain q t with
    | .error e => .error e
    | .ok (o, t') => .ok (o, (s', none), w', t')
  | .ok (some none, s', w') => .ok (some none, (s', none), w', t)
  | .ok (some (some v), s', w') =>
    match E.step q (M.path s') v t with
    | .error e => .error e
    | .ok (none, t') => .ok (some none, (s', none), w', t')
    | .ok (some (.inl o), t') => .ok (some (some o), (s', some v), w', t')
    | .ok (some (.inr q'), t') => loop E M s' w' q' t'
termination_by M.size s
decreasing_by exact M.size_next (by assumption)

/-- `next`: as `loop`, with `lookahead.take()` first (`fold.rs` 49-50). -/
def next (E : FEnd Q V O τ) (M : FPipe S V σ) (st : S × Option V) (w : σ) (t : τ) :
    Except Panic (Option (Option O) × (S × Option V) × σ × τ) :=
  match st.2 with
  | some v =>
    match E.step E.empty (M.path st.1) v t with
    | .error e => .error e
    | .ok (none, t') => .ok (some none, (st.1, none), w, t')
    | .ok (some (.inl o), t') => .ok (some (some o), (st.1, some v), w, t')
    | .ok (some (.inr q), t') => E.loop M st.1 w q t'
  | none => E.loop M st.1 w E.empty t

/-- Catching a panic, if there is one, of every call of `next`. -/
def call (E : FEnd Q V O τ) (M : FPipe S V σ) (x : (S × Option V) × σ × τ) :
    Except Panic (Option (Option O) × ((S × Option V) × σ × τ)) := E.next M x.1 x.2.1 x.2.2

end FEnd

section
variable {V : Type u} {O : Type v} {τ : Type w}

/-- `Fold::next`, the loop `fold.rs` 57-67; see `foldClose`. -/
def foldCloseF (f : τ → List O → V → τ × Option O) (depth : Nat) :
    List V → List (List O) → τ → Except Panic (Option (O ⊕ (List V × List (List O))) × τ)
  | inv, [], t => .ok (some (.inr (inv, [])), t)
  | inv, items :: rest, t =>
    if rest.length + 1 > depth then
      match inv, rest with
      | [], _ => .error .unwrapNone
      | v :: inv, rest =>
        match f t items v with
        | (t', none) => .ok (none, t')
        | (t', some o) =>
          match rest with
          | [] => .ok (some (.inl o), t')
          | last :: rest => foldCloseF f depth inv ((last ++ [o]) :: rest) t'
    else .ok (some (.inr (inv, items :: rest)), t)
termination_by _ l => l.length

/-- `Fold::next`, `fold.rs` 73-81; see `foldDrain`. -/
def foldDrainF (f : τ → List O → V → τ × Option O) : List V → List (List O) → τ → Except Panic (Option (Option O) × τ)
  | _, [], t => .ok (none, t)
  | [], _ :: _, _ => .error .unwrapNone
  | v :: inv, items :: rest, t =>
    match f t items v with
    | (t', none) => .ok (some none, t')
    | (t', some o) =>
      match rest with
      | [] => .ok (some (some o), t')
      | last :: rest => foldDrainF f inv ((last ++ [o]) :: rest) t'
termination_by _ l => l.length

/-- `fold_trees`: `tree_collection_iterators/fold.rs` 37-85, with a closure that may panic. -/
def foldEndF (f : τ → List O → V → τ × Option O) : FEnd (List V × List (List O)) V O τ where
  empty := ([], [])
  step q p v t :=
    match Pipe.collDepth p with
    | .error e => .error e
    | .ok depth =>
      match foldCloseF f depth q.1 q.2 t with
      | .error e => .error e
      | .ok (none, t') => .ok (none, t')
      | .ok (some (.inl o), t') => .ok (some (.inl o), t')
      | .ok (some (.inr (inv, folded)), t') => .ok (some (.inr (v :: inv, [] :: folded)), t')
  drain q t := foldDrainF f q.1 q.2 t

end

end TreeIter
