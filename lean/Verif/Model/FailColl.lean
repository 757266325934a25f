import Verif.Model.FailPipe
import Verif.Model.CollectionPipeline

/-! # Pipelines over collections whose closures may panic

The source of a collection pipeline and the ends of `Model/CollectionPipeline` once more, with the state that a panic of the
user's code leaves behind: the stack of an end is local to `next`, so it is lost.  The closures of the ends (`fold_trees`) do not
panic here. -/

universe u v w x y z

namespace TreeIter

namespace Fail

variable {N : Type u} {S : Type v} {V : Type w} {σ : Type x}

/-- The loop of `next` when the tree at hand has ended, `dfs_preorder_iterators/owned.rs` 91-100 and then 85-89 on the next
tree: the iterator of the next tree is in place before it is asked. -/
def collAdvance (P : FPipe S V σ) (start : N → List Nat → S) :
    List N → Nat → Option S → σ → Except Panic (Option (Option V) × CollPipe.State N S × σ)
  | [], index, current, w => .ok (none, ⟨[], index, current⟩, w)
  | n :: rest, index, _, w =>
    match P.next (start n [index]) w with
    | .error e => .error e
    | .ok (some o, c', w') => .ok (some o, ⟨rest, index + 1, some c'⟩, w')
    | .ok (none, c', w') => collAdvance P start rest (index + 1) (some c') w'

/-- `next`: `dfs_preorder_iterators/owned.rs` 83-102. -/
def collNext (P : FPipe S V σ) (start : N → List Nat → S) (rest : List N) (index : Nat) (current : Option S) (w : σ) :
    Except Panic (Option (Option V) × CollPipe.State N S × σ) :=
  match current with
  | none => collAdvance P start rest index none w
  | some c =>
    match P.next c w with
    | .error e => .error e
    | .ok (some o, c', w') => .ok (some o, ⟨rest, index, some c'⟩, w')
    | .ok (none, c', w') => collAdvance P start rest index (some c') w'

/-- The number of nodes of the trees not yet reached. -/
def collSizes (P : FPipe S V σ) (start : N → List Nat → S) : Nat → List N → Nat
  | _, [] => 0
  | i, n :: ns => P.size (start n [i]) + collSizes P start (i + 1) ns

/-- The number of nodes still to come. -/
def collSize (P : FPipe S V σ) (start : N → List Nat → S) (s : CollPipe.State N S) : Nat :=
  (s.current.map P.size).getD 0 + collSizes P start s.index s.rest

theorem collAdvance_size (P : FPipe S V σ) (start : N → List Nat → S) (rest : List N) :
    ∀ {index : Nat} {current : Option S} {w : σ} {o : Option V} {s' : CollPipe.State N S} {w' : σ},
    collAdvance P start rest index current w = .ok (some o, s', w') → collSize P start s' < collSizes P start index rest := by
  induction rest with
  | nil => intro index current w v s' w' h; simp [collAdvance] at h
  | cons n rest ih =>
    intro index current w v s' w' h
    rw [collAdvance] at h
    split at h
    · simp at h
    · next h1 =>
      simp only [Except.ok.injEq, Prod.mk.injEq, Option.some.injEq] at h
      have := P.size_next h1
      rw [← h.2.1]
      simp only [collSize, collSizes, Option.map_some, Option.getD_some]
      omega
    · have := ih h
      simp only [collSizes]
      omega

theorem collNext_size (P : FPipe S V σ) (start : N → List Nat → S) {s : CollPipe.State N S} {w : σ} {o : Option V}
    {s' : CollPipe.State N S} {w' : σ} (h : collNext P start s.rest s.index s.current w = .ok (some o, s', w')) :
    collSize P start s' < collSize P start s := by
  obtain ⟨rest, index, current⟩ := s
  unfold collNext at h
  cases current with
  | none =>
    have := collAdvance_size P start rest h
    simpa [collSize] using this
  | some c =>
    dsimp only at h
    split at h
    · simp at h
    · next h1 =>
      simp only [Except.ok.injEq, Prod.mk.injEq, Option.some.injEq] at h
      have := P.size_next h1
      rw [← h.2.1]
      simp only [collSize, Option.map_some, Option.getD_some]
      omega
    · have := collAdvance_size P start rest h
      show _ < (Option.map P.size (some c)).getD 0 + collSizes P start index rest
      omega

/-- `into_pipeline()` on a collection: `prelude.rs` 3600-3602; `current_path` and `prune_current_subtree`:
`dfs_preorder_iterators/owned.rs` 113-124. -/
def collPipe (P : FPipe S V σ) (start : N → List Nat → S) : FPipe (CollPipe.State N S) V σ where
  next s w := collNext P start s.rest s.index s.current w
  path s :=
    match s.current with
    | none => []
    | some c => P.path c
  prune s := { s with current := s.current.map P.prune }
  size := collSize P start
  size_next h := collNext_size P start h
  size_prune s := by
    obtain ⟨rest, index, current⟩ := s
    cases current with
    | none => simp [collSize]
    | some c =>
      have := P.size_prune c
      simp only [collSize, Option.map_some, Option.getD_some]
      omega
  path_prune s := by
    obtain ⟨rest, index, current⟩ := s
    cases current with
    | none => rfl
    | some c => exact P.path_prune c
  prune_prune s := by
    obtain ⟨rest, index, current⟩ := s
    cases current with
    | none => rfl
    | some c => simp [P.prune_prune]

end Fail

namespace CollEnd

variable {S : Type u} {Q : Type v} {V : Type w} {O : Type x} {σ : Type y} {τ : Type z}

/-- The loop of `next` with nothing put aside: `trees.rs` 38-73, `fold.rs` 48-82.  On a panic of `inner.next()` the stack is
gone; nothing is put aside. -/
def loopF (E : CollEnd Q V O τ) (M : FPipe S V σ) (s : S) (w : σ) (q : Q) (t : τ) :
    Except Panic (Option (Option O) × (S × Option V) × σ × τ) :=
  match _h : M.next s w with
  | .error e => .error e
  | .ok (none, s', w') =>
    match E.drain q t with
    | .error e => .error e
    | .ok (o, t') => .ok (o.map some, (s', none), w', t')
  | .ok (some none, s', w') => .ok (some none, (s', none), w', t)
  | .ok (some (some v), s', w') =>
    match E.step q (M.path s') v t with
    | .error e => .error e
    | .ok (.inl o, t') => .ok (some (some o), (s', some v), w', t')
    | .ok (.inr q', t') => loopF E M s' w' q' t'
termination_by M.size s
decreasing_by exact M.size_next (by assumption)

/-- `next`: as `loopF`, with `peeked.take()` (`lookahead.take()`) first. -/
def nextF (E : CollEnd Q V O τ) (M : FPipe S V σ) (st : S × Option V) (w : σ) (t : τ) :
    Except Panic (Option (Option O) × (S × Option V) × σ × τ) :=
  match st.2 with
  | some v =>
    match E.step E.empty (M.path st.1) v t with
    | .error e => .error e
    | .ok (.inl o, t') => .ok (some (some o), (st.1, some v), w, t')
    | .ok (.inr q, t') => E.loopF M st.1 w q t'
  | none => E.loopF M st.1 w E.empty t

/-- Catching a panic, if there is one, of every call of `next`. -/
def callF (E : CollEnd Q V O τ) (M : FPipe S V σ) (x : (S × Option V) × σ × τ) :
    Except Panic (Option (Option O) × ((S × Option V) × σ × τ)) := E.nextF M x.1 x.2.1 x.2.2

end CollEnd

section
variable {N : Type u} {V W : Type v} {σ : Type w}

/-- A chain on a collection, in which asking a node for its value and children may panic. -/
abbrev FChain.collPipeF [TreeNode N V] (bad : N → Bool) (c : FChain σ V W) :
    FPipe (c.St (CollPipe.State N (Track.State N (List N) N))) W σ :=
  c.pipe Pipe.collDepth (Fail.collPipe (Fail.trackPipe bad σ) .new)

/-- Its state before the first call. -/
abbrev FChain.collInitF [TreeNode N V] (c : FChain σ V W) (ns : List N) :
    c.St (CollPipe.State N (Track.State N (List N) N)) := c.init (.new ns)

end

end TreeIter
