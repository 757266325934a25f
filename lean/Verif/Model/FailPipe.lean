import Verif.Model.Pipeline
import Verif.Spec.FailPipe

/-! # Pipelines whose closures may panic

The pipelines of `Model/Pipeline` once more, with the state that a panic of the user's code leaves behind.  A reply `some none`
is a panic of the user's code (`bad` nodes at the source, a closure without result in a stage); it goes through all the stages
around it, which have not changed anything yet when the inner `next` panics.  `map_path` is left out. -/

universe u v w x

namespace TreeIter

/-- A pipeline with panics. -/
structure FPipe (S : Type u) (V : Type v) (σ : Type w) where
  next : S → σ → Except Panic (Option (Option V) × S × σ)
  path : S → List Nat
  prune : S → S
  size : S → Nat
  size_next : ∀ {s w o s' w'}, next s w = .ok (some o, s', w') → size s' < size s
  size_prune : ∀ s, size (prune s) ≤ size s
  path_prune : ∀ s, path (prune s) = path s
  prune_prune : ∀ s, prune (prune s) = prune s

namespace Fail

variable {N : Type u} {V : Type v}

/-- `dfs_preorder_iterators/mod.rs` 48-66: the path has been advanced and `on_deck_into_iterator` is empty when
`get_value_and_children` is called. -/
def trackLoop [SplitNode N V] (bad : N → Bool) :
    List (List N) → List Nat → Except Panic (Option (Option V) × Track.State N (List N) N)
  | [], path => .ok (none, ⟨none, path, none, []⟩)
  | (_ :: _) :: _, [] => .error .unwrapNone
  | (c :: cs) :: rest, p :: ps =>
    if bad c then .ok (some none, ⟨none, wrapSucc p :: ps, none, cs :: rest⟩)
    else .ok (some (some (val c)), ⟨none, wrapSucc p :: ps, some (kids c), cs :: rest⟩)
  | [] :: rest, path => trackLoop bad rest path.tail

/-- `dfs_preorder_iterators/mod.rs` 37-68. -/
def trackNext [SplitNode N V] (bad : N → Bool) (s : Track.State N (List N) N) :
    Except Panic (Option (Option V) × Track.State N (List N) N) :=
  match s.root with
  | some r =>
    if bad r then .ok (some none, { s with root := none })
    else .ok (some (some (val r)), { s with root := none, onDeck := some (kids r) })
  | none =>
    match s.onDeck with
    | some cs => trackLoop bad (cs :: s.stack) (usizeMax :: s.path)
    | none => trackLoop bad s.stack s.path

theorem trackLoop_size [TreeNode N V] {bad : N → Bool} {st : List (List N)} {path : List Nat} {o : Option V}
    {s' : Track.State N (List N) N} (h : trackLoop bad st path = .ok (some o, s')) :
    Track.size s' < (st.map Track.nodes).sum := by
  have h0 : Track.nodes ([] : List N) = 0 := rfl
  fun_induction trackLoop bad st path with
  | case1 => simp at h
  | case2 => simp at h
  | case3 c cs rest p ps _ =>
    simp only [Except.ok.injEq, Prod.mk.injEq] at h
    rw [← h.2]
    simp only [Track.size, Option.toList_none, Option.getD_none, List.map_cons, List.sum_cons, Track.nodes_cons]
    omega
  | case4 c cs rest p ps _ =>
    simp only [Except.ok.injEq, Prod.mk.injEq] at h
    rw [← h.2]
    simp only [Track.size, Option.toList_none, Option.getD_some, List.map_cons, List.sum_cons, Track.nodes_cons]
    omega
  | case5 rest path ih =>
    have := ih h
    simpa [Track.nodes] using this

theorem trackNext_size [TreeNode N V] {bad : N → Bool} {s : Track.State N (List N) N} {o : Option V}
    {s' : Track.State N (List N) N} (h : trackNext bad s = .ok (some o, s')) : Track.size s' < Track.size s := by
  have h0 : Track.nodes ([] : List N) = 0 := rfl
  obtain ⟨root, path, onDeck, stack⟩ := s
  rcases root with _ | r
  · rcases onDeck with _ | cs
    · have := trackLoop_size (show trackLoop bad stack path = _ from h)
      simpa [Track.size, Track.nodes] using this
    · have := trackLoop_size (show trackLoop bad (cs :: stack) _ = _ from h)
      simpa [Track.size, Track.nodes] using this
  · have h1 : Track.nodes [r] = 1 + Track.nodes (kids r) + 0 := Track.nodes_cons r []
    by_cases hb : bad r
    · simp only [trackNext, hb, if_true, Except.ok.injEq, Prod.mk.injEq] at h
      rw [← h.2]
      simp only [Track.size, Option.toList_none, Option.toList_some, h1]
      omega
    · simp only [trackNext, hb, Bool.false_eq_true, if_false, Except.ok.injEq, Prod.mk.injEq] at h
      rw [← h.2]
      simp only [Track.size, Option.toList_none, Option.toList_some, Option.getD_some, h1]
      omega

/-- `into_pipeline()` on a general tree: `prelude.rs` 938-940; `current_path` and `prune_current_subtree`:
`dfs_preorder_iterators/owned.rs` 234-240. -/
def trackPipe [TreeNode N V] (bad : N → Bool) (σ : Type w) : FPipe (Track.State N (List N) N) V σ where
  next s w :=
    match trackNext bad s with
    | .error e => .error e
    | .ok (o, s') => .ok (o, s', w)
  path s := s.path.reverse
  prune s := { s with onDeck := none }
  size := Track.size
  size_next := by
    intro s w o s' w' h
    split at h
    · simp at h
    · next h1 =>
      simp only [Except.ok.injEq, Prod.mk.injEq] at h
      rw [h.1, h.2.1] at h1
      exact trackNext_size h1
  size_prune s := by simp [Track.size, Track.nodes]
  path_prune _ := rfl
  prune_prune _ := rfl

/-- `dfs_preorder_iterators/mod.rs` 88-109. -/
def binTrackLoop [SplitNode2 N V] (bad : N → Bool) : List (List (Option N)) → List Nat →
    Except Panic (Option (Option V) × Track.State N (Option N × Option N) (Option N))
  | [], path => .ok (none, ⟨none, path, none, []⟩)
  | (_ :: _) :: _, [] => .error .unwrapNone
  | (some c :: cs) :: rest, p :: ps =>
    if bad c then .ok (some none, ⟨none, wrapSucc p :: ps, none, cs :: rest⟩)
    else .ok (some (some (val2 c)), ⟨none, wrapSucc p :: ps, some (split2 c).2, cs :: rest⟩)
  | (none :: cs) :: rest, p :: ps => binTrackLoop bad (cs :: rest) (wrapSucc p :: ps)
  | [] :: rest, path => binTrackLoop bad rest path.tail
termination_by st => (st.map List.length).sum + st.length

/-- `dfs_preorder_iterators/mod.rs` 75-111. -/
def binTrackNext [SplitNode2 N V] (bad : N → Bool) (s : Track.State N (Option N × Option N) (Option N)) :
    Except Panic (Option (Option V) × Track.State N (Option N × Option N) (Option N)) :=
  match s.root with
  | some r =>
    if bad r then .ok (some none, { s with root := none })
    else .ok (some (some (val2 r)), { s with root := none, onDeck := some (split2 r).2 })
  | none =>
    match s.onDeck with
    | some cs => binTrackLoop bad ([cs.1, cs.2] :: s.stack) (usizeMax :: s.path)
    | none => binTrackLoop bad s.stack s.path

theorem binTrackLoop_size [BinNode N V] {bad : N → Bool} {st : List (List (Option N))} {path : List Nat} {o : Option V}
    {s' : Track.State N (Option N × Option N) (Option N)} (h : binTrackLoop bad st path = .ok (some o, s')) :
    Track.binSize s' < (st.map Track.binNodes).sum := by
  have h0 : Track.nodes ([] : List N) = 0 := rfl
  fun_induction binTrackLoop bad st path with
  | case1 => simp at h
  | case2 => simp at h
  | case3 c cs rest p ps _ =>
    simp only [Except.ok.injEq, Prod.mk.injEq] at h
    rw [← h.2]
    have h1 : Track.binNodes (some c :: cs) = 1 + Track.nodes (kids c) + Track.binNodes cs := Track.nodes_cons c _
    simp only [Track.binSize, Option.toList_none, Option.getD_none, List.map_cons, List.sum_cons, h1, Option.map_none]
    omega
  | case4 c cs rest p ps _ =>
    simp only [Except.ok.injEq, Prod.mk.injEq] at h
    rw [← h.2]
    have h1 : Track.binNodes (some c :: cs) = 1 + Track.nodes (kids c) + Track.binNodes cs := Track.nodes_cons c _
    have h2 : Track.binNodes [(split2 c).2.1, (split2 c).2.2] = Track.nodes (kids c) := rfl
    simp only [Track.binSize, Option.toList_none, Option.getD_some, List.map_cons, List.sum_cons, h1, h2, Option.map_some]
    omega
  | case5 cs rest p ps ih =>
    have := ih h
    simpa [Track.binNodes] using this
  | case6 rest path ih =>
    have := ih h
    simpa [Track.binNodes, Track.nodes] using this

theorem binTrackNext_size [BinNode N V] {bad : N → Bool} {s : Track.State N (Option N × Option N) (Option N)}
    {o : Option V} {s' : Track.State N (Option N × Option N) (Option N)} (h : binTrackNext bad s = .ok (some o, s')) :
    Track.binSize s' < Track.binSize s := by
  have h0 : Track.nodes ([] : List N) = 0 := rfl
  obtain ⟨root, path, onDeck, stack⟩ := s
  rcases root with _ | r
  · rcases onDeck with _ | cs
    · have := binTrackLoop_size (show binTrackLoop bad stack path = _ from h)
      simpa [Track.binSize, Track.nodes] using this
    · have := binTrackLoop_size (show binTrackLoop bad ([cs.1, cs.2] :: stack) _ = _ from h)
      simpa [Track.binSize, Track.nodes] using this
  · have h1 : Track.nodes [r] = 1 + Track.nodes (kids r) + 0 := Track.nodes_cons r []
    have h2 : Track.binNodes [(split2 r).2.1, (split2 r).2.2] = Track.nodes (kids r) := rfl
    by_cases hb : bad r
    · simp only [binTrackNext, hb, if_true, Except.ok.injEq, Prod.mk.injEq] at h
      rw [← h.2]
      simp only [Track.binSize, Option.toList_none, Option.toList_some, h1]
      omega
    · simp only [binTrackNext, hb, Bool.false_eq_true, if_false, Except.ok.injEq, Prod.mk.injEq] at h
      rw [← h.2]
      simp only [Track.binSize, Option.toList_none, Option.toList_some, Option.map_some, Option.getD_some, h1, h2]
      omega

/-- `into_pipeline()` on a binary tree: `prelude.rs` 401-403; `current_path` and `prune_current_subtree`:
`dfs_preorder_iterators/owned.rs` 540-546. -/
def binTrackPipe [BinNode N V] (bad : N → Bool) (σ : Type w) :
    FPipe (Track.State N (Option N × Option N) (Option N)) V σ where
  next s w :=
    match binTrackNext bad s with
    | .error e => .error e
    | .ok (o, s') => .ok (o, s', w)
  path s := s.path.reverse
  prune s := { s with onDeck := none }
  size := Track.binSize
  size_next := by
    intro s w o s' w' h
    split at h
    · simp at h
    · next h1 =>
      simp only [Except.ok.injEq, Prod.mk.injEq] at h
      rw [h.1, h.2.1] at h1
      exact binTrackNext_size h1
  size_prune s := by simp [Track.binSize]
  path_prune _ := rfl
  prune_prune _ := rfl

end Fail

namespace FPipe

variable {S : Type u} {V : Type v} {W : Type x} {σ : Type w}

/-- `map_tree`: `tree_iterators/map.rs` 38-40, 49-55 (collections: `tree_collection_iterators/map.rs` 39-41, 50-56). -/
def map (M : FPipe S V σ) (f : σ → V → σ × Option W) : FPipe S W σ where
  next s w :=
    match M.next s w with
    | .error e => .error e
    | .ok (none, s', w') => .ok (none, s', w')
    | .ok (some none, s', w') => .ok (some none, s', w')
    | .ok (some (some v), s', w') => .ok (some (f w' v).2, s', (f w' v).1)
  path := M.path
  prune := M.prune
  size := M.size
  size_next := by
    intro s w o s' w' h
    split at h
    · simp at h
    · simp at h
    · next h1 =>
      simp only [Except.ok.injEq, Prod.mk.injEq] at h
      rw [← h.2.1]
      exact M.size_next h1
    · next h1 =>
      simp only [Except.ok.injEq, Prod.mk.injEq] at h
      rw [← h.2.1]
      exact M.size_next h1
  size_prune := M.size_prune
  path_prune := M.path_prune
  prune_prune := M.prune_prune

/-- `prune_depth`: `tree_iterators/prune_depth.rs` 21-31, 39-48 (collections: `tree_collection_iterators/prune_depth.rs` 21-31);
`depthOf` computes `current_depth()` from the path.  A panic of `inner.next()` leaves before the depth is looked
at. -/
def pruneDepth (M : FPipe S V σ) (depthOf : List Nat → Except Panic Nat) (depth : Nat) : FPipe S V σ where
  next s w :=
    match M.next s w with
    | .error e => .error e
    | .ok (none, s', w') => .ok (none, s', w')
    | .ok (some none, s', w') => .ok (some none, s', w')
    | .ok (some (some v), s', w') =>
      match depthOf (M.path s') with
      | .error e => .error e
      | .ok d => .ok (some (some v), if d = depth then M.prune s' else s', w')
  path := M.path
  prune := M.prune
  size := M.size
  size_next := by
    intro s w o s' w' h
    split at h
    · simp at h
    · simp at h
    · next h1 =>
      simp only [Except.ok.injEq, Prod.mk.injEq] at h
      rw [← h.2.1]
      exact M.size_next h1
    · next s1 _ h1 =>
      split at h
      · simp at h
      · simp only [Except.ok.injEq, Prod.mk.injEq] at h
        rw [← h.2.1]
        split
        · exact Nat.lt_of_le_of_lt (M.size_prune s1) (M.size_next h1)
        · exact M.size_next h1
  size_prune := M.size_prune
  path_prune := M.path_prune
  prune_prune := M.prune_prune

/-- `BinaryPrune::next`: `tree_iterators/prune.rs` 145-156 (collections: `tree_collection_iterators/prune.rs` 146-157), and
`BinaryPrunePath::next`: `tree_iterators/prune_path.rs` 145-157 (collections: `tree_collection_iterators/prune_path.rs` 151-163), whose closure is given the path too. -/
def binPruneNext (M : FPipe S V σ) (f : σ → List Nat → V → σ × Option Bool) (s : S) (w : σ) :
    Except Panic (Option (Option V) × S × σ) :=
  match _h : M.next s w with
  | .error e => .error e
  | .ok (none, s', w') => .ok (none, s', w')
  | .ok (some none, s', w') => .ok (some none, s', w')
  | .ok (some (some v), s', w') =>
    match (f w' (M.path s') v).2 with
    | none => .ok (some none, s', (f w' (M.path s') v).1)
    | some true => binPruneNext M f (M.prune s') (f w' (M.path s') v).1
    | some false => .ok (some (some v), s', (f w' (M.path s') v).1)
termination_by M.size s
decreasing_by exact Nat.lt_of_le_of_lt (M.size_prune _) (M.size_next (by assumption))

/-- `BinaryPrune`: `tree_iterators/prune.rs` 145-156, 165-171. -/
def binPrune (M : FPipe S V σ) (f : σ → List Nat → V → σ × Option Bool) : FPipe S V σ where
  next := binPruneNext M f
  path := M.path
  prune := M.prune
  size := M.size
  size_next := by
    intro s w o s' w' h
    fun_induction binPruneNext M f s w with
    | case1 => simp at h
    | case2 => simp at h
    | case3 s w s1 w1 h1 =>
      simp only [Except.ok.injEq, Prod.mk.injEq] at h
      rw [← h.2.1]
      exact M.size_next h1
    | case4 s w v1 s1 w1 h1 _ =>
      simp only [Except.ok.injEq, Prod.mk.injEq] at h
      rw [← h.2.1]
      exact M.size_next h1
    | case5 s w v1 s1 w1 h1 _ ih =>
      exact Nat.lt_trans (ih h) (Nat.lt_of_le_of_lt (M.size_prune _) (M.size_next h1))
    | case6 s w v1 s1 w1 h1 _ =>
      simp only [Except.ok.injEq, Prod.mk.injEq] at h
      rw [← h.2.1]
      exact M.size_next h1
  size_prune := M.size_prune
  path_prune := M.path_prune
  prune_prune := M.prune_prune

/-- `Prune::next`: `tree_iterators/prune.rs` 44-86 (collections: `tree_collection_iterators/prune.rs` 44-86), and
`PrunePath::next`: `tree_iterators/prune_path.rs` 44-86 (collections: `tree_collection_iterators/prune_path.rs` 49-91), whose closure
is given the path of the stage inside: the two vectors are brought up to date before the closure is called. -/
def pruneNext (M : FPipe S V σ) (f : σ → List Nat → V → σ × Option Bool) (s : Pipe.PruneState S) (w : σ) :
    Except Panic (Option (Option V) × Pipe.PruneState S × σ) :=
  match _h : M.next s.inner w with
  | .error e => .error e
  | .ok (none, s', w') => .ok (none, ⟨s', [], []⟩, w')
  | .ok (some none, s', w') => .ok (some none, ⟨s', s.pruned, s.current⟩, w')
  | .ok (some (some v), s', w') =>
    let vs := Pipe.adjust (M.path s').length s.pruned s.current
    match (f w' (M.path s') v).2 with
    | none => .ok (some none, ⟨s', vs.1, vs.2⟩, (f w' (M.path s') v).1)
    | some true =>
      match Pipe.count vs.1 vs.2 with
      | .error e => .error e
      | .ok pruned => pruneNext M f ⟨M.prune s', pruned, vs.2⟩ (f w' (M.path s') v).1
    | some false => .ok (some (some v), ⟨s', vs.1, vs.2⟩, (f w' (M.path s') v).1)
termination_by M.size s.inner
decreasing_by exact Nat.lt_of_le_of_lt (M.size_prune _) (M.size_next (by assumption))

/-- `Prune`: `tree_iterators/prune.rs` 44-86, 95-101. -/
def prunePipe (M : FPipe S V σ) (f : σ → List Nat → V → σ × Option Bool) : FPipe (Pipe.PruneState S) V σ where
  next := pruneNext M f
  path s := s.current
  prune s := { s with inner := M.prune s.inner }
  size s := M.size s.inner
  size_next := by
    intro s w o s' w' h
    fun_induction pruneNext M f s w with
    | case1 => simp at h
    | case2 => simp at h
    | case3 s w s1 w1 h1 =>
      simp only [Except.ok.injEq, Prod.mk.injEq] at h
      rw [← h.2.1]
      exact M.size_next h1
    | case4 s w v1 s1 w1 h1 _ _ =>
      simp only [Except.ok.injEq, Prod.mk.injEq] at h
      rw [← h.2.1]
      exact M.size_next h1
    | case5 => simp at h
    | case6 s w v1 s1 w1 h1 _ _ _ _ ih =>
      exact Nat.lt_trans (ih h) (Nat.lt_of_le_of_lt (M.size_prune _) (M.size_next h1))
    | case7 s w v1 s1 w1 h1 _ _ =>
      simp only [Except.ok.injEq, Prod.mk.injEq] at h
      rw [← h.2.1]
      exact M.size_next h1
  size_prune s := M.size_prune s.inner
  path_prune _ := rfl
  prune_prune s := by simp [M.prune_prune]

/-- Catching a panic, if there is one, of every call of `next`. -/
def call (M : FPipe S V σ) (x : S × σ) : Except Panic (Option (Option V) × (S × σ)) := M.next x.1 x.2

end FPipe

namespace FChain

/-- The type of the states of the chain's pipeline, on a source with states `S`. -/
def St (S : Type u) {σ : Type w} {V : Type v} : {W : Type v} → FChain σ V W → Type u
  | _, source => S
  | _, map c _ => c.St S
  | _, prune c _ => Pipe.PruneState (c.St S)
  | _, pruneDepth c _ => c.St S

/-- The pipeline of a chain on general trees; `depthOf` computes `current_depth()` from the path. -/
def pipe {σ : Type w} {V : Type v} {S : Type u} (depthOf : List Nat → Except Panic Nat) (M : FPipe S V σ) :
    {W : Type v} → (c : FChain σ V W) → FPipe (c.St S) W σ
  | _, source => M
  | _, map c f => (c.pipe depthOf M).map f
  | _, prune c f => (c.pipe depthOf M).prunePipe fun w _ v => f w v
  | _, pruneDepth c d => (c.pipe depthOf M).pruneDepth depthOf d

/-- The state of the pipeline after the stages were added. -/
def init {σ : Type w} {V : Type v} {S : Type u} (s : S) : {W : Type v} → (c : FChain σ V W) → c.St S
  | _, source => s
  | _, map c _ => c.init s
  | _, prune c _ => .new (c.init s)
  | _, pruneDepth c _ => c.init s

/-- The pipeline of a chain on binary trees; no stage has a state. -/
def binPipe {σ : Type w} {V : Type v} {S : Type u} (depthOf : List Nat → Except Panic Nat) (M : FPipe S V σ) :
    {W : Type v} → FChain σ V W → FPipe S W σ
  | _, source => M
  | _, map c f => (c.binPipe depthOf M).map f
  | _, prune c f => (c.binPipe depthOf M).binPrune fun w _ v => f w v
  | _, pruneDepth c d => (c.binPipe depthOf M).pruneDepth depthOf d

end FChain

end TreeIter
