import Verif.Model.FailPipe

/-! # Pipelines whose closures may panic: how they walk the tree -/

universe u v w x y

namespace TreeIter

namespace FPipe

variable {S : Type u} {N : Type v} {W : Type x} {Z : Type y} {σ : Type w}

/-- After a reply with a value, the path has as many segments as it should; the path of a root has `b₀` segments. -/
def lenAt (b₀ : Nat) : Nat → N → Bool → List Nat → Prop := fun d _ b p => b = true → p.length = d + b₀

/-- The pipeline deals with the pending trees, given with their depths, one node after the other as `r` tells.  `A` says what the
path may be after the reply for a node (with a value or a panic). -/
structure Walks (M : FPipe S W σ) (A : Nat → N → Bool → List Nat → Prop) (r : σ → Nat → N → σ × Option (Option W × Bool))
    (R : S → List (Nat × Tree N) → Prop) : Prop where
  weak : ∀ {d n p}, A d n true p → A d n false p
  done : ∀ {s}, R s [] → ∀ w, ∃ s', M.next s w = .ok (none, s', w) ∧ R s' []
  drop : ∀ {s d n cs l}, R s ((d, .node n cs) :: l) → ∀ w, (r w d n).2 = none →
    ∃ s', M.next s w = M.next s' (r w d n).1 ∧ R s' l
  ans : ∀ {s d n cs l}, R s ((d, .node n cs) :: l) → ∀ w o b, (r w d n).2 = some (o, b) →
    ∃ s', M.next s w = .ok (some o, s', (r w d n).1) ∧
      R s' ((if b then cs.map fun c => (d + 1, c) else []) ++ l) ∧ R (M.prune s') l ∧
      A d n o.isSome (M.path s')

/-- What the pending trees come to. -/
def repliesP (r : σ → Nat → N → σ × Option (Option W × Bool)) (w : σ) : List (Nat × Tree N) → List (Option W) × σ
  | [] => ([], w)
  | t :: l => ((t.2.replies r t.1 w).1 ++ (repliesP r (t.2.replies r t.1 w).2 l).1, (repliesP r (t.2.replies r t.1 w).2 l).2)

theorem repliesP_append (r : σ → Nat → N → σ × Option (Option W × Bool)) (w : σ) (l l' : List (Nat × Tree N)) :
    repliesP r w (l ++ l') = ((repliesP r w l).1 ++ (repliesP r (repliesP r w l).2 l').1,
      (repliesP r (repliesP r w l).2 l').2) := by
  induction l generalizing w with
  | nil => rfl
  | cons t l ih => simp only [List.cons_append, repliesP, ih, List.append_assoc]

theorem repliesP_level (r : σ → Nat → N → σ × Option (Option W × Bool)) (w : σ) (d : Nat) (cs : List (Tree N)) :
    repliesP r w (cs.map fun c => (d, c)) = Tree.repliesL r d w cs := by
  induction cs generalizing w with
  | nil => rfl
  | cons t l ih => simp only [List.map_cons, repliesP, ih, Tree.repliesL]

theorem repliesP_ans {r : σ → Nat → N → σ × Option (Option W × Bool)} {w : σ} {d : Nat} {n : N} {cs : List (Tree N)}
    {l : List (Nat × Tree N)} {o : Option W} {b : Bool} (h : (r w d n).2 = some (o, b)) :
    repliesP r w ((d, .node n cs) :: l) =
      (o :: (repliesP r (r w d n).1 ((if b then cs.map fun c => (d + 1, c) else []) ++ l)).1,
        (repliesP r (r w d n).1 ((if b then cs.map fun c => (d + 1, c) else []) ++ l)).2) := by
  have e : r w d n = ((r w d n).1, some (o, b)) := by rw [← h]
  rw [repliesP, Tree.replies, e]
  cases b
  · simp
  · simp [repliesP_append, repliesP_level]

theorem repliesP_drop {r : σ → Nat → N → σ × Option (Option W × Bool)} {w : σ} {d : Nat} {n : N} {cs : List (Tree N)}
    {l : List (Nat × Tree N)} (h : (r w d n).2 = none) :
    repliesP r w ((d, .node n cs) :: l) = repliesP r (r w d n).1 l := by
  have e : r w d n = ((r w d n).1, none) := by rw [← h]
  rw [repliesP, Tree.replies, e]
  simp

/-- One call. -/
theorem Walks.call {M : FPipe S W σ} {A : Nat → N → Bool → List Nat → Prop} {r : σ → Nat → N → σ × Option (Option W × Bool)}
    {R : S → List (Nat × Tree N) → Prop} (hM : Walks M A r R) (l : List (Nat × Tree N)) :
    ∀ {s : S} {w : σ}, R s l → ∃ s' w' l', M.next s w = .ok ((repliesP r w l).1.head?, s', w') ∧ R s' l' ∧
      repliesP r w' l' = ((repliesP r w l).1.tail, (repliesP r w l).2) ∧ ((repliesP r w l).1 = [] → l' = []) := by
  induction l with
  | nil =>
    intro s w h
    obtain ⟨s', h1, h2⟩ := hM.done h w
    exact ⟨s', w, [], h1, h2, rfl, fun _ => rfl⟩
  | cons t l ih =>
    intro s w h
    obtain ⟨d, n, cs⟩ := t
    cases e : (r w d n).2 with
    | none =>
      obtain ⟨s1, h1, h2⟩ := hM.drop h w e
      obtain ⟨s', w', l', i1, i2, i3, i4⟩ := ih (w := (r w d n).1) h2
      rw [repliesP_drop e]
      exact ⟨s', w', l', h1.trans i1, i2, i3, i4⟩
    | some a =>
      obtain ⟨o, b⟩ := a
      obtain ⟨s', h1, h2, _⟩ := hM.ans h w o b e
      rw [repliesP_ans e]
      exact ⟨s', _, _, h1, h2, rfl, by simp⟩

theorem Walks.nthCall {M : FPipe S W σ} {A : Nat → N → Bool → List Nat → Prop} {r : σ → Nat → N → σ × Option (Option W × Bool)}
    {R : S → List (Nat × Tree N) → Prop} (hM : Walks M A r R) {s : S} {w : σ} {l : List (Nat × Tree N)} (h : R s l)
    (k : Nat) : nthCallE M.call k (s, w) = .ok (repliesP r w l).1[k]? := by
  induction k generalizing s w l with
  | zero =>
    obtain ⟨s', w', l', h1, _⟩ := hM.call l (w := w) h
    rw [nthCallE, stateAfterE]
    simp only [FPipe.call, h1, List.head?_eq_getElem?]
  | succ k ih =>
    obtain ⟨s', w', l', h1, h2, h3, _⟩ := hM.call l (w := w) h
    have := ih (w := w') h2
    rw [nthCallE, stateAfterE]
    simp only [FPipe.call, h1]
    rw [nthCallE] at this
    simp only [FPipe.call] at this
    rw [this, h3]
    simp

/-- The world in the end. -/
theorem Walks.world {M : FPipe S W σ} {A : Nat → N → Bool → List Nat → Prop} {r : σ → Nat → N → σ × Option (Option W × Bool)}
    {R : S → List (Nat × Tree N) → Prop} (hM : Walks M A r R) {s : S} {w : σ} {l : List (Nat × Tree N)} (h : R s l)
    (k : Nat) (hk : (repliesP r w l).1.length < k) : ∃ s', stateAfterE M.call k (s, w) = .ok (s', (repliesP r w l).2) := by
  induction k generalizing s w l with
  | zero => omega
  | succ k ih =>
    obtain ⟨s', w', l', h1, h2, h3, h4⟩ := hM.call l (w := w) h
    have hc : M.call (s, w) = .ok ((repliesP r w l).1.head?, s', w') := h1
    by_cases hz : (repliesP r w l).1 = []
    · have hl := h4 hz
      subst hl
      have h5 : w' = (repliesP r w l).2 := by simpa [repliesP, hz] using congrArg Prod.snd h3
      cases k with
      | zero =>
        refine ⟨s', ?_⟩
        rw [stateAfterE, hc, ← h5]
        rfl
      | succ k =>
        obtain ⟨s'', i⟩ := ih (w := w') h2 (by simp [repliesP])
        refine ⟨s'', ?_⟩
        rw [stateAfterE, hc]
        simp only
        rw [i, ← h5]
        rfl
    · obtain ⟨s'', i⟩ := ih (w := w') h2 (by
        rw [h3]
        cases hq : (repliesP r w l).1 with
        | nil => exact absurd hq hz
        | cons => simp only [hq, List.length_cons] at hk; simp only [List.tail_cons]; omega)
      refine ⟨s'', ?_⟩
      rw [stateAfterE, hc]
      simp only
      rw [i, h3]

/-! ## The stages -/

/-- `map_tree`. -/
theorem Walks.map {M : FPipe S W σ} {A : Nat → N → Bool → List Nat → Prop} {r : σ → Nat → N → σ × Option (Option W × Bool)}
    {R : S → List (Nat × Tree N) → Prop} (hM : Walks M A r R) (f : σ → W → σ × Option Z) :
    Walks (M.map f) A (fun w d n =>
      match r w d n with
      | (w', some (some y, below)) => ((f w' y).1, some ((f w' y).2, below))
      | (w', some (none, below)) => (w', some (none, below))
      | (w', none) => (w', none)) R where
  weak := hM.weak
  done h w := by
    obtain ⟨s', h1, h2⟩ := hM.done h w
    exact ⟨s', by simp only [FPipe.map, h1], h2⟩
  drop {s d n cs l} h w e := by
    cases hr : r w d n with
    | mk w' a =>
      rcases a with _ | ⟨_ | y, b⟩
      · obtain ⟨s', h1, h2⟩ := hM.drop h w (by rw [hr])
        rw [hr] at h1
        exact ⟨s', by simp only [FPipe.map, h1], h2⟩
      · simp [hr] at e
      · simp [hr] at e
  ans {s d n cs l} h w o b e := by
    cases hr : r w d n with
    | mk w' a =>
      rcases a with _ | ⟨_ | y, b'⟩
      · simp [hr] at e
      · obtain ⟨s', h1, h2, h3, h4⟩ := hM.ans h w _ _ (by rw [hr])
        simp only [hr, Option.some.injEq, Prod.mk.injEq] at e h1
        obtain ⟨rfl, rfl⟩ := e
        exact ⟨s', by simp only [FPipe.map, h1], h2, h3, h4⟩
      · obtain ⟨s', h1, h2, h3, h4⟩ := hM.ans h w _ _ (by rw [hr])
        simp only [hr, Option.some.injEq, Prod.mk.injEq] at e h1
        obtain ⟨rfl, rfl⟩ := e
        refine ⟨s', by simp only [FPipe.map, h1], h2, h3, ?_⟩
        cases (f w' y).2 with
        | none => exact hM.weak h4
        | some _ => exact h4

/-- `prune_depth`. -/
theorem Walks.pruneDepth {M : FPipe S W σ} {A : Nat → N → Bool → List Nat → Prop} {r : σ → Nat → N → σ × Option (Option W × Bool)}
    {R : S → List (Nat × Tree N) → Prop} (hM : Walks M A r R)
    {depthOf : List Nat → Except Panic Nat} (hd : ∀ d n p, A d n true p → depthOf p = .ok d) (m : Nat) :
    Walks (M.pruneDepth depthOf m) A (fun w d n =>
      match r w d n with
      | (w', some (some y, below)) => (w', some (some y, below && d != m))
      | (w', some (none, below)) => (w', some (none, below))
      | (w', none) => (w', none)) R where
  weak := hM.weak
  done h w := by
    obtain ⟨s', h1, h2⟩ := hM.done h w
    exact ⟨s', by simp only [FPipe.pruneDepth, h1], h2⟩
  drop {s d n cs l} h w e := by
    cases hr : r w d n with
    | mk w' a =>
      rcases a with _ | ⟨_ | y, b⟩
      · obtain ⟨s', h1, h2⟩ := hM.drop h w (by rw [hr])
        rw [hr] at h1
        exact ⟨s', by simp only [FPipe.pruneDepth, h1], h2⟩
      · simp [hr] at e
      · simp [hr] at e
  ans {s d n cs l} h w o b e := by
    cases hr : r w d n with
    | mk w' a =>
      rcases a with _ | ⟨_ | y, b'⟩
      · simp [hr] at e
      · obtain ⟨s', h1, h2, h3, h4⟩ := hM.ans h w _ _ (by rw [hr])
        simp only [hr, Option.some.injEq, Prod.mk.injEq] at e h1
        obtain ⟨rfl, rfl⟩ := e
        exact ⟨s', by simp only [FPipe.pruneDepth, h1], h2, h3, h4⟩
      · obtain ⟨s', h1, h2, h3, h4⟩ := hM.ans h w _ _ (by rw [hr])
        simp only [hr, Option.some.injEq, Prod.mk.injEq] at e h1
        obtain ⟨rfl, rfl⟩ := e
        have h5 := hd _ _ _ h4
        by_cases hd : d = m
        · subst hd
          refine ⟨M.prune s', by simp only [FPipe.pruneDepth, h1, h5, if_true], by simpa using h3, ?_, ?_⟩
          · simpa only [FPipe.pruneDepth, M.prune_prune] using h3
          · exact (M.path_prune s').symm ▸ h4
        · refine ⟨s', by simp only [FPipe.pruneDepth, h1, h5, hd, if_false], ?_, h3, h4⟩
          have : (d != m) = true := by simpa using hd
          simpa [this] using h2

theorem binPruneNext_eq (M : FPipe S W σ) (f : σ → List Nat → W → σ × Option Bool) (s : S) (w : σ) :
    binPruneNext M f s w =
      match M.next s w with
      | .error e => .error e
      | .ok (none, s', w') => .ok (none, s', w')
      | .ok (some none, s', w') => .ok (some none, s', w')
      | .ok (some (some v), s', w') =>
        match f w' (M.path s') v with
        | (w'', none) => .ok (some none, s', w'')
        | (w'', some true) => binPruneNext M f (M.prune s') w''
        | (w'', some false) => .ok (some (some v), s', w'') := by
  rw [binPruneNext.eq_def]
  split
  · next h => rw [h]
  · next h => rw [h]
  · next h => rw [h]
  · next v s' w' h =>
    rw [h]
    dsimp only
    generalize f w' (M.path s') v = q
    rcases q with ⟨w'', _ | _ | _⟩ <;> rfl

theorem pruneNext_eq (M : FPipe S W σ) (f : σ → List Nat → W → σ × Option Bool) (s : Pipe.PruneState S) (w : σ) :
    pruneNext M f s w =
      match M.next s.inner w with
      | .error e => .error e
      | .ok (none, s', w') => .ok (none, ⟨s', [], []⟩, w')
      | .ok (some none, s', w') => .ok (some none, ⟨s', s.pruned, s.current⟩, w')
      | .ok (some (some v), s', w') =>
        match f w' (M.path s') v with
        | (w'', none) => .ok (some none, ⟨s', (Pipe.adjust (M.path s').length s.pruned s.current).1,
            (Pipe.adjust (M.path s').length s.pruned s.current).2⟩, w'')
        | (w'', some true) =>
          match Pipe.count (Pipe.adjust (M.path s').length s.pruned s.current).1
              (Pipe.adjust (M.path s').length s.pruned s.current).2 with
          | .error e => .error e
          | .ok pruned => pruneNext M f ⟨M.prune s', pruned, (Pipe.adjust (M.path s').length s.pruned s.current).2⟩ w''
        | (w'', some false) => .ok (some (some v), ⟨s', (Pipe.adjust (M.path s').length s.pruned s.current).1,
            (Pipe.adjust (M.path s').length s.pruned s.current).2⟩, w'') := by
  rw [pruneNext.eq_def]
  split
  · next h => rw [h]
  · next h => rw [h]
  · next h => rw [h]
  · next v s' w' h =>
    rw [h]
    dsimp only
    generalize f w' (M.path s') v = q
    rcases q with ⟨w'', _ | _ | _⟩ <;> rfl

/-- `prune` on a binary tree. -/
theorem Walks.binPrune {M : FPipe S W σ} {A : Nat → N → Bool → List Nat → Prop} {r : σ → Nat → N → σ × Option (Option W × Bool)}
    {R : S → List (Nat × Tree N) → Prop} (hM : Walks M A r R)
    {f : σ → List Nat → W → σ × Option Bool} {g : σ → N → W → σ × Option Bool}
    (hf : ∀ {d n p}, A d n true p → ∀ w y, f w p y = g w n y) :
    Walks (M.binPrune f) A (fun w d n =>
      match r w d n with
      | (w', some (some y, below)) =>
        match g w' n y with
        | (w'', none) => (w'', some (none, below))
        | (w'', some true) => (w'', none)
        | (w'', some false) => (w'', some (some y, below))
      | (w', some (none, below)) => (w', some (none, below))
      | (w', none) => (w', none)) R where
  weak := hM.weak
  done h w := by
    obtain ⟨s', h1, h2⟩ := hM.done h w
    refine ⟨s', ?_, h2⟩
    change binPruneNext M f _ w = _
    rw [binPruneNext_eq, h1]
  drop {s d n cs l} h w e := by
    cases hr : r w d n with
    | mk w' a =>
      rcases a with _ | ⟨_ | y, b⟩
      · obtain ⟨s', h1, h2⟩ := hM.drop h w (by rw [hr])
        rw [hr] at h1
        refine ⟨s', ?_, h2⟩
        change binPruneNext M f s w = binPruneNext M f s' w'
        rw [binPruneNext_eq, binPruneNext_eq (s := s'), h1]
      · simp [hr] at e
      · obtain ⟨s', h1, h2, h3, h4⟩ := hM.ans h w _ _ (by rw [hr])
        rw [hr] at h1
        have hg := hf h4 w' y
        cases hf : g w' n y with
        | mk w'' c =>
          rcases c with _ | _ | _
          · simp [hr, hf] at e
          · simp [hr, hf] at e
          · refine ⟨M.prune s', ?_, h3⟩
            simp only [hf]
            change binPruneNext M f s w = binPruneNext M f (M.prune s') w''
            conv => lhs; rw [binPruneNext_eq]
            simp only [h1, hg, hf]
  ans {s d n cs l} h w o b e := by
    cases hr : r w d n with
    | mk w' a =>
      rcases a with _ | ⟨_ | y, b'⟩
      · simp [hr] at e
      · obtain ⟨s', h1, h2, h3, h4⟩ := hM.ans h w _ _ (by rw [hr])
        simp only [hr, Option.some.injEq, Prod.mk.injEq] at e h1
        obtain ⟨rfl, rfl⟩ := e
        refine ⟨s', ?_, h2, h3, h4⟩
        change binPruneNext M f s w = _
        rw [binPruneNext_eq, h1]
      · obtain ⟨s', h1, h2, h3, h4⟩ := hM.ans h w _ _ (by rw [hr])
        rw [hr] at h1
        have hg := hf h4 w' y
        cases hf : g w' n y with
        | mk w'' c =>
          rcases c with _ | _ | _
          · simp only [hr, hf, Option.some.injEq, Prod.mk.injEq] at e
            obtain ⟨rfl, rfl⟩ := e
            refine ⟨s', ?_, h2, h3, hM.weak h4⟩
            change binPruneNext M f s w = _
            rw [binPruneNext_eq, h1]
            simp only [hg, hf]
          · simp only [hr, hf, Option.some.injEq, Prod.mk.injEq] at e
            obtain ⟨rfl, rfl⟩ := e
            refine ⟨s', ?_, h2, h3, h4⟩
            change binPruneNext M f s w = _
            rw [binPruneNext_eq, h1]
            simp only [hg, hf]
          · simp [hr, hf] at e

theorem bumpLast_length (l : List Nat) : (Pipe.bumpLast l).length = l.length := by
  rw [Pipe.bumpLast]
  split
  · rfl
  · next h =>
    have : l ≠ [] := by intro e; simp [e] at h
    have := List.length_pos_iff.2 this
    simp only [List.length_append, List.length_dropLast, List.length_cons, List.length_nil]
    omega

theorem adjust_length (len : Nat) {p c : List Nat} (h : p.length = c.length) :
    (Pipe.adjust len p c).1.length = len ∧ (Pipe.adjust len p c).2.length = len := by
  rw [Pipe.adjust]
  split
  · simp only [List.length_append, List.length_replicate]
    omega
  · split
    · simp only [List.length_take, bumpLast_length]
      omega
    · simp only
      omega

theorem count_ok {p c : List Nat} (h : p.length = c.length) : ∃ p', Pipe.count p c = .ok p' ∧ p'.length = c.length := by
  rw [Pipe.count]
  split
  · rw [List.getElem?_eq_getElem (by omega)]
    exact ⟨_, rfl, by simpa using h⟩
  · exact ⟨_, rfl, h⟩

/-- `prune` on a general tree. -/
theorem Walks.prunePipe {M : FPipe S W σ} {A : Nat → N → Bool → List Nat → Prop} {b₀ : Nat} {r : σ → Nat → N → σ × Option (Option W × Bool)}
    {R : S → List (Nat × Tree N) → Prop} (hM : Walks M A r R)
    {f : σ → List Nat → W → σ × Option Bool} {g : σ → N → W → σ × Option Bool}
    (hf : ∀ {d n p}, A d n true p → ∀ w y, f w p y = g w n y)
    (hA : ∀ {d n p}, A d n true p → p.length = d + b₀) :
    Walks (M.prunePipe f) (lenAt b₀) (fun w d n =>
      match r w d n with
      | (w', some (some y, below)) =>
        match g w' n y with
        | (w'', none) => (w'', some (none, below))
        | (w'', some true) => (w'', none)
        | (w'', some false) => (w'', some (some y, below))
      | (w', some (none, below)) => (w', some (none, below))
      | (w', none) => (w', none)) (fun s l => s.pruned.length = s.current.length ∧ R s.inner l) where
  weak _ h := by simp at h
  done {s} h w := by
    obtain ⟨hl, h⟩ := h
    obtain ⟨s', h1, h2⟩ := hM.done h w
    refine ⟨⟨s', [], []⟩, ?_, rfl, h2⟩
    change pruneNext M f _ w = _
    rw [pruneNext_eq, h1]
  drop {s d n cs l} h w e := by
    obtain ⟨hl, h⟩ := h
    cases hr : r w d n with
    | mk w' a =>
      rcases a with _ | ⟨_ | y, b⟩
      · obtain ⟨s', h1, h2⟩ := hM.drop h w (by rw [hr])
        rw [hr] at h1
        refine ⟨⟨s', s.pruned, s.current⟩, ?_, hl, h2⟩
        change pruneNext M f s w = pruneNext M f ⟨s', s.pruned, s.current⟩ w'
        rw [pruneNext_eq, pruneNext_eq (s := ⟨s', s.pruned, s.current⟩), h1]
      · simp [hr] at e
      · obtain ⟨s', h1, h2, h3, h4⟩ := hM.ans h w _ _ (by rw [hr])
        rw [hr] at h1
        obtain ⟨a1, a2⟩ := adjust_length (M.path s').length hl
        obtain ⟨p', c1, c2⟩ := count_ok (a1.trans a2.symm)
        have hg := hf h4 w' y
        cases hf : g w' n y with
        | mk w'' c =>
          rcases c with _ | _ | _
          · simp [hr, hf] at e
          · simp [hr, hf] at e
          · refine ⟨⟨M.prune s', p', (Pipe.adjust (M.path s').length s.pruned s.current).2⟩, ?_, c2, h3⟩
            simp only [hf]
            change pruneNext M f s w = pruneNext M f ⟨M.prune s', p', _⟩ w''
            conv => lhs; rw [pruneNext_eq]
            simp only [h1, hg, hf, c1]
  ans {s d n cs l} h w o b e := by
    obtain ⟨hl, h⟩ := h
    cases hr : r w d n with
    | mk w' a =>
      rcases a with _ | ⟨_ | y, b'⟩
      · simp [hr] at e
      · obtain ⟨s', h1, h2, h3, h4⟩ := hM.ans h w _ _ (by rw [hr])
        simp only [hr, Option.some.injEq, Prod.mk.injEq] at e h1
        obtain ⟨rfl, rfl⟩ := e
        refine ⟨⟨s', s.pruned, s.current⟩, ?_, ⟨hl, h2⟩, ⟨hl, h3⟩, fun h => by simp at h⟩
        change pruneNext M f s w = _
        rw [pruneNext_eq, h1]
      · obtain ⟨s', h1, h2, h3, h4⟩ := hM.ans h w _ _ (by rw [hr])
        rw [hr] at h1
        obtain ⟨a1, a2⟩ := adjust_length (M.path s').length hl
        have hg := hf h4 w' y
        cases hf : g w' n y with
        | mk w'' c =>
          rcases c with _ | _ | _
          · simp only [hr, hf, Option.some.injEq, Prod.mk.injEq] at e
            obtain ⟨rfl, rfl⟩ := e
            refine ⟨⟨s', (Pipe.adjust (M.path s').length s.pruned s.current).1,
              (Pipe.adjust (M.path s').length s.pruned s.current).2⟩, ?_, ⟨a1.trans a2.symm, h2⟩,
              ⟨a1.trans a2.symm, h3⟩, fun h => by simp at h⟩
            change pruneNext M f s w = _
            rw [pruneNext_eq, h1]
            simp only [hg, hf]
          · simp only [hr, hf, Option.some.injEq, Prod.mk.injEq] at e
            obtain ⟨rfl, rfl⟩ := e
            refine ⟨⟨s', (Pipe.adjust (M.path s').length s.pruned s.current).1,
              (Pipe.adjust (M.path s').length s.pruned s.current).2⟩, ?_, ⟨a1.trans a2.symm, h2⟩,
              ⟨a1.trans a2.symm, h3⟩, fun _ => a2.trans (hA h4)⟩
            change pruneNext M f s w = _
            rw [pruneNext_eq, h1]
            simp only [hg, hf]
          · simp [hr, hf] at e

end FPipe

/-! ## The sources -/

namespace Fail

variable {N : Type u} {V : Type v}

/-- The pending trees of a stack. -/
def pends [TreeNode N V] : List (List N) → List (Nat × Tree N)
  | [] => []
  | f :: rest => f.map (fun n => (rest.length + 1, unfold n)) ++ pends rest

/-- The pending trees of the source; the path it was given has `b₀` segments. -/
def TrackPend [TreeNode N V] (b₀ : Nat) (s : Track.State N (List N) N) (l : List (Nat × Tree N)) : Prop :=
  s.path.length = s.stack.length + b₀ ∧
  match s.root with
  | some n => s.onDeck = none ∧ s.stack = [] ∧ l = [(0, unfold n)]
  | none => l = (s.onDeck.getD []).map (fun n => (s.stack.length + 1, unfold n)) ++ pends s.stack

/-- One call of the source, with the given trees pending before it. -/
def Turn {S : Type x} [SplitNode N V] (b₀ : Nat) (bad : N → Bool) (R : S → List (Nat × Tree N) → Prop) (prune : S → S) (path : S → List Nat)
    (res : Except Panic (Option (Option V) × S)) : List (Nat × Tree N) → Prop
  | [] => ∃ s', res = .ok (none, s') ∧ R s' []
  | (d, .node n cs) :: l =>
    ∃ s', res = .ok (some (if bad n then none else some (val n)), s') ∧
      R s' ((if bad n then [] else cs.map fun c => (d + 1, c)) ++ l) ∧ R (prune s') l ∧ (path s').length = d + b₀

theorem trackLoop_pend [TreeNode N V] (b₀ : Nat) (bad : N → Bool) (st : List (List N)) (path : List Nat)
    (h : path.length = st.length + b₀) :
    Turn b₀ bad (TrackPend b₀) (fun s' => { s' with onDeck := none }) (·.path) (trackLoop bad st path) (pends st) := by
  fun_induction trackLoop bad st path with
  | case1 path => exact ⟨_, rfl, h, rfl⟩
  | case2 => simp only [List.length_cons, List.length_nil] at h; omega
  | case3 c cs rest p ps hb =>
    simp only [Turn, pends, List.map_cons, List.cons_append, unfold_eq c, hb, if_true]
    have h : ps.length = rest.length + b₀ := by simp only [List.length_cons] at h; omega
    refine ⟨_, rfl, ⟨by simp only [List.length_cons]; omega, ?_⟩, ⟨by simp only [List.length_cons]; omega, ?_⟩, by simp only [List.length_cons]; omega⟩ <;> simp [pends]
  | case4 c cs rest p ps hb =>
    simp only [Turn, pends, List.map_cons, List.cons_append, unfold_eq c, hb]
    have h : ps.length = rest.length + b₀ := by simp only [List.length_cons] at h; omega
    refine ⟨_, rfl, ⟨by simp only [List.length_cons]; omega, ?_⟩, ⟨by simp only [List.length_cons]; omega, ?_⟩, by simp only [List.length_cons]; omega⟩ <;> simp [pends, Function.comp_def]
  | case5 rest path ih =>
    simpa only [pends, List.map_nil, List.nil_append] using ih (by simp only [List.length_tail, h, List.length_cons]; omega)

theorem trackNext_pend [TreeNode N V] (b₀ : Nat) (bad : N → Bool) {s : Track.State N (List N) N} {l : List (Nat × Tree N)}
    (h : TrackPend b₀ s l) :
    Turn b₀ bad (TrackPend b₀) (fun s' => { s' with onDeck := none }) (·.path) (trackNext bad s) l := by
  obtain ⟨root, path, onDeck, stack⟩ := s
  obtain ⟨hp, h⟩ := h
  rcases root with _ | n
  · rcases onDeck with _ | cs
    · have h : l = pends stack := by simpa using h
      subst h
      exact trackLoop_pend b₀ bad stack path hp
    · have h : l = pends (cs :: stack) := by simpa [pends] using h
      subst h
      exact trackLoop_pend b₀ bad (cs :: stack) (usizeMax :: path) (by simp only [List.length_cons] at hp ⊢; omega)
  · obtain ⟨h1, h2, h3⟩ := h
    simp only at hp h1 h2
    subst h1 h2 h3
    simp only [Turn, unfold_eq n, trackNext]
    have hp : path.length = b₀ := by simpa using hp
    by_cases hb : bad n
    · simp only [hb, if_true]
      refine ⟨_, rfl, ⟨by simpa using hp, ?_⟩, ⟨by simpa using hp, ?_⟩, by simpa using hp⟩ <;> simp [pends]
    · simp only [hb]
      refine ⟨_, rfl, ⟨by simpa using hp, ?_⟩, ⟨by simpa using hp, ?_⟩, by simpa using hp⟩ <;> simp [pends, Function.comp_def]

/-- The source as a walk, from what its `next` does. -/
theorem walks_source {S : Type x} {σ : Type w} [SplitNode N V] {bad : N → Bool} {b₀ : Nat} {M : FPipe S V σ}
    {next : S → Except Panic (Option (Option V) × S)} {R : S → List (Nat × Tree N) → Prop}
    (hn : ∀ s w, M.next s w = match next s with | .error e => .error e | .ok (o, s') => .ok (o, s', w))
    (h : ∀ s l, R s l → Turn b₀ bad R M.prune (fun s' => M.path s') (next s) l) :
    M.Walks (FPipe.lenAt b₀) ((FChain.source : FChain σ V V).stepAt bad) R where
  weak _ h := by simp at h
  done hs w := by
    obtain ⟨s', h1, h2⟩ := h _ _ hs
    exact ⟨s', by rw [hn, h1], h2⟩
  drop {s d n cs l} hs w e := by
    rw [FChain.stepAt] at e
    split at e <;> simp [FChain.step] at e
  ans {s d n cs l} hs w o b e := by
    obtain ⟨s', h1, h2, h3, h4⟩ := h _ _ hs
    rw [FChain.stepAt] at e ⊢
    split at e
    · next hb =>
      simp only [Option.some.injEq, Prod.mk.injEq] at e
      obtain ⟨rfl, rfl⟩ := e
      simp only [hb, if_true] at h1 h2
      exact ⟨s', by simp [hn, h1, hb], h2, h3, fun _ => h4⟩
    · next hb =>
      simp only [FChain.step, Option.some.injEq, Prod.mk.injEq] at e
      obtain ⟨rfl, rfl⟩ := e
      simp only [hb] at h1 h2
      exact ⟨s', by simp [hn, h1, hb, FChain.step], by simpa using h2, h3, fun _ => h4⟩

theorem trackPipe_walks [TreeNode N V] (b₀ : Nat) (bad : N → Bool) (σ : Type w) :
    (trackPipe bad σ).Walks (FPipe.lenAt b₀) ((FChain.source : FChain σ V V).stepAt bad) (TrackPend (N := N) b₀) :=
  walks_source (next := trackNext bad) (fun s w => by
    simp only [trackPipe]
    cases trackNext bad s <;> rfl) fun s l hs => by
    have := trackNext_pend b₀ bad hs
    rcases l with _ | ⟨⟨d, n, cs⟩, l⟩
    · exact this
    · obtain ⟨s', h1, h2, h3, h4⟩ := this
      exact ⟨s', h1, h2, h3, by simpa [trackPipe] using h4⟩

/-- The pending trees of a stack of slots. -/
def binPends [BinNode N V] : List (List (Option N)) → List (Nat × Tree N)
  | [] => []
  | f :: rest => (f.filterMap id).map (fun n => (rest.length + 1, unfold n)) ++ binPends rest

/-- The pending trees of the binary source. -/
def BinTrackPend [BinNode N V] (b₀ : Nat) (s : Track.State N (Option N × Option N) (Option N)) (l : List (Nat × Tree N)) : Prop :=
  s.path.length = s.stack.length + b₀ ∧
  match s.root with
  | some n => s.onDeck = none ∧ s.stack = [] ∧ l = [(0, unfold n)]
  | none => l = ((s.onDeck.map fun p => [p.1, p.2].filterMap id).getD []).map (fun n => (s.stack.length + 1, unfold n)) ++
      binPends s.stack

theorem kids_bin [BinNode N V] (n : N) : kids n = [(split2 n).2.1, (split2 n).2.2].filterMap id := rfl

theorem binTrackLoop_pend [BinNode N V] (b₀ : Nat) (bad : N → Bool) (st : List (List (Option N))) (path : List Nat)
    (h : path.length = st.length + b₀) :
    Turn b₀ bad (BinTrackPend b₀) (fun s' => { s' with onDeck := none }) (·.path) (binTrackLoop bad st path) (binPends st) := by
  fun_induction binTrackLoop bad st path with
  | case1 path => exact ⟨_, rfl, h, rfl⟩
  | case2 => simp only [List.length_cons, List.length_nil] at h; omega
  | case3 c cs rest p ps hb =>
    simp only [Turn, binPends, List.filterMap_cons, id, List.map_cons, List.cons_append, unfold_eq c, hb, if_true]
    have h : ps.length = rest.length + b₀ := by simp only [List.length_cons] at h; omega
    refine ⟨_, rfl, ⟨by simp only [List.length_cons]; omega, ?_⟩, ⟨by simp only [List.length_cons]; omega, ?_⟩, by simp only [List.length_cons]; omega⟩ <;> simp [binPends]
  | case4 c cs rest p ps hb =>
    simp only [Turn, binPends, List.filterMap_cons, id, List.map_cons, List.cons_append, unfold_eq c, hb]
    have h : ps.length = rest.length + b₀ := by simp only [List.length_cons] at h; omega
    refine ⟨_, rfl, ⟨by simp only [List.length_cons]; omega, ?_⟩, ⟨by simp only [List.length_cons]; omega, ?_⟩, by simp only [List.length_cons]; omega⟩
    · simp [binPends, Function.comp_def, kids_bin]
    · simp [binPends]
  | case5 cs rest p ps ih =>
    simpa only [binPends, List.filterMap_cons, id] using ih (by simpa using h)
  | case6 rest path ih =>
    simpa only [binPends, List.filterMap_nil, List.map_nil, List.nil_append] using
      ih (by simp only [List.length_tail, h, List.length_cons]; omega)

theorem binTrackNext_pend [BinNode N V] (b₀ : Nat) (bad : N → Bool) {s : Track.State N (Option N × Option N) (Option N)}
    {l : List (Nat × Tree N)} (h : BinTrackPend b₀ s l) :
    Turn b₀ bad (BinTrackPend b₀) (fun s' => { s' with onDeck := none }) (·.path) (binTrackNext bad s) l := by
  obtain ⟨root, path, onDeck, stack⟩ := s
  obtain ⟨hp, h⟩ := h
  rcases root with _ | n
  · rcases onDeck with _ | cs
    · have h : l = binPends stack := by simpa using h
      subst h
      exact binTrackLoop_pend b₀ bad stack path hp
    · have h : l = binPends ([cs.1, cs.2] :: stack) := h
      subst h
      exact binTrackLoop_pend b₀ bad ([cs.1, cs.2] :: stack) (usizeMax :: path) (by simp only [List.length_cons] at hp ⊢; omega)
  · obtain ⟨h1, h2, h3⟩ := h
    simp only at hp h1 h2
    subst h1 h2 h3
    simp only [Turn, unfold_eq n, binTrackNext]
    have hp : path.length = b₀ := by simpa using hp
    by_cases hb : bad n
    · simp only [hb, if_true]
      refine ⟨_, rfl, ⟨by simpa using hp, ?_⟩, ⟨by simpa using hp, ?_⟩, by simpa using hp⟩ <;> simp [binPends]
    · simp only [hb]
      refine ⟨_, rfl, ⟨by simpa using hp, ?_⟩, ⟨by simpa using hp, ?_⟩, by simpa using hp⟩
      · simp [binPends, Function.comp_def, kids_bin]
      · simp [binPends]

theorem binTrackPipe_walks [BinNode N V] (b₀ : Nat) (bad : N → Bool) (σ : Type w) :
    (binTrackPipe bad σ).Walks (FPipe.lenAt b₀) ((FChain.source : FChain σ V V).stepAt bad) (BinTrackPend (N := N) b₀) :=
  walks_source (next := binTrackNext bad) (fun s w => by
    simp only [binTrackPipe]
    cases binTrackNext bad s <;> rfl) fun s l hs => by
    have := binTrackNext_pend b₀ bad hs
    rcases l with _ | ⟨⟨d, n, cs⟩, l⟩
    · exact this
    · obtain ⟨s', h1, h2, h3, h4⟩ := this
      exact ⟨s', h1, h2, h3, by simpa [binTrackPipe] using h4⟩

end Fail

/-! ## Chains -/

namespace FPipe

variable {S : Type u} {N : Type v} {W : Type x} {σ : Type w}

theorem Walks.congr {M : FPipe S W σ} {A : Nat → N → Bool → List Nat → Prop} {r r' : σ → Nat → N → σ × Option (Option W × Bool)}
    {R : S → List (Nat × Tree N) → Prop} (hM : Walks M A r R) (h : ∀ w d n, r w d n = r' w d n) : Walks M A r' R := by
  have : r = r' := by funext w d n; exact h w d n
  exact this ▸ hM

end FPipe

namespace FChain

variable {N : Type u} {V W : Type v} {σ : Type w} {S : Type x}

/-- The pending trees of a chain's pipeline are those of its source. -/
def Pend (R : S → List (Nat × Tree N) → Prop) : {W : Type v} → (c : FChain σ V W) → c.St S → List (Nat × Tree N) → Prop
  | _, source, s, l => R s l
  | _, map c _, s, l => c.Pend R s l
  | _, prune c _, s, l => s.pruned.length = s.current.length ∧ c.Pend R s.inner l
  | _, pruneDepth c _, s, l => c.Pend R s l

theorem pend_init {R : S → List (Nat × Tree N) → Prop} {s : S} {l : List (Nat × Tree N)} (h : R s l) {W : Type v}
    (c : FChain σ V W) : c.Pend R (c.init s) l := by
  induction c with
  | source => exact h
  | map c f ih => exact ih
  | prune c f ih => exact ⟨rfl, ih⟩
  | pruneDepth c d ih => exact ih

theorem pipe_walks [SplitNode N V] {bad : N → Bool} {b₀ : Nat} {M : FPipe S V σ} {R : S → List (Nat × Tree N) → Prop}
    (hM : M.Walks (FPipe.lenAt b₀) ((FChain.source : FChain σ V V).stepAt bad) R)
    {depthOf : List Nat → Except Panic Nat} (hd : ∀ p d, p.length = d + b₀ → depthOf p = .ok d) {W : Type v} (c : FChain σ V W) :
    (c.pipe depthOf M).Walks (FPipe.lenAt b₀) (c.stepAt bad) (c.Pend R) := by
  induction c with
  | source => exact hM
  | map c f ih =>
    refine (ih.map f).congr fun w d n => ?_
    by_cases hb : bad n
    · simp [stepAt, hb]
    · simp [stepAt, hb, step]
      rcases c.step w d (val n) with ⟨w', _ | ⟨_ | y, b⟩⟩ <;> rfl
  | prune c f ih =>
    refine (ih.prunePipe (g := fun w _ y => f w y) (fun _ _ _ => rfl) (fun h => h rfl)).congr fun w d n => ?_
    by_cases hb : bad n
    · simp [stepAt, hb]
    · simp [stepAt, hb, step]
      rcases c.step w d (val n) with ⟨w', _ | ⟨_ | y, b⟩⟩
      · rfl
      · rfl
      · rcases f w' y with ⟨w'', _ | _ | _⟩ <;> rfl
  | pruneDepth c m ih =>
    refine (ih.pruneDepth (fun d n p h => hd p d (h rfl)) m).congr fun w d n => ?_
    by_cases hb : bad n
    · simp [stepAt, hb]
    · simp [stepAt, hb, step]
      rcases c.step w d (val n) with ⟨w', _ | ⟨_ | y, b⟩⟩ <;> rfl

theorem binPipe_walks [SplitNode N V] {bad : N → Bool} {b₀ : Nat} {M : FPipe S V σ} {R : S → List (Nat × Tree N) → Prop}
    (hM : M.Walks (FPipe.lenAt b₀) ((FChain.source : FChain σ V V).stepAt bad) R)
    {depthOf : List Nat → Except Panic Nat} (hd : ∀ p d, p.length = d + b₀ → depthOf p = .ok d) {W : Type v} (c : FChain σ V W) :
    (c.binPipe depthOf M).Walks (FPipe.lenAt b₀) (c.stepAt bad) R := by
  induction c with
  | source => exact hM
  | map c f ih =>
    refine (ih.map f).congr fun w d n => ?_
    by_cases hb : bad n
    · simp [stepAt, hb]
    · simp [stepAt, hb, step]
      rcases c.step w d (val n) with ⟨w', _ | ⟨_ | y, b⟩⟩ <;> rfl
  | prune c f ih =>
    refine (ih.binPrune (g := fun w _ y => f w y) (fun _ _ _ => rfl)).congr fun w d n => ?_
    by_cases hb : bad n
    · simp [stepAt, hb]
    · simp [stepAt, hb, step]
      rcases c.step w d (val n) with ⟨w', _ | ⟨_ | y, b⟩⟩
      · rfl
      · rfl
      · rcases f w' y with ⟨w'', _ | _ | _⟩ <;> rfl
  | pruneDepth c m ih =>
    refine (ih.pruneDepth (fun d n p h => hd p d (h rfl)) m).congr fun w d n => ?_
    by_cases hb : bad n
    · simp [stepAt, hb]
    · simp [stepAt, hb, step]
      rcases c.step w d (val n) with ⟨w', _ | ⟨_ | y, b⟩⟩ <;> rfl

end FChain

/-! ## What follows from the replies -/

namespace FChain

variable {V : Type v} {σ : Type w}

theorem step_total {W : Type v} (c : FChain σ V W) (hc : c.Total) (w : σ) (d : Nat) (y : V) (b : Bool) :
    (c.step w d y).2 ≠ some (none, b) := by
  induction c generalizing w b with
  | source => simp [step]
  | map c f ih =>
    rw [step]
    have := ih hc.1 w
    generalize c.step w d y = q at this ⊢
    rcases q with ⟨w', _ | ⟨_ | z, b'⟩⟩
    · simp
    · exact absurd rfl (this b')
    · simp [hc.2]
  | prune c f ih =>
    rw [step]
    have := ih hc.1 w
    generalize c.step w d y = q at this ⊢
    rcases q with ⟨w', _ | ⟨_ | z, b'⟩⟩
    · simp
    · exact absurd rfl (this b')
    · have hf := hc.2 w' z
      rcases hq : f w' z with ⟨w'', _ | _ | _⟩
      · simp [hq] at hf
      · simp [hq]
      · simp [hq]
  | pruneDepth c m ih =>
    rw [step]
    have := ih hc w
    generalize c.step w d y = q at this ⊢
    rcases q with ⟨w', _ | ⟨_ | z, b'⟩⟩
    · simp
    · exact absurd rfl (this b')
    · simp

theorem step_limits {W : Type v} (c : FChain σ V W) (m : Nat) (hc : c.Limits m) (w : σ) (y : V) (o : Option W) :
    (c.step w m y).2 ≠ some (o, true) := by
  induction c generalizing w with
  | source => exact hc.elim
  | map c f ih =>
    rw [step]
    have := ih hc w
    generalize c.step w m y = q at this ⊢
    rcases q with ⟨w', _ | ⟨_ | z, b'⟩⟩
    · simp
    · have := this none
      simp only [ne_eq, Option.some.injEq, Prod.mk.injEq, true_and] at this
      simp [this]
    · have := this (some z)
      simp only [ne_eq, Option.some.injEq, Prod.mk.injEq, true_and] at this
      simp [this]
  | prune c f ih =>
    rw [step]
    have := ih hc w
    generalize c.step w m y = q at this ⊢
    rcases q with ⟨w', _ | ⟨_ | z, b'⟩⟩
    · simp
    · have := this none
      simp only [ne_eq, Option.some.injEq, Prod.mk.injEq, true_and] at this
      simp [this]
    · have := this (some z)
      simp only [ne_eq, Option.some.injEq, Prod.mk.injEq, true_and] at this
      rcases hq : f w' z with ⟨w'', _ | _ | _⟩ <;> simp [hq, this]
  | pruneDepth c k ih =>
    rw [step]
    rcases hc with ⟨rfl, hc⟩ | hc
    · have := step_total c hc w k y
      generalize c.step w k y = q at this ⊢
      rcases q with ⟨w', _ | ⟨_ | z, b'⟩⟩
      · simp
      · exact absurd rfl (this b')
      · simp
    · have := ih hc w
      generalize c.step w m y = q at this ⊢
      rcases q with ⟨w', _ | ⟨_ | z, b'⟩⟩
      · simp
      · have := this none
        simp only [ne_eq, Option.some.injEq, Prod.mk.injEq, true_and] at this
        simp [this]
      · have := this (some z)
        simp only [ne_eq, Option.some.injEq, Prod.mk.injEq, true_and] at this
        simp [this]

end FChain

namespace Fail

variable {N : Type u} {V W : Type v} {σ : Type w}

theorem replies_top_of {r : σ → Nat → N → σ × Option (Option W × Bool)} {m : Nat}
    (hr : ∀ w n o, (r w m n).2 ≠ some (o, true)) (t : Tree N) :
    ∀ (j d : Nat) (w : σ), d + j = m → t.replies r d w = (t.top j).replies r d w := by
  induction t using Tree.ind with
  | h n cs ih =>
    intro j d w e
    rcases j with _ | j
    · have e : d = m := by omega
      subst e
      rw [Tree.top, Tree.replies, Tree.replies]
      have := hr w n
      generalize r w d n = q at this ⊢
      rcases q with ⟨w', _ | ⟨o, _ | _⟩⟩
      · rfl
      · rfl
      · exact absurd rfl (this o)
    · have hL : ∀ w, Tree.repliesL r (d + 1) w cs = Tree.repliesL r (d + 1) w (Tree.topL j cs) := by
        clear hr
        induction cs with
        | nil => intro w; rw [Tree.topL]
        | cons t ts ih2 =>
          intro w
          rw [Tree.topL, Tree.repliesL, Tree.repliesL, ← ih t (by simp) j (d + 1) w (by omega),
            ih2 (fun t' ht => ih t' (by simp [ht]))]
      rw [Tree.top, Tree.replies, Tree.replies]
      rcases r w d n with ⟨w', _ | ⟨o, _ | _⟩⟩
      · rfl
      · rfl
      · simp only [hL]

theorem replies_top [SplitNode N V] (bad : N → Bool) {c : FChain σ V W} {m : Nat} (hc : c.Limits m) (t : Tree N) (w : σ) :
    t.replies (c.stepAt bad) 0 w = (t.top m).replies (c.stepAt bad) 0 w := by
  refine replies_top_of (m := m) (fun w n o => ?_) t m 0 w (by omega)
  rw [FChain.stepAt]
  split
  · simp
  · exact c.step_limits m hc w _ o

theorem replies_map [SplitNode N V] (f : V → Option W) (t : Tree N) :
    ∀ d, (t.replies ((FChain.source.map fun (w : Unit) (v : V) => (w, f v)).stepAt fun _ => false) d ()).1 =
      t.preorder.map fun n => f (val n) := by
  induction t using Tree.ind with
  | h n cs ih =>
    intro d
    have hL : (Tree.repliesL ((FChain.source.map fun (w : Unit) (v : V) => (w, f v)).stepAt fun _ => false) (d + 1) () cs).1 =
        (Tree.preorderL cs).map fun n => f (val n) := by
      induction cs with
      | nil => simp [Tree.repliesL, Tree.preorderL]
      | cons t ts ih2 =>
        rw [Tree.repliesL, Tree.preorderL, List.map_append, ih t (by simp), ih2 (fun t' ht => ih t' (by simp [ht]))]
    rw [Tree.replies, Tree.preorder, List.map_cons, ← hL]
    simp [FChain.stepAt, FChain.step]

end Fail

end TreeIter
