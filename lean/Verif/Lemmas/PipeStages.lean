import Verif.Lemmas.Visit

/-! # The visitors of the stages of a pipeline -/

universe u v w x y z

namespace TreeIter

section
variable {S : Type u} {A : Type v} {σ : Type w} {U : Type x} {W : Type y} {Z : Type z}

/-- `map_tree` as a stage. -/
def mapStage (f : σ → W → σ × Z) : Stage Unit σ W Z where
  step _ w _ y := ((), (f w y).1, .emit (f w y).2 true)
  path _ p := p
  finish b _ := b

/-- `map_path` as a stage; the state is the path before the call. -/
def mapPathStage (stale : σ → List Nat → List Nat → List Nat) (f : σ → List Nat → W → σ × Z) :
    Stage (List Nat) σ W Z where
  step b w p y := (p, (f w (stale w b p) y).1, .emit (f w (stale w b p) y).2 true)
  path _ p := p
  finish _ p := p

/-- `prune_depth` as a stage. -/
def pruneDepthStage (depthT : List Nat → Nat) (d : Nat) : Stage Unit σ W W where
  step _ w p y := ((), w, .emit y (depthT p != d))
  path _ p := p
  finish b _ := b

/-- `BinaryPrunePath` as a stage. -/
def binPruneStage (f : σ → List Nat → W → σ × Bool) : Stage Unit σ W W where
  step _ w p y := ((), (f w p y).1, if (f w p y).2 then .skip else .emit y true)
  path _ p := p
  finish b _ := b

/-- What becomes of the path kept by `Prune` when the inner pipeline moves to a node at depth `len`. -/
def adj (len : Nat) (c : List Nat) : List Nat :=
  if c.length < len then c ++ List.replicate (len - c.length) 0
  else if c.length > len then Pipe.bumpLast (c.take len)
  else c

/-- `PrunePath` as a stage; the state is its own path. -/
def pruneStage (f : σ → List Nat → W → σ × Bool) : Stage (List Nat) σ W W where
  step c w p y := (adj p.length c, (f w p y).1, if (f w p y).2 then .skip else .emit y true)
  path c _ := c
  finish _ _ := []

theorem Enum.map {M : Pipe S W σ} {v : Visitor A σ U W} {R : S → A → List (Lab U) → Prop} (hM : Enum M v R)
    (f : σ → W → σ × Z) :
    Enum (M.map f) ((mapStage f).visitor v) fun s a l => R s a.1 l := by
  have h := (hM.stage (mapStage f)).sim (M' := M.map f) (fun s' s => s' = s.1)
    (by rintro s' ⟨s, b⟩ rfl; rfl) (by rintro s' ⟨s, b⟩ rfl; rfl)
    (by
      rintro s' ⟨s, b⟩ w o ⟨t, b'⟩ w' rfl h
      simp only [Pipe.stage] at h
      simp only [Pipe.map]
      rcases hn : M.next s' w with e | ⟨o1, s1, w1⟩
      · rw [Pipe.stageNext_error hn] at h
        simp at h
      · rcases o1 with _ | y
        · rw [Pipe.stageNext_none hn] at h
          simp_all
        · rw [Pipe.stageNext_some hn] at h
          simp only [mapStage, if_true, Except.ok.injEq, Prod.mk.injEq] at h
          obtain ⟨rfl, ⟨rfl, -⟩, rfl⟩ := h
          exact ⟨s1, rfl, rfl⟩)
  have h2 : (fun (s' : S) (a : A × Unit) l => ∃ s : S × Unit, s' = s.1 ∧ R s.1 a.1 l ∧ s.2 = a.2) =
      fun s a l => R s a.1 l := by
    funext s' a l
    apply propext
    constructor
    · rintro ⟨s, rfl, h, -⟩; exact h
    · intro h; exact ⟨(s', ()), rfl, h, rfl⟩
  rwa [h2] at h

theorem Enum.mapPath {M : Pipe S W σ} {v : Visitor A σ U W} {R : S → A → List (Lab U) → Prop} (hM : Enum M v R)
    (stale : σ → List Nat → List Nat → List Nat) (f : σ → List Nat → W → σ × Z) :
    Enum (M.mapPath stale f) ((mapPathStage stale f).visitor v) fun s a l => R s a.1 l ∧ a.2 = v.path a.1 := by
  have h := (hM.stage (mapPathStage stale f)).sim (M' := M.mapPath stale f) (fun s' s => s' = s.1 ∧ s.2 = M.path s')
    (by rintro s' ⟨s, b⟩ ⟨rfl, -⟩; rfl)
    (by rintro s' ⟨s, b⟩ ⟨rfl, rfl⟩; exact ⟨rfl, (M.path_prune _).symm⟩)
    (by
      rintro s' ⟨s, b⟩ w o ⟨t, b'⟩ w' ⟨rfl, h2⟩ h
      dsimp only at h2
      simp only [Pipe.stage] at h
      simp only [Pipe.mapPath]
      rcases hn : M.next s' w with e | ⟨o1, s1, w1⟩
      · rw [Pipe.stageNext_error hn] at h
        simp at h
      · rcases o1 with _ | y
        · rw [Pipe.stageNext_none hn] at h
          simp only [mapPathStage, Except.ok.injEq, Prod.mk.injEq] at h
          obtain ⟨rfl, ⟨rfl, rfl⟩, rfl⟩ := h
          exact ⟨s1, rfl, rfl, rfl⟩
        · rw [Pipe.stageNext_some hn] at h
          simp only [mapPathStage, if_true, Except.ok.injEq, Prod.mk.injEq] at h
          obtain ⟨rfl, ⟨rfl, rfl⟩, rfl⟩ := h
          exact ⟨s1, by rw [h2], rfl, rfl⟩)
  have h2 : (fun (s' : S) (a : A × List Nat) l => ∃ s : S × List Nat, (s' = s.1 ∧ s.2 = M.path s') ∧ R s.1 a.1 l ∧ s.2 = a.2) =
      fun s a l => R s a.1 l ∧ a.2 = v.path a.1 := by
    funext s' a l
    apply propext
    constructor
    · rintro ⟨s, ⟨rfl, h1⟩, h, h2⟩; exact ⟨h, by rw [← h2, h1, hM.path h]⟩
    · rintro ⟨h, h1⟩; exact ⟨(s', M.path s'), ⟨rfl, rfl⟩, h, by rw [h1, hM.path h]⟩
  rwa [h2] at h

/-- `P` holds of the labels; it makes sure that `depthOf` does not panic. -/
theorem Enum.pruneDepth {M : Pipe S W σ} {v : Visitor A σ U W} {R : S → A → List (Lab U) → Prop} (hM : Enum M v R)
    (depthOf : List Nat → Except Panic Nat) (depthT : List Nat → Nat) (d : Nat) (P : List Nat → Prop)
    (hP : ∀ {a w p x a' w' y k}, P p → v.visit a w p x = (a', w', .emit y k) →
      depthOf (v.path a') = .ok (depthT (v.path a'))) :
    Enum (M.pruneDepth depthOf d) ((pruneDepthStage depthT d).visitor v)
      fun s a l => R s a.1 l ∧ ∀ q ∈ Tree.preorderL l, P q.1 where
  path := by
    rintro s a l ⟨h, -⟩
    exact hM.path h
  next_none := by
    rintro s ⟨a, b⟩ l w a' w' ⟨h, hl⟩ hv
    rcases hv1 : visitNext v a w l with ⟨o, a1, w1⟩
    rcases o with _ | ⟨y, cs, rest⟩
    · rw [Stage.visitNext_none b hv1] at hv
      simp only [Prod.mk.injEq, true_and] at hv
      obtain ⟨-, rfl⟩ := hv
      obtain ⟨s'', a'', h1, h2⟩ := hM.next_none h hv1
      exact ⟨s'', (a'', ()), by simp only [Pipe.pruneDepth, h1], h2, by simp [Tree.preorderL]⟩
    · rw [Stage.visitNext_some b hv1] at hv
      simp [pruneDepthStage] at hv
  next_some := by
    rintro s ⟨a, b⟩ l w z cs rest a' w' ⟨h, hl⟩ hv
    rcases hv1 : visitNext v a w l with ⟨o, a1, w1⟩
    rcases o with _ | ⟨y, cs1, rest1⟩
    · rw [Stage.visitNext_none b hv1] at hv
      simp at hv
    · rw [Stage.visitNext_some b hv1] at hv
      simp only [pruneDepthStage, Prod.mk.injEq, Option.some.injEq] at hv
      obtain ⟨⟨rfl, rfl, rfl⟩, rfl, rfl⟩ := hv
      obtain ⟨s', h1, h2, h3⟩ := hM.next_some h hv1
      obtain ⟨h4, a2, w2, p, x, k, h5, h6⟩ := visitNext_labels (P := fun q => P q.1) hv1 hl
      have h7 : ∀ q ∈ Tree.preorderL rest1, P q.1 := fun q hq => h4 q (by
        rw [Tree.preorderL_eq] at hq ⊢
        simp only [List.flatMap_append, List.mem_append]
        exact Or.inr hq)
      refine ⟨if depthT (v.path a1) = d then M.prune s' else s', ?_, ?_, ?_⟩
      · simp only [Pipe.pruneDepth, h1, hM.path h2, hP h5 h6]
      · by_cases hd : depthT (v.path a1) = d
        · simp only [hd, bne_self_eq_false, Bool.false_eq_true, if_false, if_true, List.nil_append]
          exact ⟨h3, h7⟩
        · simp only [bne_iff_ne, ne_eq, hd, not_false_eq_true, if_true, if_false]
          exact ⟨h2, h4⟩
      · refine ⟨?_, h7⟩
        by_cases hd : depthT (v.path a1) = d
        · simpa [hd, Pipe.pruneDepth, M.prune_prune] using h3
        · simpa [hd, Pipe.pruneDepth] using h3

theorem Enum.binPrunePath {M : Pipe S W σ} {v : Visitor A σ U W} {R : S → A → List (Lab U) → Prop} (hM : Enum M v R)
    (f : σ → List Nat → W → σ × Bool) :
    Enum (M.binPrunePath f) ((binPruneStage f).visitor v) fun s a l => R s a.1 l := by
  have h := (hM.stage (binPruneStage f)).sim (M' := M.binPrunePath f) (fun s' s => s' = s.1)
    (by rintro s' ⟨s, b⟩ rfl; rfl) (by rintro s' ⟨s, b⟩ rfl; rfl)
    (by
      rintro s' s w o t w' rfl h
      refine ⟨t.1, ?_, rfl⟩
      simp only [Pipe.stage] at h
      simp only [Pipe.binPrunePath]
      fun_induction Pipe.stageNext M (binPruneStage f) s w with
      | case1 s w e h1 => simp at h
      | case2 s w s1 w1 h1 =>
        rw [Pipe.binPrunePathNext]
        simp only [Except.ok.injEq, Prod.mk.injEq] at h
        obtain ⟨rfl, rfl, rfl⟩ := h
        split <;> simp_all
      | case3 s w y s1 w1 h1 b' w2 h2 ih =>
        rw [Pipe.binPrunePathNext]
        split
        · simp_all
        · simp_all
        · next h3 =>
          rw [h1] at h3
          simp only [Except.ok.injEq, Prod.mk.injEq, Option.some.injEq] at h3
          obtain ⟨rfl, rfl, rfl⟩ := h3
          simp only [binPruneStage, Prod.mk.injEq] at h2
          obtain ⟨-, rfl, h2⟩ := h2
          split at h2
          · next h4 =>
            rw [if_pos h4]
            exact ih h
          · simp at h2
      | case4 s w y s1 w1 h1 b' w2 z k h2 =>
        rw [Pipe.binPrunePathNext]
        split
        · simp_all
        · simp_all
        · next h3 =>
          rw [h1] at h3
          simp only [Except.ok.injEq, Prod.mk.injEq, Option.some.injEq] at h3
          obtain ⟨rfl, rfl, rfl⟩ := h3
          simp only [binPruneStage, Prod.mk.injEq] at h2
          obtain ⟨-, rfl, h2⟩ := h2
          split at h2
          · simp at h2
          · next h4 =>
            rw [if_neg h4]
            simp only [Outcome.emit.injEq] at h2
            obtain ⟨rfl, rfl⟩ := h2
            simp only [Except.ok.injEq, Prod.mk.injEq, if_true] at h
            obtain ⟨rfl, rfl, rfl⟩ := h
            rfl)
  have h2 : (fun (s' : S) (a : A × Unit) l => ∃ s : S × Unit, s' = s.1 ∧ R s.1 a.1 l ∧ s.2 = a.2) =
      fun s a l => R s a.1 l := by
    funext s' a l
    apply propext
    constructor
    · rintro ⟨s, rfl, h, -⟩; exact h
    · intro h; exact ⟨(s', ()), rfl, h, rfl⟩
  rwa [h2] at h

/-- `BinaryPrune` is `BinaryPrunePath` with a closure that ignores the path. -/
theorem Pipe.binPrune_eq (M : Pipe S W σ) (f : σ → W → σ × Bool) :
    M.binPrune f = M.binPrunePath fun w _ v => f w v := by
  have h : M.binPruneNext f = M.binPrunePathNext fun w _ v => f w v := by
    funext s w
    fun_induction Pipe.binPruneNext M f s w with
    | case1 s w e h1 => rw [Pipe.binPrunePathNext]; split <;> simp_all
    | case2 s w s1 w1 h1 => rw [Pipe.binPrunePathNext]; split <;> simp_all
    | case3 s w v1 s1 w1 h1 h2 ih =>
      rw [Pipe.binPrunePathNext]
      split
      · simp_all
      · simp_all
      · next h3 =>
        rw [h1] at h3
        simp only [Except.ok.injEq, Prod.mk.injEq, Option.some.injEq] at h3
        obtain ⟨rfl, rfl, rfl⟩ := h3
        rw [if_pos h2]
        exact ih
    | case4 s w v1 s1 w1 h1 h2 =>
      rw [Pipe.binPrunePathNext]
      split
      · simp_all
      · simp_all
      · next h3 =>
        rw [h1] at h3
        simp only [Except.ok.injEq, Prod.mk.injEq, Option.some.injEq] at h3
        obtain ⟨rfl, rfl, rfl⟩ := h3
        rw [if_neg h2]
  simp only [Pipe.binPrune, Pipe.binPrunePath, h]

theorem Enum.binPrune {M : Pipe S W σ} {v : Visitor A σ U W} {R : S → A → List (Lab U) → Prop} (hM : Enum M v R)
    (f : σ → W → σ × Bool) :
    Enum (M.binPrune f) ((binPruneStage fun w _ v => f w v).visitor v) fun s a l => R s a.1 l := by
  rw [Pipe.binPrune_eq]
  exact hM.binPrunePath _

theorem bumpLast_length (l : List Nat) : (Pipe.bumpLast l).length = l.length := by
  rw [Pipe.bumpLast]
  split
  · rfl
  · next h =>
    have : l ≠ [] := by rintro rfl; simp at h
    have := List.length_pos_iff.2 this
    simp only [List.length_append, List.length_dropLast, List.length_cons, List.length_nil]
    omega

theorem adj_length (n : Nat) (c : List Nat) : (adj n c).length = n := by
  unfold adj
  split
  · simp; omega
  · split
    · rw [bumpLast_length]; simp; omega
    · omega

theorem adjust_eq (n : Nat) {p c : List Nat} (h : p.length = c.length) :
    (Pipe.adjust n p c).2 = adj n c ∧ (Pipe.adjust n p c).1.length = n := by
  unfold Pipe.adjust adj
  rw [h]
  split
  · simp [h]; omega
  · split
    · simp [h]; omega
    · simp [h]; omega

theorem count_ok {p c : List Nat} (h : p.length = c.length) :
    ∃ p', Pipe.count p c = .ok p' ∧ p'.length = c.length := by
  unfold Pipe.count
  split
  · next h1 =>
    have : c.length - 1 < p.length := by omega
    rw [List.getElem?_eq_getElem this]
    exact ⟨_, rfl, by simp [h]⟩
  · exact ⟨p, rfl, h⟩

theorem Enum.prunePath {M : Pipe S W σ} {v : Visitor A σ U W} {R : S → A → List (Lab U) → Prop} (hM : Enum M v R)
    (f : σ → List Nat → W → σ × Bool) :
    Enum (M.prunePath f) ((pruneStage f).visitor v)
      fun s a l => (s.current = a.2 ∧ s.pruned.length = s.current.length) ∧ R s.inner a.1 l := by
  have h := (hM.stage (pruneStage f)).sim (M' := M.prunePath f)
    (fun s' s => s'.inner = s.1 ∧ s'.current = s.2 ∧ s'.pruned.length = s'.current.length)
    (by rintro ⟨_, _, _⟩ ⟨s, b⟩ ⟨rfl, rfl, -⟩; rfl)
    (by rintro ⟨_, _, _⟩ ⟨s, b⟩ ⟨rfl, rfl, h⟩; exact ⟨rfl, rfl, h⟩)
    (by
      rintro s' s w o t w' hT h
      simp only [Pipe.stage] at h
      simp only [Pipe.prunePath]
      fun_induction Pipe.stageNext M (pruneStage f) s w generalizing s' with
      | case1 s w e h1 => simp at h
      | case2 s w s1 w1 h1 =>
        obtain ⟨s0, p, c⟩ := s'
        obtain ⟨rfl, rfl, h3⟩ := hT
        rw [Pipe.pruneNext]
        simp only [Except.ok.injEq, Prod.mk.injEq] at h
        obtain ⟨rfl, rfl, rfl⟩ := h
        refine ⟨⟨s1, [], []⟩, ?_, rfl, rfl, rfl⟩
        split <;> simp_all
      | case3 s w y s1 w1 h1 b' w2 h2 ih =>
        obtain ⟨s0, p, c⟩ := s'
        obtain ⟨s, b⟩ := s
        obtain ⟨rfl, rfl, h3⟩ := hT
        simp only [pruneStage, Prod.mk.injEq] at h2
        obtain ⟨rfl, rfl, h2⟩ := h2
        dsimp only at h3
        split at h2
        · next h4 =>
          obtain ⟨h5, h6⟩ := adjust_eq (M.path s1).length h3
          obtain ⟨p', h7, h8⟩ := count_ok (p := (Pipe.adjust (M.path s1).length p c).1)
            (c := (Pipe.adjust (M.path s1).length p c).2) (by rw [h6, h5, adj_length])
          obtain ⟨t', h9, h10⟩ := ih (s' := ⟨M.prune s1, p', (Pipe.adjust (M.path s1).length p c).2⟩) ⟨rfl, h5, h8⟩ h
          refine ⟨t', ?_, h10⟩
          rw [Pipe.pruneNext]
          split
          · simp_all
          · simp_all
          · next h11 =>
            rw [h1] at h11
            simp only [Except.ok.injEq, Prod.mk.injEq, Option.some.injEq] at h11
            obtain ⟨rfl, rfl, rfl⟩ := h11
            simp only [h4, if_true, h7]
            exact h9
        · simp at h2
      | case4 s w y s1 w1 h1 b' w2 z k h2 =>
        obtain ⟨s0, p, c⟩ := s'
        obtain ⟨s, b⟩ := s
        obtain ⟨rfl, rfl, h3⟩ := hT
        simp only [pruneStage, Prod.mk.injEq] at h2
        obtain ⟨rfl, rfl, h2⟩ := h2
        dsimp only at h3
        split at h2
        · simp at h2
        · next h4 =>
          simp only [Outcome.emit.injEq] at h2
          obtain ⟨rfl, rfl⟩ := h2
          simp only [Except.ok.injEq, Prod.mk.injEq, if_true] at h
          obtain ⟨rfl, rfl, rfl⟩ := h
          obtain ⟨h5, h6⟩ := adjust_eq (M.path s1).length h3
          refine ⟨⟨s1, (Pipe.adjust (M.path s1).length p c).1, (Pipe.adjust (M.path s1).length p c).2⟩, ?_,
            rfl, h5, by rw [h6, h5, adj_length]⟩
          rw [Pipe.pruneNext]
          split
          · simp_all
          · simp_all
          · next h11 =>
            rw [h1] at h11
            simp only [Except.ok.injEq, Prod.mk.injEq, Option.some.injEq] at h11
            obtain ⟨rfl, rfl, rfl⟩ := h11
            simp [h4])
  have h2 : (fun (s' : Pipe.PruneState S) (a : A × List Nat) l => ∃ s : S × List Nat,
      (s'.inner = s.1 ∧ s'.current = s.2 ∧ s'.pruned.length = s'.current.length) ∧ R s.1 a.1 l ∧ s.2 = a.2) =
      fun s a l => (s.current = a.2 ∧ s.pruned.length = s.current.length) ∧ R s.inner a.1 l := by
    funext s' a l
    apply propext
    constructor
    · rintro ⟨s, ⟨h1, h2, h3⟩, h4, h5⟩; exact ⟨⟨h2.trans h5, h3⟩, h1 ▸ h4⟩
    · rintro ⟨⟨h1, h2⟩, h3⟩; exact ⟨(s'.inner, s'.current), ⟨rfl, rfl, h2⟩, h3, h1⟩
  rwa [h2] at h

end

end TreeIter
