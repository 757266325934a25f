import Verif.Model.PathBufChain
import Verif.Lemmas.PathBuf
import Verif.Lemmas.PipeMemory

/-! # The memory of the path of `map_path` after other stages -/

universe u v w x

namespace TreeIter

/-! ## The pipelines without the vectors -/

/-- `M` does what `M'` does, on states that hold more. -/
structure Proj {S : Type u} {T : Type u} {V : Type v} {σ : Type w} (M : Pipe S V σ) (M' : Pipe T V σ) (π : S → T) : Prop where
  next : ∀ s w, M'.next (π s) w =
    match M.next s w with
    | .error e => .error e
    | .ok (o, s', w') => .ok (o, π s', w')
  path : ∀ s, M'.path (π s) = M.path s
  prune : ∀ s, M'.prune (π s) = π (M.prune s)

namespace Proj
variable {S T : Type u} {V : Type v} {W : Type x} {σ : Type w} {M : Pipe S V σ} {M' : Pipe T V σ} {π : S → T}

theorem ok (h : Proj M M' π) {s s' : S} {w w' : σ} {o : Option V} (e : M.next s w = .ok (o, s', w')) :
    M'.next (π s) w = .ok (o, π s', w') := by
  rw [h.next, e]

theorem map (h : Proj M M' π) (f : σ → V → σ × W) : Proj (M.map f) (M'.map f) π where
  next s w := by
    simp only [Pipe.map, h.next]
    rcases M.next s w with e | ⟨_ | v, s', w'⟩ <;> rfl
  path := h.path
  prune := h.prune

theorem pruneDepth (h : Proj M M' π) (d : Nat) : Proj (M.pruneDepth Pipe.treeDepth d) (M'.pruneDepth Pipe.treeDepth d) π where
  next s w := by
    simp only [Pipe.pruneDepth, h.next, Pipe.treeDepth]
    rcases M.next s w with e | ⟨_ | v, s', w'⟩
    · rfl
    · rfl
    · simp only [h.path, h.prune]
      split <;> rfl
  path := h.path
  prune := h.prune

theorem collPruneDepth (h : Proj M M' π) (d : Nat) :
    Proj (M.pruneDepth Pipe.collDepth d) (M'.pruneDepth Pipe.collDepth d) π where
  next s w := by
    simp only [Pipe.pruneDepth, h.next]
    rcases M.next s w with e | ⟨_ | v, s', w'⟩
    · rfl
    · rfl
    · simp only [h.path, h.prune]
      rcases Pipe.collDepth (M.path s') with e | d'
      · rfl
      · simp only
        split <;> rfl
  path := h.path
  prune := h.prune

theorem binPrune (h : Proj M M' π) (f : σ → V → σ × Bool) : Proj (M.binPrune f) (M'.binPrune f) π where
  next s w := by
    show M'.binPruneNext f (π s) w = match M.binPruneNext f s w with | .error e => .error e | .ok (o, s', w') => .ok (o, π s', w')
    fun_induction Pipe.binPruneNext M f s w with
    | case1 s w e h1 => rw [Pipe.binPruneNext, h.next, h1]
    | case2 s w s1 w1 h1 => rw [Pipe.binPruneNext, h.next, h1]
    | case3 s w v s1 w1 h1 hf ih =>
      rw [Pipe.binPruneNext, h.next, h1]
      simp only [hf, if_true, h.prune]
      exact ih
    | case4 s w v s1 w1 h1 hf =>
      rw [Pipe.binPruneNext, h.next, h1]
      simp [hf]
  path := h.path
  prune := h.prune

theorem binPrunePath (h : Proj M M' π) (f : σ → List Nat → V → σ × Bool) : Proj (M.binPrunePath f) (M'.binPrunePath f) π where
  next s w := by
    show M'.binPrunePathNext f (π s) w =
      match M.binPrunePathNext f s w with | .error e => .error e | .ok (o, s', w') => .ok (o, π s', w')
    fun_induction Pipe.binPrunePathNext M f s w with
    | case1 s w e h1 => rw [Pipe.binPrunePathNext, h.next, h1]
    | case2 s w s1 w1 h1 => rw [Pipe.binPrunePathNext, h.next, h1]
    | case3 s w v s1 w1 h1 hf ih =>
      rw [Pipe.binPrunePathNext, h.next, h1]
      simp only [h.path, hf, if_true, h.prune]
      exact ih
    | case4 s w v s1 w1 h1 hf =>
      rw [Pipe.binPrunePathNext, h.next, h1]
      simp [h.path, hf]
  path := h.path
  prune := h.prune

/-- The state of a `prune` or `prune_path` stage without the vector. -/
def strip (π : S → T) (s : Pipe.PruneState S × Buf) : Pipe.PruneState T := ⟨π s.1.inner, s.1.pruned, s.1.current⟩

theorem prunePath {M : BufPipe S V σ} (h : Proj M.toPipe M' π) (grow : Nat → Nat) (f : σ → List Nat → V → σ × Bool) :
    Proj (M.prunePath grow f).toPipe (M'.prunePath f) (strip π) where
  next s w := by
    simp only [Pipe.prunePath, BufPipe.prunePath]
    fun_induction BufPipe.pruneNext M.toPipe grow f s w with
    | case1 s w e h1 => rw [Pipe.pruneNext, strip, h.next, h1]
    | case2 s w s1 w1 h1 => rw [Pipe.pruneNext, strip, h.next, h1]; rfl
    | case3 s w v s1 w1 h1 vs hf e hc =>
      have hc' : Pipe.count (Pipe.adjust (M.path s1).length s.1.pruned s.1.current).1
        (Pipe.adjust (M.path s1).length s.1.pruned s.1.current).2 = .error e := hc
      rw [Pipe.pruneNext, strip, h.next, h1]
      simp only [h.path, hf, if_true, hc']
    | case4 s w v s1 w1 h1 vs b hf p hc ih =>
      have hc' : Pipe.count (Pipe.adjust (M.path s1).length s.1.pruned s.1.current).1
        (Pipe.adjust (M.path s1).length s.1.pruned s.1.current).2 = .ok p := hc
      rw [Pipe.pruneNext, strip, h.next, h1]
      simp only [h.path, hf, if_true, hc', h.prune]
      exact ih
    | case5 s w v s1 w1 h1 vs b hf =>
      rw [Pipe.pruneNext, strip, h.next, h1]
      simp only [h.path, hf, Bool.false_eq_true, if_false]
      rfl
  path _ := rfl
  prune s := by simp [Pipe.prunePath, BufPipe.prunePath, strip, h.prune]

theorem ofSource (M : Pipe S V σ) (after : S → Buf → Buf) : Proj (BufPipe.ofSource M after).toPipe M Prod.fst where
  next s w := by
    simp only [BufPipe.ofSource]
    rcases M.next s.1 w with e | ⟨o, s', w'⟩ <;> rfl
  path _ := rfl
  prune _ := rfl

/-- Bounds on the path hold with the vectors as well. -/
theorem keeps (h : Proj M M' π) {A B : T → Prop} {len : T → Nat} {L : Nat} (hk : M'.Keeps A B len L) :
    M.Keeps (A ∘ π) (B ∘ π) (len ∘ π) L where
  next := by
    intro s w o s' w' hs e
    have := hk.next hs (h.ok e)
    rwa [h.path] at this
  prune := by
    intro s hs
    have := hk.prune hs
    rwa [h.prune] at this
  sub := fun hs => hk.sub hs
  len_prune s := by
    have := hk.len_prune (π s)
    rwa [h.prune] at this
  le := fun hs => hk.le hs

end Proj

/-! ## Calls that do not panic -/

/-- `next` does not panic from the states in `A`. -/
def Pipe.Runs {S : Type u} {V : Type v} {σ : Type w} (M : Pipe S V σ) (A : S → Prop) : Prop :=
  ∀ s w, A s → ∃ r, M.next s w = .ok r

namespace Pipe.Runs
variable {S T : Type u} {V : Type v} {W : Type x} {σ : Type w} {M : Pipe S V σ} {A B : S → Prop} {len : S → Nat} {L : Nat}

theorem map (h : M.Runs A) (f : σ → V → σ × W) : (M.map f).Runs A := by
  intro s w hs
  obtain ⟨⟨_ | v, s', w'⟩, h1⟩ := h s w hs <;> simp only [Pipe.map, h1] <;> exact ⟨_, rfl⟩

theorem pruneDepth (h : M.Runs A) (d : Nat) : (M.pruneDepth treeDepth d).Runs A := by
  intro s w hs
  obtain ⟨⟨_ | v, s', w'⟩, h1⟩ := h s w hs <;> simp only [Pipe.pruneDepth, treeDepth, h1] <;> exact ⟨_, rfl⟩

theorem binPrune (h : M.Runs A) (hk : M.Keeps A B len L) (f : σ → V → σ × Bool) : (M.binPrune f).Runs A := by
  intro s w hs
  show ∃ r, M.binPruneNext f s w = .ok r
  fun_induction Pipe.binPruneNext M f s w with
  | case1 s w e h1 => obtain ⟨r, h2⟩ := h s w hs; rw [h2] at h1; cases h1
  | case2 => exact ⟨_, rfl⟩
  | case3 s w v s1 w1 h1 hf ih => exact ih (hk.prune (hk.next hs h1).1)
  | case4 => exact ⟨_, rfl⟩

theorem binPrunePath (h : M.Runs A) (hk : M.Keeps A B len L) (f : σ → List Nat → V → σ × Bool) :
    (M.binPrunePath f).Runs A := by
  intro s w hs
  show ∃ r, M.binPrunePathNext f s w = .ok r
  fun_induction Pipe.binPrunePathNext M f s w with
  | case1 s w e h1 => obtain ⟨r, h2⟩ := h s w hs; rw [h2] at h1; cases h1
  | case2 => exact ⟨_, rfl⟩
  | case3 s w v s1 w1 h1 hf ih => exact ih (hk.prune (hk.next hs h1).1)
  | case4 => exact ⟨_, rfl⟩

theorem prunePath (h : M.Runs A) (hk : M.Keeps A B len L) (f : σ → List Nat → V → σ × Bool) :
    (M.prunePath f).Runs fun s => A s.inner ∧ Vecs L s := by
  rintro s w ⟨hs, hv⟩
  show ∃ r, M.pruneNext f s w = .ok r
  fun_induction Pipe.pruneNext M f s w with
  | case1 s w e h1 => obtain ⟨r, h2⟩ := h _ w hs; rw [h2] at h1; cases h1
  | case2 => exact ⟨_, rfl⟩
  | case3 s w v s1 w1 h1 vs hf e hc =>
    have h4 := adjust_length (M.path s1).length s.pruned s.current hv.1
    change vs.1.length = _ ∧ vs.2.length = _ at h4
    rw [count] at hc
    split at hc
    · split at hc
      · next hn => rw [List.getElem?_eq_none_iff] at hn; omega
      · cases hc
    · cases hc
  | case4 s w v s1 w1 h1 vs hf p hc ih =>
    obtain ⟨h2, h3⟩ := hk.next hs h1
    have h3 := h3 rfl
    have h5 := hk.le h2
    have h4 := adjust_length (M.path s1).length s.pruned s.current hv.1
    refine ih (hk.prune h2) ⟨?_, ?_⟩
    · simp only [count_length hc]; show vs.1.length = vs.2.length; rw [h4.1, h4.2]
    · show vs.2.length ≤ L; rw [h4.2]; omega
  | case5 => exact ⟨_, rfl⟩

theorem comap {M' : Pipe T V σ} {π : S → T} {A : T → Prop} (h : M'.Runs A) (hp : Proj M M' π) : M.Runs (A ∘ π) := by
  intro s w hs
  obtain ⟨r, h1⟩ := h (π s) w hs
  rw [hp.next] at h1
  cases h2 : M.next s w with
  | error e => rw [h2] at h1; cases h1
  | ok r => exact ⟨r, rfl⟩

end Pipe.Runs

/-! ## Vectors that never move -/

/-- A vector with room for `g` elements, or an empty one without memory. -/
def Buf.Fixed (b : Buf) (g len : Nat) : Prop := b.cap = g ∨ (b.cap = 0 ∧ len = 0)

theorem Buf.pushMany_same (grow : Nat → Nat) {b : Buf} {len k : Nat} (h : len + k ≤ b.cap) :
    b.pushMany grow len k = b := by
  induction k generalizing len with
  | zero => rfl
  | succ k ih =>
    rw [pushMany, push, if_pos (by omega)]
    exact ih (by omega)

theorem Buf.Fixed.pushMany {grow : Nat → Nat} {b : Buf} {len k : Nat} (h : b.Fixed (grow 0) len) (hk : len + k ≤ grow 0) :
    (b.pushMany grow len k).Fixed (grow 0) (len + k) := by
  rcases h with h | ⟨h, rfl⟩
  · rw [pushMany_same grow (by omega)]; exact .inl h
  · cases k with
    | zero => exact .inr ⟨h, rfl⟩
    | succ k =>
      rw [Buf.pushMany, push, if_neg (by omega), pushMany_same grow (by simp only [h]; omega)]
      exact .inl (by simp [h])

namespace BufPipe
variable {S : Type u} {V : Type v} {W : Type x} {σ : Type w}

/-- `next` from states in `A` does not move a vector with room for `g` elements. -/
structure Firm (M : BufPipe S V σ) (A : S → Prop) (g : Nat) : Prop where
  next : ∀ {s w o s' w'}, A s → (M.buf s).Fixed g (M.path s).length → M.next s w = .ok (o, s', w') →
    (M.buf s').Fixed g (M.path s').length ∧ (o.isSome = true → (M.buf s).cap = g → M.buf s' = M.buf s)
  prune : ∀ s, M.buf (M.prune s) = M.buf s

variable {M : BufPipe S V σ} {A B : S → Prop} {len : S → Nat} {L g : Nat}

theorem Firm.map (h : M.Firm A g) (f : σ → V → σ × W) : (M.map f).Firm A g where
  next := by
    intro s w o s' w' hs hb e
    simp only [BufPipe.map, Pipe.map] at e
    split at e
    · cases e
    · next h1 => cases e; exact ⟨(h.next hs hb h1).1, by simp⟩
    · next h1 => cases e; exact ⟨(h.next hs hb h1).1, fun _ => (h.next hs hb h1).2 rfl⟩
  prune := h.prune

theorem Firm.pruneDepth (h : M.Firm A g) (d : Nat) : (M.pruneDepth d).Firm A g where
  next := by
    intro s w o s' w' hs hb e
    simp only [BufPipe.pruneDepth, Pipe.pruneDepth, Pipe.treeDepth] at e
    split at e
    · cases e
    · next h1 => cases e; exact ⟨(h.next hs hb h1).1, by simp⟩
    · next s1 _ h1 =>
      cases e
      have := h.next hs hb h1
      split
      · refine ⟨?_, fun _ hc => ?_⟩
        · show (M.buf (M.prune s1)).Fixed g (M.path (M.prune s1)).length
          rw [h.prune, M.path_prune]
          exact this.1
        · show M.buf (M.prune s1) = _
          rw [h.prune]
          exact this.2 rfl hc
      · exact ⟨this.1, fun _ => this.2 rfl⟩
  prune := h.prune

theorem Firm.collPruneDepth (h : M.Firm A g) (d : Nat) : (M.collPruneDepth d).Firm A g where
  next := by
    intro s w o s' w' hs hb e
    simp only [BufPipe.collPruneDepth, Pipe.pruneDepth] at e
    split at e
    · cases e
    · next h1 => cases e; exact ⟨(h.next hs hb h1).1, by simp⟩
    · next s1 _ h1 =>
      split at e
      · cases e
      cases e
      have := h.next hs hb h1
      split
      · refine ⟨?_, fun _ hc => ?_⟩
        · show (M.buf (M.prune s1)).Fixed g (M.path (M.prune s1)).length
          rw [h.prune, M.path_prune]
          exact this.1
        · show M.buf (M.prune s1) = _
          rw [h.prune]
          exact this.2 rfl hc
      · exact ⟨this.1, fun _ => this.2 rfl⟩
  prune := h.prune

theorem Firm.binPrune (h : M.Firm A g) (hk : M.toPipe.Keeps A B len L) (f : σ → V → σ × Bool) : (M.binPrune f).Firm A g where
  next := by
    intro s w o s' w' hs hb e
    change M.toPipe.binPruneNext f s w = _ at e
    show (M.buf s').Fixed g (M.path s').length ∧ (o.isSome = true → (M.buf s).cap = g → M.buf s' = M.buf s)
    change (M.buf s).Fixed g (M.path s).length at hb
    fun_induction Pipe.binPruneNext M.toPipe f s w with
    | case1 => cases e
    | case2 s w s1 w1 h1 => cases e; exact ⟨(h.next hs hb h1).1, by simp⟩
    | case3 s w v s1 w1 h1 hf ih =>
      have h2 := h.next hs hb h1
      have := ih (hk.prune (hk.next hs h1).1) e (by rw [h.prune, M.path_prune]; exact h2.1)
      refine ⟨this.1, fun ho hc => ?_⟩
      have h3 := h2.2 rfl hc
      rw [h.prune, h3] at this
      exact this.2 ho hc
    | case4 s w v s1 w1 h1 hf => cases e; exact ⟨(h.next hs hb h1).1, fun _ => (h.next hs hb h1).2 rfl⟩
  prune := h.prune

theorem Firm.binPrunePath (h : M.Firm A g) (hk : M.toPipe.Keeps A B len L) (f : σ → List Nat → V → σ × Bool) :
    (M.binPrunePath f).Firm A g where
  next := by
    intro s w o s' w' hs hb e
    change M.toPipe.binPrunePathNext f s w = _ at e
    show (M.buf s').Fixed g (M.path s').length ∧ (o.isSome = true → (M.buf s).cap = g → M.buf s' = M.buf s)
    change (M.buf s).Fixed g (M.path s).length at hb
    fun_induction Pipe.binPrunePathNext M.toPipe f s w with
    | case1 => cases e
    | case2 s w s1 w1 h1 => cases e; exact ⟨(h.next hs hb h1).1, by simp⟩
    | case3 s w v s1 w1 h1 hf ih =>
      have h2 := h.next hs hb h1
      have := ih (hk.prune (hk.next hs h1).1) e (by rw [h.prune, M.path_prune]; exact h2.1)
      refine ⟨this.1, fun ho hc => ?_⟩
      have h3 := h2.2 rfl hc
      rw [h.prune, h3] at this
      exact this.2 ho hc
    | case4 s w v s1 w1 h1 hf => cases e; exact ⟨(h.next hs hb h1).1, fun _ => (h.next hs hb h1).2 rfl⟩
  prune := h.prune

theorem pruneNext_firm {M : Pipe S V σ} {A B : S → Prop} {len : S → Nat} {L : Nat} (hk : M.Keeps A B len L) {grow : Nat → Nat}
    (hL : L ≤ grow 0) (f : σ → List Nat → V → σ × Bool) (s : Pipe.PruneState S × Buf) (w : σ) {o : Option V}
    {s' : Pipe.PruneState S × Buf} {w' : σ} (hs : A s.1.inner) (hv : Pipe.Vecs L s.1)
    (hb : s.2.Fixed (grow 0) s.1.current.length) (e : pruneNext M grow f s w = .ok (o, s', w')) :
    s'.2.Fixed (grow 0) s'.1.current.length ∧ (o.isSome = true → s.2.cap = grow 0 → s'.2 = s.2) := by
  have step : ∀ (s : Pipe.PruneState S × Buf) (l : Nat), Pipe.Vecs L s.1 → s.2.Fixed (grow 0) s.1.current.length → l ≤ L →
      (s.2.pushMany grow s.1.current.length (l - s.1.pruned.length)).Fixed (grow 0)
        (Pipe.adjust l s.1.pruned s.1.current).2.length ∧
      (s.2.cap = grow 0 → s.2.pushMany grow s.1.current.length (l - s.1.pruned.length) = s.2) := by
    intro s l hv hb hl
    have hlen := (Pipe.adjust_length l s.1.pruned s.1.current hv.1).2
    have h1 := hv.1
    have h2 := hv.2
    refine ⟨?_, fun hc => Buf.pushMany_same grow (by omega)⟩
    rw [hlen, hv.1]
    by_cases h : s.1.current.length ≤ l
    · have := hb.pushMany (k := l - s.1.current.length) (by omega)
      rwa [show s.1.current.length + (l - s.1.current.length) = l by omega] at this
    · rw [show l - s.1.current.length = 0 by omega]
      rcases hb with hb | hb
      · exact .inl hb
      · omega
  fun_induction pruneNext M grow f s w with
  | case1 => cases e
  | case2 s w s1 w1 h1 => cases e; exact ⟨.inr ⟨rfl, rfl⟩, by simp⟩
  | case3 => cases e
  | case4 s w v s1 w1 h1 vs b hf p hc ih =>
    obtain ⟨h2, h3⟩ := hk.next hs h1
    have h3 := h3 rfl
    have h5 := hk.le h2
    have h4 := Pipe.adjust_length (M.path s1).length s.1.pruned s.1.current hv.1
    obtain ⟨h6, h7⟩ := step s (M.path s1).length hv hb (by omega)
    have := ih (hk.prune h2) ⟨by simp only [Pipe.count_length hc]; show vs.1.length = vs.2.length; rw [h4.1, h4.2],
      by show vs.2.length ≤ L; rw [h4.2]; omega⟩ h6 e
    refine ⟨this.1, fun ho hcap => ?_⟩
    have hb' : b = s.2 := h7 hcap
    have := this.2 ho (by show b.cap = _; rw [hb']; exact hcap)
    exact this.trans hb'
  | case5 s w v s1 w1 h1 vs b hf =>
    cases e
    obtain ⟨h2, h3⟩ := hk.next hs h1
    have h3 := h3 rfl
    have h5 := hk.le h2
    obtain ⟨h6, h7⟩ := step s (M.path s1).length hv hb (by omega)
    exact ⟨h6, fun _ => h7⟩

theorem Firm.prunePath (hk : M.toPipe.Keeps A B len L) {grow : Nat → Nat} (hL : L ≤ grow 0) (f : σ → List Nat → V → σ × Bool) :
    (M.prunePath grow f).Firm (fun s => A s.1.inner ∧ Pipe.Vecs L s.1) (grow 0) where
  next := fun hs hb e => pruneNext_firm hk hL f _ _ hs.1 hs.2 hb e
  prune _ := rfl

/-- The source, if it pushes only onto paths shorter than the first allocation. -/
theorem Firm.ofSource {M : Pipe S V σ} {P : Spied S V} {grow : Nat → Nat}
    (hlen : ∀ s, P.len s = (M.path s).length)
    (hpush : ∀ s, A s → P.pushes s = true → (M.path s).length < grow 0)
    (hzero : ∀ {s w o s' w'}, A s → P.pushes s = false → (M.path s).length = 0 → M.next s w = .ok (o, s', w') →
      (M.path s').length = 0) :
    (BufPipe.ofSource M (P.after grow)).Firm (fun s => A s.1) (grow 0) where
  next := by
    intro s w o s' w' hs hb e
    simp only [BufPipe.ofSource] at e
    split at e
    · cases e
    · next o1 s1 w1 h1 =>
      cases e
      simp only [BufPipe.ofSource, Spied.after, hlen] at hb ⊢
      split
      · next hp =>
        have := hpush _ hs hp
        refine ⟨.inl ?_, fun _ hc => by rw [Buf.push, if_pos (by omega)]⟩
        rw [Buf.push]
        split
        · rcases hb with hb | hb
          · exact hb
          · omega
        · rcases hb with hb | hb
          · omega
          · simp [hb.1]
      · next hp =>
        refine ⟨?_, fun _ _ => rfl⟩
        rcases hb with hb | ⟨hb, hz⟩
        · exact .inl hb
        · exact .inr ⟨hb, hzero hs (by simpa using hp) hz h1⟩
  prune _ := rfl

/-- No call of the closure gets a slice of freed memory. -/
theorem Firm.slice (h : M.Firm A g) (hk : M.toPipe.Keeps A A len L) (f : σ → Slice → V → σ) (k : Nat) :
    ∀ {s : S} {w : σ}, A s → (M.buf s).Fixed g (M.path s).length → ∀ {x : Slice},
      nthCallE (M.mapPath f) k (s, w) = .ok (some x) → x.dangles = false := by
  induction k with
  | zero =>
    intro s w hs hb x e
    cases h1 : M.next s w with
    | error p => simp [nthCallE, stateAfterE, mapPath, h1] at e
    | ok r =>
      obtain ⟨_ | v, s', w'⟩ := r
      · simp [nthCallE, stateAfterE, mapPath, h1] at e
      · simp only [nthCallE, stateAfterE, mapPath, h1, Except.ok.injEq, Option.some.injEq] at e
        rw [← e]
        rcases hb with hb | hb
        · have := (h.next hs (.inl hb) h1).2 rfl hb
          simp [Slice.dangles, this]
        · simp [Slice.dangles, hb.2]
  | succ k ih =>
    intro s w hs hb x e
    cases h1 : M.next s w with
    | error p => simp [nthCallE, stateAfterE, mapPath, h1] at e
    | ok r =>
      obtain ⟨_ | v, s', w'⟩ := r
      · rw [nthCallE_ok_succ (o := none) (s' := (s', w')) (by simp [mapPath, h1])] at e
        exact ih (hk.next hs h1).1 (h.next hs hb h1).1 e
      · rw [nthCallE_ok_succ (o := some ⟨(M.buf s).id, (M.path s).length, (M.buf s').id⟩)
          (s' := (s', f w' ⟨(M.buf s).id, (M.path s).length, (M.buf s').id⟩ v)) (by simp [mapPath, h1])] at e
        exact ih (hk.next hs h1).1 (h.next hs hb h1).1 e

/-- No call panics. -/
theorem mapPath_runs (hk : M.toPipe.Keeps A A len L) (hr : M.toPipe.Runs A) (f : σ → Slice → V → σ) (k : Nat) :
    ∀ {s : S} {w : σ}, A s → ∃ o, nthCallE (M.mapPath f) k (s, w) = .ok o := by
  induction k with
  | zero =>
    intro s w hs
    obtain ⟨⟨_ | v, s', w'⟩, h1⟩ := hr s w hs <;> simp [nthCallE, stateAfterE, mapPath, h1]
  | succ k ih =>
    intro s w hs
    obtain ⟨⟨o, s', w'⟩, h1⟩ := hr s w hs
    rcases o with _ | v
    · rw [nthCallE_ok_succ (o := none) (s' := (s', w')) (by simp [mapPath, h1])]
      exact ih (hk.next hs h1).1
    · rw [nthCallE_ok_succ (o := some ⟨(M.buf s).id, (M.path s).length, (M.buf s').id⟩)
        (s' := (s', f w' ⟨(M.buf s).id, (M.path s).length, (M.buf s').id⟩ v)) (by simp [mapPath, h1])]
      exact ih (hk.next hs h1).1

theorem Firm.slices (h : M.Firm A g) (hk : M.toPipe.Keeps A A len L) (hr : M.toPipe.Runs A) (f : σ → Slice → V → σ) (k : Nat)
    {s : S} {w : σ} (hs : A s) (hb : (M.buf s).Fixed g (M.path s).length) :
    ∃ o, nthCallE (M.mapPath f) k (s, w) = .ok o ∧ ∀ x, o = some x → x.dangles = false := by
  obtain ⟨o, ho⟩ := mapPath_runs hk hr f k (w := w) hs
  exact ⟨o, ho, fun x hx => h.slice hk f k (w := w) hs hb (by rw [ho, hx])⟩

end BufPipe

/-! ## Chains -/

namespace Chain
variable {S T : Type u} {V : Type v} {σ : Type w}

/-- The state without the vectors. -/
def unbuf (π : S → T) : {W : Type v} → (c : Chain σ V W) → c.BSt S → c.St T
  | _, source, s => π s
  | _, map c _, s => c.unbuf π s
  | _, prune c _, s => Proj.strip (c.unbuf π) s
  | _, prunePath c _, s => Proj.strip (c.unbuf π) s
  | _, pruneDepth c _, s => c.unbuf π s

variable {M : BufPipe S V σ} {M' : Pipe T V σ} {π : S → T}

theorem proj (grow : Nat → Nat) (h : Proj M.toPipe M' π) : {W : Type v} → (c : Chain σ V W) →
    Proj (c.bufPipe grow M).toPipe (c.pipe M') (c.unbuf π)
  | _, source => h
  | _, map c f => (c.proj grow h).map f
  | _, prune c _ => (c.proj grow h).prunePath grow _
  | _, prunePath c _ => (c.proj grow h).prunePath grow _
  | _, pruneDepth c d => (c.proj grow h).pruneDepth d

theorem binProj (h : Proj M.toPipe M' π) : {W : Type v} → (c : Chain σ V W) → Proj (c.binBufPipe M).toPipe (c.binPipe M') π
  | _, source => h
  | _, map c f => (c.binProj h).map f
  | _, prune c f => (c.binProj h).binPrune f
  | _, prunePath c f => (c.binProj h).binPrunePath f
  | _, pruneDepth c d => (c.binProj h).pruneDepth d

theorem unbuf_init (π : S → T) (s : S) : {W : Type v} → (c : Chain σ V W) → c.unbuf π (c.bufInit s) = c.init (π s)
  | _, source => rfl
  | _, map c _ => c.unbuf_init π s
  | _, prune c _ => by
    show Pipe.PruneState.mk (c.unbuf π (c.bufInit s)) [] [] = _
    rw [c.unbuf_init π s]
    rfl
  | _, prunePath c _ => by
    show Pipe.PruneState.mk (c.unbuf π (c.bufInit s)) [] [] = _
    rw [c.unbuf_init π s]
    rfl
  | _, pruneDepth c _ => c.unbuf_init π s

variable {A B : T → Prop} {len : T → Nat} {L : Nat} {grow : Nat → Nat}

theorem runs (hk : M'.Keeps A B len L) (hr : M'.Runs A) : {W : Type v} → (c : Chain σ V W) → (c.pipe M').Runs (c.Lift L A)
  | _, source => hr
  | _, map c f => (c.runs hk hr).map f
  | _, prune c _ => (c.runs hk hr).prunePath (c.keeps hk) _
  | _, prunePath c _ => (c.runs hk hr).prunePath (c.keeps hk) _
  | _, pruneDepth c d => (c.runs hk hr).pruneDepth d

theorem binRuns (hk : M'.Keeps A B len L) (hr : M'.Runs A) : {W : Type v} → (c : Chain σ V W) → (c.binPipe M').Runs A
  | _, source => hr
  | _, map c f => (c.binRuns hk hr).map f
  | _, prune c f => (c.binRuns hk hr).binPrune (c.binKeeps hk) f
  | _, prunePath c f => (c.binRuns hk hr).binPrunePath (c.binKeeps hk) f
  | _, pruneDepth c d => (c.binRuns hk hr).pruneDepth d

theorem firm (h : Proj M.toPipe M' π) (hk : M'.Keeps A B len L) (hM : M.Firm (A ∘ π) (grow 0)) (hL : L ≤ grow 0) :
    {W : Type v} → (c : Chain σ V W) → (c.bufPipe grow M).Firm (c.Lift L A ∘ c.unbuf π) (grow 0)
  | _, source => hM
  | _, map c f => (c.firm h hk hM hL).map f
  | _, prune c _ => .prunePath ((c.proj grow h).keeps (c.keeps hk)) hL _
  | _, prunePath c _ => .prunePath ((c.proj grow h).keeps (c.keeps hk)) hL _
  | _, pruneDepth c d => (c.firm h hk hM hL).pruneDepth d

theorem binFirm (h : Proj M.toPipe M' π) (hk : M'.Keeps A B len L) (hM : M.Firm (A ∘ π) (grow 0)) :
    {W : Type v} → (c : Chain σ V W) → (c.binBufPipe M).Firm (A ∘ π) (grow 0)
  | _, source => hM
  | _, map c f => (c.binFirm h hk hM).map f
  | _, prune c f => (c.binFirm h hk hM).binPrune ((c.binProj h).keeps (c.binKeeps hk)) f
  | _, prunePath c f => (c.binFirm h hk hM).binPrunePath ((c.binProj h).keeps (c.binKeeps hk)) f
  | _, pruneDepth c d => (c.binFirm h hk hM).pruneDepth d

/-! On a collection the vector of the path of a tree is freed with the tree; the vector of a `prune` or `prune_path` stage stays. -/

theorem collProj (grow : Nat → Nat) (h : Proj M.toPipe M' π) : {W : Type v} → (c : Chain σ V W) →
    Proj (c.collBufPipe grow M).toPipe (c.collPipe M') (c.unbuf π)
  | _, source => h
  | _, map c f => (c.collProj grow h).map f
  | _, prune c _ => (c.collProj grow h).prunePath grow _
  | _, prunePath c _ => (c.collProj grow h).prunePath grow _
  | _, pruneDepth c d => (c.collProj grow h).collPruneDepth d

theorem unbuf_collInit (grow : Nat → Nat) (π : S → T) (s : S) : {W : Type v} → (c : Chain σ V W) →
    c.unbuf π (c.collBufInit grow s) = c.collInit (π s)
  | _, source => rfl
  | _, map c _ => c.unbuf_collInit grow π s
  | _, prune c _ => by
    show Pipe.PruneState.mk (c.unbuf π (c.collBufInit grow s)) [] [] = _
    rw [c.unbuf_collInit grow π s]
    rfl
  | _, prunePath c _ => by
    show Pipe.PruneState.mk (c.unbuf π (c.collBufInit grow s)) [0] [0] = _
    rw [c.unbuf_collInit grow π s]
    rfl
  | _, pruneDepth c _ => c.unbuf_collInit grow π s

theorem collFirm (h : Proj M.toPipe M' π) (hk : M'.Keeps A B len L) (hL : L ≤ grow 0) :
    {W : Type v} → (c : Chain σ V W) → c.ownsPath = true →
    (c.collBufPipe grow M).Firm (c.Lift L A ∘ c.unbuf π) (grow 0)
  | _, source => by intro hc; cases hc
  | _, map c f => fun hc => (c.collFirm h hk hL hc).map f
  | _, prune c _ => fun _ => .prunePath ((c.collProj grow h).keeps (c.collKeeps hk)) hL _
  | _, prunePath c _ => fun _ => .prunePath ((c.collProj grow h).keeps (c.collKeeps hk)) hL _
  | _, pruneDepth c d => fun hc => (c.collFirm h hk hL hc).collPruneDepth d

theorem fixed_collInit (s : S) : {W : Type v} → (c : Chain σ V W) → c.ownsPath = true →
    ((c.collBufPipe grow M).buf (c.collBufInit grow s)).Fixed (grow 0)
      ((c.collBufPipe grow M).path (c.collBufInit grow s)).length
  | _, source => by intro hc; cases hc
  | _, map c _ => fun hc => c.fixed_collInit s hc
  | _, prune _ _ => fun _ => .inr ⟨rfl, rfl⟩
  | _, prunePath _ _ => fun _ => .inl rfl
  | _, pruneDepth c _ => fun hc => c.fixed_collInit s hc

theorem fixed_init {s : S} (hs : (M.buf s).Fixed (grow 0) (M.path s).length) : {W : Type v} → (c : Chain σ V W) →
    ((c.bufPipe grow M).buf (c.bufInit s)).Fixed (grow 0) ((c.bufPipe grow M).path (c.bufInit s)).length
  | _, source => hs
  | _, map c _ => c.fixed_init hs
  | _, prune _ _ => .inr ⟨rfl, rfl⟩
  | _, prunePath _ _ => .inr ⟨rfl, rfl⟩
  | _, pruneDepth c _ => c.fixed_init hs

theorem bin_fixed {s : S} (hs : (M.buf s).Fixed (grow 0) (M.path s).length) : {W : Type v} → (c : Chain σ V W) →
    ((c.binBufPipe M).buf s).Fixed (grow 0) ((c.binBufPipe M).path s).length
  | _, source => hs
  | _, map c _ => c.bin_fixed hs
  | _, prune c _ => c.bin_fixed hs
  | _, prunePath c _ => c.bin_fixed hs
  | _, pruneDepth c _ => c.bin_fixed hs

end Chain

/-! ## The sources -/

namespace Track

section General
variable {N : Type u} {V : Type v} [TreeNode N V] {σ : Type w}

theorem loop_runs {st : List (List N)} {path : List Nat} (h : path.length = st.length) :
    ∃ r : Option V × State N (List N) N, loop st path = .ok r := by
  fun_induction loop st path with
  | case1 => exact ⟨_, rfl⟩
  | case2 => simp at h
  | case3 => exact ⟨_, rfl⟩
  | case4 rest path ih => exact ih (by rw [List.length_tail, h]; simp)

theorem pipe_runs {A : State N (List N) N → Prop} (h : ∀ s, A s → s.path.length = s.stack.length) :
    (pipe (N := N) σ).Runs A := by
  intro s w hs
  have h1 := h s hs
  have : ∃ r : Option V × State N (List N) N, next s = .ok r := by
    rw [next]
    split
    · exact ⟨_, rfl⟩
    · split
      · exact loop_runs (by simp [h1])
      · exact loop_runs h1
  obtain ⟨⟨o, s'⟩, h2⟩ := this
  simp only [pipe, h2]
  exact ⟨_, rfl⟩

/-- A source that does not push and whose path is empty leaves it empty. -/
theorem next_zero {s s' : State N (List N) N} {o : Option V} (h1 : s.path.length = s.stack.length)
    (hp : spied.pushes (V := V) s = false) (hz : s.path.length = 0) (e : next s = .ok (o, s')) : s'.path.length = 0 := by
  obtain ⟨root, path, onDeck, stack⟩ := s
  simp only at h1 hz
  have hs : stack = [] := List.eq_nil_of_length_eq_zero (by omega)
  have hq : path = [] := List.eq_nil_of_length_eq_zero hz
  subst hs hq
  rcases root with _ | r
  · rcases onDeck with _ | cs
    · simp only [next, loop] at e; cases e; rfl
    · simp [spied] at hp
  · simp only [next] at e; cases e; rfl

theorem firm_src {grow : Nat → Nat} {H : Nat} (hH : H ≤ grow 0) :
    (BufPipe.ofSource (pipe (N := N) σ) (spied.after grow)).Firm (Src 0 H ∘ Prod.fst) (grow 0) := by
  refine BufPipe.Firm.ofSource (A := Src 0 H) (fun s => by simp [spied, pipe]) ?_ ?_
  · intro s hs hp
    obtain ⟨h1, h2, -⟩ := hs
    simp only [pipe, List.length_reverse]
    omega
  · intro s w o s' w' hs hp hz e
    rw [pipe] at e
    simp only at e
    split at e
    · cases e
    · next h1 =>
      cases e
      have := next_zero (by simpa using hs.1) hp (by simpa [pipe] using hz) h1
      simpa [pipe] using this

theorem firm_cut {grow : Nat → Nat} {d : Nat} (hd : d ≤ grow 0) :
    (BufPipe.ofSource (pipe (N := N) σ) (spied.after grow)).Firm (CutA 0 d ∘ Prod.fst) (grow 0) := by
  refine BufPipe.Firm.ofSource (A := CutA 0 d) (fun s => by simp [spied, pipe]) ?_ ?_
  · intro s hs hp
    obtain ⟨⟨h1, h2, -⟩, h4⟩ := hs
    have := h4 (by simp [spied] at hp; exact hp.2)
    simp only [pipe, List.length_reverse]
    omega
  · intro s w o s' w' hs hp hz e
    rw [pipe] at e
    simp only at e
    split at e
    · cases e
    · next h1 =>
      cases e
      have := next_zero (by simpa using hs.1.1) hp (by simpa [pipe] using hz) h1
      simpa [pipe] using this

end General

section Binary
variable {N : Type u} {V : Type v} [BinNode N V] {σ : Type w}

theorem binLoop_runs {st : List (List (Option N))} {path : List Nat} (h : path.length = st.length) :
    ∃ r : Option V × State N (Option N × Option N) (Option N), binLoop st path = .ok r := by
  fun_induction binLoop st path with
  | case1 => exact ⟨_, rfl⟩
  | case2 => simp at h
  | case3 => exact ⟨_, rfl⟩
  | case4 cs rest p ps ih => exact ih (by simpa using h)
  | case5 rest path ih => exact ih (by rw [List.length_tail, h]; simp)

theorem binPipe_runs {A : State N (Option N × Option N) (Option N) → Prop} (h : ∀ s, A s → s.path.length = s.stack.length) :
    (binPipe (N := N) σ).Runs A := by
  intro s w hs
  have h1 := h s hs
  have : ∃ r : Option V × State N (Option N × Option N) (Option N), binNext s = .ok r := by
    rw [binNext]
    split
    · exact ⟨_, rfl⟩
    · split
      · exact binLoop_runs (by simp [h1])
      · exact binLoop_runs h1
  obtain ⟨⟨o, s'⟩, h2⟩ := this
  simp only [binPipe, h2]
  exact ⟨_, rfl⟩

theorem binNext_zero {s s' : State N (Option N × Option N) (Option N)} {o : Option V} (h1 : s.path.length = s.stack.length)
    (hp : binSpied.pushes (V := V) s = false) (hz : s.path.length = 0) (e : binNext s = .ok (o, s')) : s'.path.length = 0 := by
  obtain ⟨root, path, onDeck, stack⟩ := s
  simp only at h1 hz
  have hs : stack = [] := List.eq_nil_of_length_eq_zero (by omega)
  have hq : path = [] := List.eq_nil_of_length_eq_zero hz
  subst hs hq
  rcases root with _ | r
  · rcases onDeck with _ | cs
    · simp only [binNext, binLoop] at e; cases e; rfl
    · simp [binSpied] at hp
  · simp only [binNext] at e; cases e; rfl

theorem binFirm_src {grow : Nat → Nat} {H : Nat} (hH : H ≤ grow 0) :
    (BufPipe.ofSource (binPipe (N := N) σ) (binSpied.after grow)).Firm (BinSrc 0 H ∘ Prod.fst) (grow 0) := by
  refine BufPipe.Firm.ofSource (A := BinSrc 0 H) (fun s => by simp [binSpied, binPipe]) ?_ ?_
  · intro s hs hp
    obtain ⟨h1, h2, -⟩ := hs
    simp only [binPipe, List.length_reverse]
    omega
  · intro s w o s' w' hs hp hz e
    rw [binPipe] at e
    simp only at e
    split at e
    · cases e
    · next h1 =>
      cases e
      have := binNext_zero (by simpa using hs.1) hp (by simpa [binPipe] using hz) h1
      simpa [binPipe] using this

theorem binFirm_cut {grow : Nat → Nat} {d : Nat} (hd : d ≤ grow 0) :
    (BufPipe.ofSource (binPipe (N := N) σ) (binSpied.after grow)).Firm (CutA 0 d ∘ Prod.fst) (grow 0) := by
  refine BufPipe.Firm.ofSource (A := CutA 0 d) (fun s => by simp [binSpied, binPipe]) ?_ ?_
  · intro s hs hp
    obtain ⟨⟨h1, h2, -⟩, h4⟩ := hs
    have := h4 (by simp [binSpied] at hp; exact hp.2)
    simp only [binPipe, List.length_reverse]
    omega
  · intro s w o s' w' hs hp hz e
    rw [binPipe] at e
    simp only at e
    split at e
    · cases e
    · next h1 =>
      cases e
      have := binNext_zero (by simpa using hs.1.1) hp (by simpa [binPipe] using hz) h1
      simpa [binPipe] using this

end Binary

end Track

end TreeIter
