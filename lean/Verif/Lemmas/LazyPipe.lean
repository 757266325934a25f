import Verif.Model.LazyPipe
import Verif.Lemmas.Lazy

/-!
# Pipelines on infinite trees run as on the cut tree

A pipeline with a `prune_depth(d)` stage on any node, and the same pipeline on the tree of the nodes down to depth `d`,
go in step.
-/

universe u u' v w x y

namespace TreeIter

section Step
variable {S : Type u} {S' : Type u'} {V : Type v} {W : Type x} {σ : Type w}

/-- The two pipelines do the same.  `G`: `next` may be called; `R`: the states after an item was emitted.  The path of
that item is not longer than `d`, and if it is shorter, then `next` may be called; `prune_current_subtree` may always be
called, and then `next`. -/
structure InStep (d fuel : Nat) (A : Source S V σ) (B : Pipe S' V σ) (G R : S → S' → Prop) : Prop where
  next : ∀ {s s' w}, G s s' → B.size s' < fuel →
    (∃ e, A.next s w = .error e ∧ B.next s' w = .error e) ∨
    (∃ t t' w', A.next s w = .ok (none, t, w') ∧ B.next s' w = .ok (none, t', w')) ∨
    ∃ v t t' w', A.next s w = .ok (some v, t, w') ∧ B.next s' w = .ok (some v, t', w') ∧ R t t'
  path : ∀ {s s'}, R s s' → A.path s = B.path s'
  deep : ∀ {s s'}, R s s' → (A.path s).length ≤ d
  shallow : ∀ {s s'}, R s s' → (A.path s).length < d → G s s'
  prune : ∀ {s s'}, R s s' → R (A.prune s) (B.prune s') ∧ G (A.prune s) (B.prune s')

variable {d fuel : Nat} {A : Source S V σ} {B : Pipe S' V σ} {G R : S → S' → Prop}

theorem InStep.map (h : InStep d fuel A B G R) (f : σ → V → σ × W) : InStep d fuel (A.map f) (B.map f) G R where
  next {s s' w} hg hf := by
    simp only [Source.map, Pipe.map]
    rcases h.next (w := w) hg hf with ⟨e, h1, h2⟩ | ⟨t, t', w', h1, h2⟩ | ⟨v, t, t', w', h1, h2, h3⟩
    · exact .inl ⟨e, by rw [h1], by rw [h2]⟩
    · exact .inr (.inl ⟨t, t', w', by rw [h1], by rw [h2]⟩)
    · exact .inr (.inr ⟨(f w' v).2, t, t', (f w' v).1, by rw [h1], by rw [h2], h3⟩)
  path := h.path
  deep := h.deep
  shallow := h.shallow
  prune := h.prune

/-- A `prune_depth` at any depth keeps the pipelines in step. -/
theorem InStep.pruneDepth (h : InStep d fuel A B G R) (m : Nat) :
    InStep d fuel (A.pruneDepth m) (B.pruneDepth Pipe.treeDepth m) G R where
  next {s s' w} hg hf := by
    simp only [Source.pruneDepth, Pipe.pruneDepth, Pipe.treeDepth]
    rcases h.next (w := w) hg hf with ⟨e, h1, h2⟩ | ⟨t, t', w', h1, h2⟩ | ⟨v, t, t', w', h1, h2, h3⟩
    · exact .inl ⟨e, by rw [h1], by rw [h2]⟩
    · exact .inr (.inl ⟨t, t', w', by rw [h1], by rw [h2]⟩)
    · refine .inr (.inr ⟨v, _, _, w', by rw [h1], by rw [h2], ?_⟩)
      rw [← h.path h3]
      split
      · exact (h.prune h3).1
      · exact h3
  path := h.path
  deep := h.deep
  shallow := h.shallow
  prune := h.prune

/-- After `prune_depth(d)` one may go on in every state. -/
theorem InStep.cut (h : InStep d fuel A B G R) :
    InStep d fuel (A.pruneDepth d) (B.pruneDepth Pipe.treeDepth d) G fun s s' => R s s' ∧ G s s' where
  next {s s' w} hg hf := by
    simp only [Source.pruneDepth, Pipe.pruneDepth, Pipe.treeDepth]
    rcases h.next (w := w) hg hf with ⟨e, h1, h2⟩ | ⟨t, t', w', h1, h2⟩ | ⟨v, t, t', w', h1, h2, h3⟩
    · exact .inl ⟨e, by rw [h1], by rw [h2]⟩
    · exact .inr (.inl ⟨t, t', w', by rw [h1], by rw [h2]⟩)
    · refine .inr (.inr ⟨v, _, _, w', by rw [h1], by rw [h2], ?_⟩)
      rw [← h.path h3]
      split
      · exact h.prune h3
      · next hd => exact ⟨h3, h.shallow h3 (Nat.lt_of_le_of_ne (h.deep h3) hd)⟩
  path hr := h.path hr.1
  deep hr := h.deep hr.1
  shallow hr _ := hr.2
  prune hr := ⟨h.prune hr.1, (h.prune hr.1).2⟩

/-! ## `prune` and `prune_path` -/

theorem adjust_length {len : Nat} {a b : List Nat} (h : a.length = b.length) :
    (Pipe.adjust len a b).1.length = (Pipe.adjust len a b).2.length ∧ (Pipe.adjust len a b).2.length = len := by
  unfold Pipe.adjust
  split
  · simp only [List.length_append, List.length_replicate]
    omega
  · split
    · have h1 : ∀ l : List Nat, (Pipe.bumpLast l).length = l.length := by
        intro l
        unfold Pipe.bumpLast
        split
        · rfl
        · next i hi =>
          have : 0 < l.length := by
            cases l with
            | nil => simp at hi
            | cons => simp
          simp
          omega
      simp only [h1, List.length_take]
      omega
    · exact ⟨h, by simp only; omega⟩

theorem count_length {a b p : List Nat} (h : Pipe.count a b = .ok p) : p.length = a.length := by
  unfold Pipe.count at h
  split at h
  · split at h
    · simp at h
    · simp only [Except.ok.injEq] at h
      rw [← h, List.length_set]
  · simp only [Except.ok.injEq] at h
    rw [h]

theorem pruneNext_unfold (M : Pipe S V σ) (f : σ → List Nat → V → σ × Bool) (s : Pipe.PruneState S) (w : σ) :
    M.pruneNext f s w =
      match M.next s.inner w with
      | .error e => .error e
      | .ok (none, s', w') => .ok (none, ⟨s', [], []⟩, w')
      | .ok (some v, s', w') =>
        if (f w' (M.path s') v).2 then
          match Pipe.count (Pipe.adjust (M.path s').length s.pruned s.current).1
              (Pipe.adjust (M.path s').length s.pruned s.current).2 with
          | .error e => .error e
          | .ok pruned => M.pruneNext f ⟨M.prune s', pruned, (Pipe.adjust (M.path s').length s.pruned s.current).2⟩
              (f w' (M.path s') v).1
        else .ok (some v, ⟨s', (Pipe.adjust (M.path s').length s.pruned s.current).1,
          (Pipe.adjust (M.path s').length s.pruned s.current).2⟩, (f w' (M.path s') v).1) := by
  rw [Pipe.pruneNext]
  split <;> simp only [*]
  rfl

theorem binPrunePathNext_unfold (M : Pipe S V σ) (f : σ → List Nat → V → σ × Bool) (s : S) (w : σ) :
    M.binPrunePathNext f s w =
      match M.next s w with
      | .error e => .error e
      | .ok (none, s', w') => .ok (none, s', w')
      | .ok (some v, s', w') =>
        if (f w' (M.path s') v).2 then M.binPrunePathNext f (M.prune s') (f w' (M.path s') v).1
        else .ok (some v, s', (f w' (M.path s') v).1) := by
  rw [Pipe.binPrunePathNext]
  split <;> simp only [*]

/-- The state of a `prune` stage: the two vectors are the same, and of the same length. -/
def PruneG (G : S → S' → Prop) (s : Pipe.PruneState S) (s' : Pipe.PruneState S') : Prop :=
  G s.inner s'.inner ∧ s.pruned = s'.pruned ∧ s.current = s'.current ∧ s.pruned.length = s.current.length

/-- And after an item was emitted, that length is the depth. -/
def PruneR (A : Source S V σ) (R : S → S' → Prop) (s : Pipe.PruneState S) (s' : Pipe.PruneState S') : Prop :=
  R s.inner s'.inner ∧ s.pruned = s'.pruned ∧ s.current = s'.current ∧ s.pruned.length = s.current.length ∧
    s.current.length = (A.path s.inner).length

theorem InStep.pruneNext (h : InStep d fuel A B G R) (f : σ → List Nat → V → σ × Bool) {k : Nat} (hk : k ≤ fuel)
    {s : Pipe.PruneState S} {s' : Pipe.PruneState S'} {w : σ} (hg : PruneG G s s') (hf : B.size s'.inner < k) :
    (∃ e, A.pruneNext f k s w = .error e ∧ B.pruneNext f s' w = .error e) ∨
    (∃ t t' w', A.pruneNext f k s w = .ok (none, t, w') ∧ B.pruneNext f s' w = .ok (none, t', w')) ∨
    ∃ v t t' w', A.pruneNext f k s w = .ok (some v, t, w') ∧ B.pruneNext f s' w = .ok (some v, t', w') ∧
      PruneR A R t t' := by
  induction k generalizing s s' w with
  | zero => omega
  | succ k ih =>
    obtain ⟨i, p, c⟩ := s
    obtain ⟨i', p', c'⟩ := s'
    obtain ⟨g1, g2, g3, g4⟩ := hg
    simp only at g1 g2 g3 g4 hf
    subst g2 g3
    rw [Source.pruneNext, pruneNext_unfold]
    rcases h.next (w := w) g1 (Nat.lt_of_lt_of_le hf hk) with
      ⟨e, h1, h2⟩ | ⟨t, t', w', h1, h2⟩ | ⟨v, t, t', w', h1, h2, h3⟩
    · exact .inl ⟨e, by simp only [h1], by simp only [h2]⟩
    · exact .inr (.inl ⟨⟨t, [], []⟩, ⟨t', [], []⟩, w', by simp only [h1], by simp only [h2]⟩)
    · simp only [h1, h2, ← h.path h3]
      obtain ⟨l1, l2⟩ := adjust_length (len := (A.path t).length) g4
      split
      · cases hc : Pipe.count (Pipe.adjust (A.path t).length p c).1 (Pipe.adjust (A.path t).length p c).2 with
        | error e => exact .inl ⟨e, rfl, rfl⟩
        | ok q =>
          simp only
          refine ih (by omega) ⟨(h.prune h3).2, rfl, rfl, ?_⟩ ?_
          · rw [count_length hc, l1]
          · exact Nat.lt_of_le_of_lt (B.size_prune _) (by have := B.size_next h2; omega)
      · exact .inr (.inr ⟨v, _, _, _, rfl, rfl, h3, rfl, rfl, l1, l2⟩)

theorem InStep.prunePath (h : InStep d fuel A B G R) (hp : ∀ s, A.path (A.prune s) = A.path s)
    (f : σ → List Nat → V → σ × Bool) :
    InStep d fuel (A.prunePath fuel f) (B.prunePath f) (PruneG G) (PruneR A R) where
  next hg hf := h.pruneNext f (Nat.le_refl _) hg hf
  path hr := hr.2.2.1
  deep {s s'} hr := by
    have := h.deep hr.1
    rw [← hr.2.2.2.2] at this
    exact this
  shallow {s s'} hr hl := ⟨h.shallow hr.1 (by rw [← hr.2.2.2.2]; exact hl), hr.2.1, hr.2.2.1, hr.2.2.2.1⟩
  prune {s s'} hr := by
    obtain ⟨h1, h2, h3, h4, h5⟩ := hr
    exact ⟨⟨(h.prune h1).1, h2, h3, h4, by simpa [Source.prunePath, hp] using h5⟩, (h.prune h1).2, h2, h3, h4⟩

theorem InStep.binPrunePath (h : InStep d fuel A B G R) (f : σ → List Nat → V → σ × Bool) :
    InStep d fuel (A.binPrunePath fuel f) (B.binPrunePath f) G R where
  next {s s' w} hg hf := by
    simp only [Source.binPrunePath, Pipe.binPrunePath]
    suffices ∀ k ≤ fuel, ∀ s s' w, G s s' → B.size s' < k →
      (∃ e, A.binPruneNext f k s w = .error e ∧ B.binPrunePathNext f s' w = .error e) ∨
      (∃ t t' w', A.binPruneNext f k s w = .ok (none, t, w') ∧ B.binPrunePathNext f s' w = .ok (none, t', w')) ∨
      ∃ v t t' w', A.binPruneNext f k s w = .ok (some v, t, w') ∧
        B.binPrunePathNext f s' w = .ok (some v, t', w') ∧ R t t' from this fuel (Nat.le_refl _) s s' w hg hf
    intro k
    induction k with
    | zero => intro _ _ _ _ _ hf; omega
    | succ k ih =>
      intro hk s s' w hg hf
      rw [Source.binPruneNext, binPrunePathNext_unfold]
      rcases h.next (w := w) hg (Nat.lt_of_lt_of_le hf hk) with
        ⟨e, h1, h2⟩ | ⟨t, t', w', h1, h2⟩ | ⟨v, t, t', w', h1, h2, h3⟩
      · exact .inl ⟨e, by simp only [h1], by simp only [h2]⟩
      · exact .inr (.inl ⟨t, t', w', by simp only [h1], by simp only [h2]⟩)
      · simp only [h1, h2, ← h.path h3]
        split
        · exact ih (by omega) _ _ _ (h.prune h3).2
            (Nat.lt_of_le_of_lt (B.size_prune _) (by have := B.size_next h2; omega))
        · exact .inr (.inr ⟨v, _, _, _, rfl, rfl, h3⟩)
  path := h.path
  deep := h.deep
  shallow := h.shallow
  prune := h.prune

theorem binPruneNext_eq (M : Pipe S V σ) (f : σ → V → σ × Bool) (s : S) (w : σ) :
    M.binPruneNext f s w = M.binPrunePathNext (fun w _ v => f w v) s w := by
  fun_induction Pipe.binPruneNext M f s w <;> rw [Pipe.binPrunePathNext] <;> split <;> simp_all

theorem binPrune_eq (M : Pipe S V σ) (f : σ → V → σ × Bool) : M.binPrune f = M.binPrunePath fun w _ v => f w v := by
  have : M.binPruneNext f = M.binPrunePathNext fun w _ v => f w v := by
    funext s w
    exact binPruneNext_eq M f s w
  simp only [Pipe.binPrune, Pipe.binPrunePath, this]

/-! ## Ends -/

/-- The loop at the end of a pipeline on a finite tree. -/
def Pipe.loop {T : Type y} (M : Pipe S V σ) (step : T → List Nat → V → Except Panic T) (s : S) (w : σ) (a : T) :
    Except Panic (T × σ) :=
  match _h : M.next s w with
  | .error e => .error e
  | .ok (none, _, w') => .ok (a, w')
  | .ok (some item, s', w') =>
    match step a (M.path s') item with
    | .error e => .error e
    | .ok a' => Pipe.loop M step s' w' a'
termination_by M.size s
decreasing_by exact M.size_next (by assumption)

theorem Pipe.loop_unfold {T : Type y} (M : Pipe S V σ) (step : T → List Nat → V → Except Panic T) (s : S) (w : σ)
    (a : T) : M.loop step s w a =
      match M.next s w with
      | .error e => .error e
      | .ok (none, _, w') => .ok (a, w')
      | .ok (some item, s', w') =>
        match step a (M.path s') item with
        | .error e => .error e
        | .ok a' => M.loop step s' w' a' := by
  rw [Pipe.loop]
  split <;> simp only [*]

/-- Pipelines in step that may always go on end alike. -/
theorem InStep.loop {T : Type y} (h : InStep d fuel A B G R) (hR : ∀ {s s'}, R s s' → G s s')
    (step : T → List Nat → V → Except Panic T) {k : Nat} (hk : k ≤ fuel) {s : S} {s' : S'} (hg : G s s')
    (hf : B.size s' < k) (w : σ) (a : T) : A.loop step k s w a = B.loop step s' w a := by
  induction k generalizing s s' w a with
  | zero => omega
  | succ k ih =>
    rw [Source.loop, Pipe.loop_unfold]
    rcases h.next (w := w) hg (Nat.lt_of_lt_of_le hf hk) with
      ⟨e, h1, h2⟩ | ⟨t, t', w', h1, h2⟩ | ⟨v, t, t', w', h1, h2, h3⟩
    · simp only [h1, h2]
    · simp only [h1, h2]
    · simp only [h1, h2, ← h.path h3]
      cases step a (A.path t) v with
      | error e => rfl
      | ok a' => exact ih (by omega) (hR h3) (by have := B.size_next h2; omega) _ _

theorem collectLoop_loop (M : Pipe S V σ) (s : S) (w : σ) (keep : List (Tree V)) :
    M.collectLoop s w keep = M.loop Source.collectStep s w keep := by
  fun_induction Pipe.collectLoop M s w keep <;> rw [Pipe.loop_unfold] <;> simp [Source.collectStep, *]

theorem binCollectLoop_loop (M : Pipe S V σ) (s : S) (w : σ) (keep : List (Nat × BinTree V)) :
    M.binCollectLoop s w keep = M.loop Source.binCollectStep s w keep := by
  fun_induction Pipe.binCollectLoop M s w keep <;> rw [Pipe.loop_unfold] <;> simp [Source.binCollectStep, *]

theorem foldLoop_loop {τ : Type y} {O : Type x} (M : Pipe S V σ) (f : τ → List O → V → τ × O) (s : S) (w : σ)
    (inv : List V) (folded : List (List O)) (t : τ) :
    M.foldLoop f s w inv folded t =
      (M.loop (Source.foldStep f) s w (inv, folded, t)).map fun r => (r.1.1, r.1.2.1, r.1.2.2, r.2) := by
  fun_induction Pipe.foldLoop M f s w inv folded t <;> rw [Pipe.loop_unfold] <;>
    simp [Source.foldStep, Except.map, *]

theorem binFoldLoop_loop {τ : Type y} {O : Type x} (M : Pipe S V σ)
    (f : τ → Option O × Option O → List Nat → V → τ × O) (s : S) (w : σ)
    (inv : List V) (folded : List (Option O × Option O)) (paths : List Nat) (t : τ) :
    M.binFoldLoop f s w inv folded paths t =
      (M.loop (Source.binFoldStep f) s w (inv, folded, paths, t)).map
        fun r => (r.1.1, r.1.2.1, r.1.2.2.1, r.1.2.2.2, r.2) := by
  fun_induction Pipe.binFoldLoop M f s w inv folded paths t <;> rw [Pipe.loop_unfold] <;>
    simp [Source.binFoldStep, Except.map, *]

theorem emits_loop (M : Pipe S V σ) (s : S) (w : σ) (l : List (V × List Nat)) :
    M.loop (fun l path item => .ok (l ++ [(item, path)])) s w l = (M.emits s w).map fun r => (l ++ r.1, r.2) := by
  fun_induction Pipe.emits M s w generalizing l <;> rw [Pipe.loop_unfold] <;> simp [Except.map, *]

theorem InStep.collectTree (h : InStep d fuel A B G R) (hR : ∀ {s s'}, R s s' → G s s') {s : S} {s' : S'}
    (hg : G s s') (hf : B.size s' < fuel) (w : σ) : A.collectTree fuel s w = B.collectTree s' w := by
  rw [Source.collectTree, Pipe.collectTree, collectLoop_loop, h.loop hR _ (Nat.le_refl _) hg hf]
  rfl

theorem InStep.binCollectTree (h : InStep d fuel A B G R) (hR : ∀ {s s'}, R s s' → G s s') {s : S} {s' : S'}
    (hg : G s s') (hf : B.size s' < fuel) (w : σ) : A.binCollectTree fuel s w = B.binCollectTree s' w := by
  rw [Source.binCollectTree, Pipe.binCollectTree, binCollectLoop_loop, h.loop hR _ (Nat.le_refl _) hg hf]
  rfl

theorem InStep.foldTree {τ : Type y} {O : Type x} (h : InStep d fuel A B G R) (hR : ∀ {s s'}, R s s' → G s s') {s : S}
    {s' : S'} (hg : G s s') (hf : B.size s' < fuel) (f : τ → List O → V → τ × O) (w : σ) (t : τ) :
    A.foldTree fuel f s w t = B.foldTree f s' w t := by
  rw [Source.foldTree, Pipe.foldTree, foldLoop_loop, h.loop hR _ (Nat.le_refl _) hg hf]
  rcases B.loop (Source.foldStep f) s' w ([], [], t) with e | ⟨⟨inv, folded, t⟩, w⟩
  · rfl
  · simp only [Except.map]
    rcases Pipe.foldCollapse f 1 inv folded t with e | ⟨_ | _, _, _⟩ <;> rfl

theorem InStep.binFoldPath {τ : Type y} {O : Type x} (h : InStep d fuel A B G R) (hR : ∀ {s s'}, R s s' → G s s')
    {s : S} {s' : S'} (hg : G s s') (hf : B.size s' < fuel) (f : τ → Option O × Option O → List Nat → V → τ × O) (w : σ)
    (t : τ) : A.binFoldPath fuel f s w t = B.binFoldPath f s' w t := by
  rw [Source.binFoldPath, Pipe.binFoldPath, binFoldLoop_loop, h.loop hR _ (Nat.le_refl _) hg hf]
  rcases B.loop (Source.binFoldStep f) s' w ([], [], [], t) with e | ⟨⟨inv, folded, paths, t⟩, w⟩
  · rfl
  · simp only [Except.map]
    rcases Pipe.binFoldCollapse f 1 inv folded paths t with e | ⟨_ | _, _, _, _⟩ <;> rfl

theorem InStep.emits (h : InStep d fuel A B G R) (hR : ∀ {s s'}, R s s' → G s s') {s : S}
    {s' : S'} (hg : G s s') (hf : B.size s' < fuel) (w : σ) : A.emits fuel s w = B.emits s' w := by
  rw [Source.emits, h.loop hR _ (Nat.le_refl _) hg hf, emits_loop]
  rcases B.emits s' w with e | ⟨l, w⟩ <;> rfl

end Step

/-! ## Chains -/

section Chains
variable {S : Type u} {S' : Type u'} {V : Type v} {σ : Type w} {d fuel : Nat} {A : Source S V σ} {B : Pipe S' V σ}
  {G R : S → S' → Prop}

theorem Chain.lazy_path_prune (hp : ∀ s, A.path (A.prune s) = A.path s) {W : Type v} (c : Chain σ V W) (s : c.St S) :
    (c.lazyPipe A fuel).path ((c.lazyPipe A fuel).prune s) = (c.lazyPipe A fuel).path s := by
  induction c with
  | source => exact hp s
  | map c f ih => exact ih s
  | prune c f ih => rfl
  | prunePath c f ih => rfl
  | pruneDepth c m ih => exact ih s

theorem Chain.size_init {W : Type v} (c : Chain σ V W) (s : S') :
    (c.pipe B).size (c.init s) = B.size s := by
  induction c with
  | source => rfl
  | map c f ih => exact ih
  | prune c f ih => exact ih
  | prunePath c f ih => exact ih
  | pruneDepth c m ih => exact ih

theorem Chain.bin_size {W : Type v} (c : Chain σ V W) (s : S') : (c.binPipe B).size s = B.size s := by
  induction c with
  | source => rfl
  | map c f ih => exact ih
  | prune c f ih => exact ih
  | prunePath c f ih => exact ih
  | pruneDepth c m ih => exact ih

/-- The states of a chain on either side, and those in which the next item may be asked for. -/
theorem Chain.inStep (h : InStep d fuel A B G R) (hp : ∀ s, A.path (A.prune s) = A.path s) {s : S} {s' : S'}
    (hg : G s s') {W : Type v} (c : Chain σ V W) :
    ∃ G' R', InStep d fuel (c.lazyPipe A fuel) (c.pipe B) G' R' ∧ G' (c.init s) (c.init s') ∧
      (c.cutsAt d = true → ∀ {t t'}, R' t t' → G' t t') := by
  induction c with
  | source => exact ⟨G, R, h, hg, fun h => by simp [Chain.cutsAt] at h⟩
  | map c f ih =>
    obtain ⟨G', R', h1, h2, h3⟩ := ih
    exact ⟨G', R', h1.map f, h2, h3⟩
  | prune c f ih =>
    obtain ⟨G', R', h1, h2, h3⟩ := ih
    exact ⟨_, _, h1.prunePath (c.lazy_path_prune hp) _, ⟨h2, rfl, rfl, rfl⟩,
      fun hc t t' hr => ⟨h3 hc hr.1, hr.2.1, hr.2.2.1, hr.2.2.2.1⟩⟩
  | prunePath c f ih =>
    obtain ⟨G', R', h1, h2, h3⟩ := ih
    exact ⟨_, _, h1.prunePath (c.lazy_path_prune hp) _, ⟨h2, rfl, rfl, rfl⟩,
      fun hc t t' hr => ⟨h3 hc hr.1, hr.2.1, hr.2.2.1, hr.2.2.2.1⟩⟩
  | pruneDepth c m ih =>
    obtain ⟨G', R', h1, h2, h3⟩ := ih
    by_cases hm : m = d
    · subst hm
      exact ⟨G', _, h1.cut, h2, fun _ {t t'} hr => hr.2⟩
    · exact ⟨G', R', h1.pruneDepth m, h2, fun hc => h3 (by simpa [Chain.cutsAt, hm] using hc)⟩

theorem Chain.binInStep (h : InStep d fuel A B G R) {W : Type v} (c : Chain σ V W) :
    ∃ R', InStep d fuel (c.binLazyPipe A fuel) (c.binPipe B) G R' ∧ (c.cutsAt d = true → ∀ {t t'}, R' t t' → G t t') := by
  induction c with
  | source => exact ⟨R, h, fun h => by simp [Chain.cutsAt] at h⟩
  | map c f ih =>
    obtain ⟨R', h1, h3⟩ := ih
    exact ⟨R', h1.map f, h3⟩
  | prune c f ih =>
    obtain ⟨R', h1, h3⟩ := ih
    rw [Chain.binPipe, binPrune_eq]
    exact ⟨R', h1.binPrunePath _, h3⟩
  | prunePath c f ih =>
    obtain ⟨R', h1, h3⟩ := ih
    exact ⟨R', h1.binPrunePath _, h3⟩
  | pruneDepth c m ih =>
    obtain ⟨R', h1, h3⟩ := ih
    by_cases hm : m = d
    · subst hm
      exact ⟨_, h1.cut, fun _ {t t'} hr => hr.2⟩
    · exact ⟨R', h1.pruneDepth m, fun hc => h3 (by simpa [Chain.cutsAt, hm] using hc)⟩

end Chains

/-! ## Sources -/

namespace Track
variable {N : Type u} {V : Type v}

section General
variable [SplitNode N V]

/-- The values down to `m` levels below `c`. -/
def cutVal (m : Nat) (c : N) : Tree V := (cut m c).map val

theorem cutVal_zero (c : N) : cutVal 0 c = .node (val c) [] := by
  simp [cutVal, cut, Tree.map_node]

theorem cutVal_succ (m : Nat) (c : N) : cutVal (m + 1) c = .node (val c) ((kids c).map (cutVal m)) := by
  simp [cutVal, cut, Tree.map_node, Function.comp_def]

theorem val_cutVal (m : Nat) (c : N) : val (cutVal m c) = val c := by
  cases m with
  | zero => rw [cutVal_zero]; rfl
  | succ m => rw [cutVal_succ]; rfl

/-- The levels on the stack, cut; the lowest is at depth `st.length`. -/
def cutStack (d : Nat) : List (List N) → List (List (Tree V))
  | [] => []
  | cs :: st => cs.map (cutVal (d - (st.length + 1))) :: cutStack d st

/-- States that go in step. -/
structure Like (d : Nat) (s : State N (List N) N) (s' : State (Tree V) (List (Tree V)) (Tree V)) : Prop where
  root : s.root = none
  root' : s'.root = none
  path : s.path = s'.path
  stack : s'.stack = cutStack d s.stack
  levels : s.stack.length = s.path.length
  deep : s.path.length ≤ d
  deck : s.path.length < d → s'.onDeck = s.onDeck.map fun cs => cs.map (cutVal (d - (s.path.length + 1)))

/-- States in which the next item may be asked for. -/
def Ready (d : Nat) (s : State N (List N) N) (s' : State (Tree V) (List (Tree V)) (Tree V)) : Prop :=
  (∃ n, s = State.new n [] ∧ s' = State.new (cutVal d n) []) ∨
    (Like d s s' ∧ (s.path.length < d ∨ (s.onDeck = none ∧ s'.onDeck = none)))

theorem loop_cut (d : Nat) (st : List (List N)) (path : List Nat) (hl : st.length = path.length)
    (hd : st.length ≤ d) :
    (∃ t t', loop st path = .ok (none, t) ∧ loop (cutStack d st) path = .ok (none, t')) ∨
    ∃ v t t', loop st path = .ok (some v, t) ∧ loop (cutStack d st) path = .ok (some v, t') ∧ Like d t t' := by
  induction st generalizing path with
  | nil => exact .inl ⟨_, _, rfl, rfl⟩
  | cons cs st ih =>
    obtain _ | ⟨p, ps⟩ := path
    · simp at hl
    · simp only [List.length_cons, Nat.add_right_cancel_iff] at hl hd
      cases cs with
      | nil =>
        simp only [cutStack, List.map_nil, loop, List.tail_cons]
        exact ih ps hl (by omega)
      | cons c cs =>
        refine .inr ⟨_, _, _, rfl, by simp only [cutStack, List.map_cons, loop, val_cutVal]; rfl, ?_⟩
        refine ⟨rfl, rfl, rfl, rfl, by simpa using hl, by simpa [← hl] using hd, fun h => ?_⟩
        simp only [List.length_cons] at h
        obtain ⟨m, hm⟩ : ∃ m, d - (st.length + 1) = m + 1 := ⟨d - (st.length + 1) - 1, by omega⟩
        simp only [Option.map_some, List.length_cons, Option.some.injEq]
        rw [hm, cutVal_succ, show d - (ps.length + 1 + 1) = m by omega]
        rfl

/-- The source of a pipeline on any node, and the one on the tree cut at depth `d`. -/
theorem inStep (σ : Type w) (d fuel : Nat) :
    InStep d fuel (source (N := N) σ) (pipe (N := Tree V) σ) (Ready d) (Like d) where
  next {s s' w} hg _ := by
    simp only [source, pipe]
    rcases hg with ⟨n, rfl, rfl⟩ | ⟨⟨h1, h2, h3, h4, h5, h6, h7⟩, h8⟩
    · refine .inr (.inr ⟨val n, _, ⟨none, [], some (kids (cutVal d n)), []⟩, w, rfl, ?_, ?_⟩)
      · simp only [next, State.new, val_cutVal]
      · refine ⟨rfl, rfl, rfl, rfl, rfl, Nat.zero_le d, fun h => ?_⟩
        obtain ⟨m, rfl⟩ : ∃ m, d = m + 1 := ⟨d - 1, by simp [State.new] at h; omega⟩
        simp only [State.new, Option.map_some, List.length_nil, Nat.add_sub_cancel, Nat.zero_add, cutVal_succ]
        rfl
    · suffices (∃ t t', next s = .ok (none, t) ∧ next s' = .ok (none, t')) ∨
          ∃ v t t', next s = .ok (some v, t) ∧ next s' = .ok (some v, t') ∧ Like d t t' by
        rcases this with ⟨t, t', a, b⟩ | ⟨v, t, t', a, b, c⟩
        · exact .inr (.inl ⟨t, t', w, by rw [a], by rw [b]⟩)
        · exact .inr (.inr ⟨v, t, t', w, by rw [a], by rw [b], c⟩)
      simp only [next, h1, h2]
      rcases h8 with h8 | ⟨h8, h9⟩
      · rw [h7 h8]
        cases hd : s.onDeck with
        | none =>
          simp only [Option.map_none]
          rw [h4, ← h3]
          exact loop_cut d _ _ h5 (by omega)
        | some cs =>
          simp only [Option.map_some]
          rw [h4, ← h3, ← h5]
          exact loop_cut d (cs :: s.stack) _ (by simpa using h5) (by simp only [List.length_cons]; omega)
      · rw [h8, h9]
        simp only
        rw [h4, ← h3]
        exact loop_cut d _ _ h5 (by omega)
  path hr := by simp only [source, pipe, hr.path]
  deep hr := by simpa [source] using hr.deep
  shallow hr hl := .inr ⟨hr, .inl (by simpa [source] using hl)⟩
  prune {s s'} hr := by
    have : Like d ((source σ).prune s) ((pipe σ).prune s') :=
      ⟨hr.root, hr.root', hr.path, hr.stack, hr.levels, hr.deep, fun _ => rfl⟩
    exact ⟨this, .inr ⟨this, .inr ⟨rfl, rfl⟩⟩⟩

/-- A loop that goes on in every state it reaches does not end. -/
theorem loop_endless {S : Type u'} {W : Type x} {σ : Type w} {T : Type y} {M : Source S W σ}
    {step : T → List Nat → W → Except Panic T} (I : S → T → Prop)
    (h : ∀ s w a, I s a → ∃ v s' w' a', M.next s w = .ok (some v, s', w') ∧ step a (M.path s') v = .ok a' ∧ I s' a')
    (fuel : Nat) (s : S) (w : σ) (a : T) (hI : I s a) : M.loop step fuel s w a = .error .outOfFuel := by
  induction fuel generalizing s w a with
  | zero => rfl
  | succ fuel ih =>
    obtain ⟨v, s', w', a', h1, h2, h3⟩ := h s w a hI
    rw [Source.loop, h1]
    simp only [h2]
    exact ih s' w' a' h3

theorem collapse_ok (limit : Nat) (l : List (Tree V)) : ∃ l', Pipe.collapse (limit + 1) l = .ok l' := by
  fun_induction Pipe.collapse (limit + 1) l with
  | case1 => exact ⟨_, rfl⟩
  | case2 t h => omega
  | case3 t h => exact ⟨_, rfl⟩
  | case4 t a cs rest h ih => exact ih
  | case5 t a cs rest h => exact ⟨_, rfl⟩

/-- Where every node has a child, `collect_tree` does not end. -/
theorem collectTree_endless (σ : Type w) (h : ∀ m : N, kids m ≠ []) (n : N) (fuel : Nat) (w : σ) :
    (source σ).collectTree fuel (Api.lazyStart n) w = .error .outOfFuel := by
  rw [Source.collectTree, Api.lazyStart, loop_endless (fun s a => (s = State.new n [] ∧ a = []) ∨
    (s.root = none ∧ ∃ c : N, s.onDeck = some (kids c))) ?_ fuel _ w _ (.inl ⟨rfl, rfl⟩)]
  rintro s w a (⟨rfl, rfl⟩ | ⟨h1, c, h2⟩)
  · exact ⟨val n, ⟨none, [], some (kids n), []⟩, w, [.node (val n) []], rfl,
      by simp [Source.collectStep, Pipe.collapse], .inr ⟨rfl, n, rfl⟩⟩
  · obtain ⟨c0, cs, hc⟩ := List.exists_cons_of_ne_nil (h c)
    obtain ⟨l', hl⟩ := collapse_ok s.path.length a
    refine ⟨val c0, ⟨none, wrapSucc usizeMax :: s.path, some (kids c0), cs :: s.stack⟩, w, .node (val c0) [] :: l',
      ?_, ?_, .inr ⟨rfl, c0, rfl⟩⟩
    · simp only [source, next, h1, h2, hc, loop]
    · simp only [Source.collectStep, source, List.length_reverse, List.length_cons, hl]

/-- There are as many nodes to come as the cut tree has. -/
theorem size_cut_start (σ : Type w) (d : Nat) (n : N) :
    (pipe (N := Tree V) σ).size (Api.start (cutVal d n)) = (cut d n).size := by
  simp only [pipe, size, Api.start, State.new, nodes]
  have h : ∀ t : Tree V, (unfold t).size = t.size := by
    intro t
    have := congrArg Tree.size (treeOf_tree t)
    rwa [treeOf, size_map] at this
  simp [h, cutVal, size_map]

end General

section Binary
variable [SplitNode2 N V]

/-- The values down to `m` levels below `c`. -/
def binCutVal (m : Nat) (c : N) : BinTree V := (cut2 m c).map val2

theorem binCutVal_zero (c : N) : binCutVal 0 c = .node (val2 c) none none := by
  simp [binCutVal, cut2, BinTree.map, BinTree.mapO]

theorem mapO_eq {α : Type u} {β : Type v} (f : α → β) (o : Option (BinTree α)) :
    BinTree.mapO f o = o.map (BinTree.map f) := by
  cases o <;> rfl

theorem binCutVal_succ (m : Nat) (c : N) :
    binCutVal (m + 1) c = .node (val2 c) ((split2 c).2.1.map (binCutVal m)) ((split2 c).2.2.map (binCutVal m)) := by
  simp only [binCutVal, cut2, BinTree.map, mapO_eq, Option.map_map]
  rfl

theorem val2_binCutVal (m : Nat) (c : N) : val2 (binCutVal m c) = val2 c := by
  cases m with
  | zero => rw [binCutVal_zero]; rfl
  | succ m => rw [binCutVal_succ]; rfl

/-- The levels on the stack, cut; the lowest is at depth `st.length`. -/
def binCutStack (d : Nat) : List (List (Option N)) → List (List (Option (BinTree V)))
  | [] => []
  | cs :: st => cs.map (Option.map (binCutVal (d - (st.length + 1)))) :: binCutStack d st

/-- States that go in step. -/
structure BinLike (d : Nat) (s : State N (Option N × Option N) (Option N))
    (s' : State (BinTree V) (Option (BinTree V) × Option (BinTree V)) (Option (BinTree V))) : Prop where
  root : s.root = none
  root' : s'.root = none
  path : s.path = s'.path
  stack : s'.stack = binCutStack d s.stack
  levels : s.stack.length = s.path.length
  deep : s.path.length ≤ d
  deck : s.path.length < d → s'.onDeck = s.onDeck.map fun cs =>
    (cs.1.map (binCutVal (d - (s.path.length + 1))), cs.2.map (binCutVal (d - (s.path.length + 1))))

/-- States in which the next item may be asked for. -/
def BinReady (d : Nat) (s : State N (Option N × Option N) (Option N))
    (s' : State (BinTree V) (Option (BinTree V) × Option (BinTree V)) (Option (BinTree V))) : Prop :=
  (∃ n, s = State.new n [] ∧ s' = State.new (binCutVal d n) []) ∨
    (BinLike d s s' ∧ (s.path.length < d ∨ (s.onDeck = none ∧ s'.onDeck = none)))

theorem binLoop_cut (d : Nat) (st : List (List (Option N))) (path : List Nat) (hl : st.length = path.length)
    (hd : st.length ≤ d) :
    (∃ t t', binLoop st path = .ok (none, t) ∧ binLoop (binCutStack d st) path = .ok (none, t')) ∨
    ∃ v t t', binLoop st path = .ok (some v, t) ∧ binLoop (binCutStack d st) path = .ok (some v, t') ∧
      BinLike d t t' := by
  fun_induction binLoop st path with
  | case1 path => exact .inl ⟨_, _, rfl, by rw [binCutStack, binLoop]⟩
  | case2 => simp at hl
  | case3 c cs st p ps =>
    simp only [List.length_cons, Nat.add_right_cancel_iff] at hl hd
    refine .inr ⟨_, _, _, rfl, by simp only [binCutStack, List.map_cons, Option.map_some, binLoop, val2_binCutVal]; rfl, ?_⟩
    refine ⟨rfl, rfl, rfl, rfl, by simpa using hl, by simpa [← hl] using hd, fun h => ?_⟩
    simp only [List.length_cons] at h
    obtain ⟨m, hm⟩ : ∃ m, d - (st.length + 1) = m + 1 := ⟨d - (st.length + 1) - 1, by omega⟩
    simp only [Option.map_some, List.length_cons, Option.some.injEq]
    rw [hm, binCutVal_succ, show d - (ps.length + 1 + 1) = m by omega]
    rfl
  | case4 cs st p ps ih =>
    have := ih (by simpa using hl) (by simpa using hd)
    simpa only [binCutStack, List.map_cons, Option.map_none, binLoop] using this
  | case5 st path ih =>
    have := ih (by simp only [List.length_cons] at hl; simp [← hl]) (by simp only [List.length_cons] at hd; omega)
    simpa only [binCutStack, List.map_nil, binLoop] using this

/-- The source of a pipeline on any binary node, and the one on the tree cut at depth `d`. -/
theorem binInStep (σ : Type w) (d fuel : Nat) :
    InStep d fuel (binSource (N := N) σ) (binPipe (N := BinTree V) σ) (BinReady d) (BinLike d) where
  next {s s' w} hg _ := by
    simp only [binSource, binPipe]
    rcases hg with ⟨n, rfl, rfl⟩ | ⟨⟨h1, h2, h3, h4, h5, h6, h7⟩, h8⟩
    · refine .inr (.inr ⟨val2 n, _, ⟨none, [], some (split2 (binCutVal d n)).2, []⟩, w, rfl, ?_, ?_⟩)
      · simp only [binNext, State.new, val2_binCutVal]
      · refine ⟨rfl, rfl, rfl, rfl, rfl, Nat.zero_le d, fun h => ?_⟩
        obtain ⟨m, rfl⟩ : ∃ m, d = m + 1 := ⟨d - 1, by simp [State.new] at h; omega⟩
        simp only [State.new, Option.map_some, List.length_nil, Nat.add_sub_cancel, Nat.zero_add, binCutVal_succ]
        rfl
    · suffices (∃ t t', binNext s = .ok (none, t) ∧ binNext s' = .ok (none, t')) ∨
          ∃ v t t', binNext s = .ok (some v, t) ∧ binNext s' = .ok (some v, t') ∧ BinLike d t t' by
        rcases this with ⟨t, t', a, b⟩ | ⟨v, t, t', a, b, c⟩
        · exact .inr (.inl ⟨t, t', w, by rw [a], by rw [b]⟩)
        · exact .inr (.inr ⟨v, t, t', w, by rw [a], by rw [b], c⟩)
      simp only [binNext, h1, h2]
      rcases h8 with h8 | ⟨h8, h9⟩
      · rw [h7 h8]
        cases hd : s.onDeck with
        | none =>
          simp only [Option.map_none]
          rw [h4, ← h3]
          exact binLoop_cut d _ _ h5 (by omega)
        | some cs =>
          simp only [Option.map_some]
          rw [h4, ← h3, ← h5]
          exact binLoop_cut d ([cs.1, cs.2] :: s.stack) _ (by simpa using h5) (by simp only [List.length_cons]; omega)
      · rw [h8, h9]
        simp only
        rw [h4, ← h3]
        exact binLoop_cut d _ _ h5 (by omega)
  path hr := by simp only [binSource, binPipe, hr.path]
  deep hr := by simpa [binSource] using hr.deep
  shallow hr hl := .inr ⟨hr, .inl (by simpa [binSource] using hl)⟩
  prune {s s'} hr := by
    have : BinLike d ((binSource σ).prune s) ((binPipe σ).prune s') :=
      ⟨hr.root, hr.root', hr.path, hr.stack, hr.levels, hr.deep, fun _ => rfl⟩
    exact ⟨this, .inr ⟨this, .inr ⟨rfl, rfl⟩⟩⟩

theorem size_toTree {α : Type u} (t : BinTree α) : t.toTree.size = t.size := by
  induction t using BinTree.ind with
  | h a l r ihl ihr =>
    rw [BinTree.toTree, Tree.size, BinTree.size]
    cases l <;> cases r <;> simp_all [BinTree.slotTrees, Tree.sizeL, BinTree.sizeO]
    omega

theorem bin_size_map {α : Type u} {β : Type v} (f : α → β) (t : BinTree α) : (t.map f).size = t.size := by
  induction t using BinTree.ind with
  | h a l r ihl ihr =>
    rw [BinTree.map, BinTree.size, BinTree.size]
    cases l <;> cases r <;> simp_all [BinTree.mapO, BinTree.sizeO]

/-- There are as many nodes to come as the cut tree has. -/
theorem size_binCut_start (σ : Type w) (d : Nat) (n : N) :
    (binPipe (N := BinTree V) σ).size (Api.binStart (binCutVal d n)) = (cut2 d n).size := by
  simp only [binPipe, binSize, Api.binStart, State.new, nodes]
  have h : ∀ t : BinTree V, (unfold t).size = t.size := by
    intro t
    have := congrArg BinTree.size (binTreeOf_binTree t)
    rwa [binTreeOf, bin_size_map, ← size_toTree, ← unfold_eq_toTree] at this
  simp [h, binCutVal, bin_size_map]

end Binary

end Track

end TreeIter
