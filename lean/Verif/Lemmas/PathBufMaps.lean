import Verif.Lemmas.PathBufChain

/-! # Chains of `map_tree` before `map_path` change no slice (C59) -/

universe u v w x

namespace TreeIter

/-- The slices of `M.mapPath` are those of the machine `next`, of which `M` tells more. -/
structure BufPipe.Erases {S : Type u} {T : Type x} {V : Type v} {σ : Type w} (M : BufPipe S V σ)
    (next : T → Except Panic (Option Slice × T)) (π : S → T) : Prop where
  error : ∀ s w e, M.next s w = .error e → next (π s) = .error e
  none : ∀ s w s' w', M.next s w = .ok (.none, s', w') → next (π s) = .ok (.none, π s')
  some : ∀ s w v s' w', M.next s w = .ok (some v, s', w') →
    next (π s) = .ok (some ⟨(M.buf s).id, (M.path s).length, (M.buf s').id⟩, π s')

namespace BufPipe.Erases
variable {S : Type u} {T : Type x} {V W : Type v} {σ : Type w} {M : BufPipe S V σ} {next : T → Except Panic (Option Slice × T)}
  {π : S → T}

theorem map (h : M.Erases next π) (f : σ → V → σ × W) : (M.map f).Erases next π where
  error s w e he := by
    simp only [BufPipe.map, Pipe.map] at he
    split at he
    · next h1 => cases he; exact h.error _ _ _ h1
    · cases he
    · cases he
  none s w s' w' he := by
    simp only [BufPipe.map, Pipe.map] at he
    split at he
    · cases he
    · next h1 => cases he; exact h.none _ _ _ _ h1
    · cases he
  some s w v s' w' he := by
    simp only [BufPipe.map, Pipe.map] at he
    split at he
    · cases he
    · cases he
    · next h1 => cases he; exact h.some _ _ _ _ _ h1

theorem slices (h : M.Erases next π) (f : σ → Slice → V → σ) (k : Nat) :
    ∀ s w, nthCallE (M.mapPath f) k (s, w) = nthCallE next k (π s) := by
  induction k with
  | zero =>
    intro s w
    rcases h1 : M.next s w with e | ⟨_ | v, s', w'⟩
    · simp [nthCallE, stateAfterE, mapPath, h1, h.error _ _ _ h1]
    · simp [nthCallE, stateAfterE, mapPath, h1, h.none _ _ _ _ h1]
    · simp [nthCallE, stateAfterE, mapPath, h1, h.some _ _ _ _ _ h1]
  | succ k ih =>
    intro s w
    rcases h1 : M.next s w with e | ⟨_ | v, s', w'⟩
    · simp [nthCallE, stateAfterE, mapPath, h1, h.error _ _ _ h1]
    · rw [nthCallE_ok_succ (o := .none) (s' := (s', w')) (by simp [mapPath, h1]), nthCallE_ok_succ (h.none _ _ _ _ h1), ih]
    · rw [nthCallE_ok_succ (o := .some ⟨(M.buf s).id, (M.path s).length, (M.buf s').id⟩)
        (s' := (s', f w' ⟨(M.buf s).id, (M.path s).length, (M.buf s').id⟩ v)) (by simp [mapPath, h1]),
        nthCallE_ok_succ (h.some _ _ _ _ _ h1), ih]

end BufPipe.Erases

namespace Chain
variable {S : Type u} {V : Type v} {σ : Type w}

/-- The state of the source. -/
def srcSt : {W : Type v} → (c : Chain σ V W) → c.BSt S → S
  | _, source, s => s
  | _, map c _, s => c.srcSt s
  | _, prune c _, s => c.srcSt s.1.inner
  | _, prunePath c _, s => c.srcSt s.1.inner
  | _, pruneDepth c _, s => c.srcSt s

variable {T : Type x} {M : BufPipe S V σ} {next : T → Except Panic (Option Slice × T)} {π : S → T}

theorem erases (grow : Nat → Nat) (h : M.Erases next π) : {W : Type v} → (c : Chain σ V W) → c.mapsOnly = true →
    (c.bufPipe grow M).Erases next (π ∘ c.srcSt)
  | _, source, _ => h
  | _, map c f, hc => (c.erases grow h hc).map f

theorem collErases (grow : Nat → Nat) (h : M.Erases next π) : {W : Type v} → (c : Chain σ V W) → c.mapsOnly = true →
    (c.collBufPipe grow M).Erases next (π ∘ c.srcSt)
  | _, source, _ => h
  | _, map c f, hc => (c.collErases grow h hc).map f

theorem binErases (h : M.Erases next π) : {W : Type v} → (c : Chain σ V W) → c.mapsOnly = true → (c.binBufPipe M).Erases next π
  | _, source, _ => h
  | _, map c f, hc => (c.binErases h hc).map f

theorem binCollErases (h : M.Erases next π) : {W : Type v} → (c : Chain σ V W) → c.mapsOnly = true → (c.binCollBufPipe M).Erases next π
  | _, source, _ => h
  | _, map c f, hc => (c.binCollErases h hc).map f

theorem srcSt_init (s : S) : {W : Type v} → (c : Chain σ V W) → c.srcSt (c.bufInit s) = s
  | _, source => rfl
  | _, map c _ => c.srcSt_init s
  | _, prune c _ => c.srcSt_init s
  | _, prunePath c _ => c.srcSt_init s
  | _, pruneDepth c _ => c.srcSt_init s

theorem srcSt_collInit (grow : Nat → Nat) (s : S) : {W : Type v} → (c : Chain σ V W) → c.srcSt (c.collBufInit grow s) = s
  | _, source => rfl
  | _, map c _ => c.srcSt_collInit grow s
  | _, prune c _ => c.srcSt_collInit grow s
  | _, prunePath c _ => c.srcSt_collInit grow s
  | _, pruneDepth c _ => c.srcSt_collInit grow s

end Chain

/-! ## The sources -/

namespace Spied
variable {S : Type u} {V : Type v} {σ : Type w} {N : Type x}

/-- `M` is `P` with paths. -/
structure Is (P : Spied S V) (M : Pipe S V σ) : Prop where
  next : ∀ s w, M.next s w = (P.next s).map fun r => (r.1, r.2, w)
  path : ∀ s, (M.path s).length = P.len s

theorem Is.erases {P : Spied S V} {M : Pipe S V σ} (h : P.Is M) (grow : Nat → Nat) :
    (BufPipe.ofSource M (P.after grow)).Erases (P.mapPath grow) id where
  error s w e he := by
    simp only [BufPipe.ofSource, h.next] at he
    rcases h1 : P.next s.1 with e' | ⟨o, s'⟩ <;> rw [h1] at he <;> simp [Except.map] at he
    simp [mapPath, h1, he]
  none s w s' w' he := by
    simp only [BufPipe.ofSource, h.next] at he
    rcases h1 : P.next s.1 with e' | ⟨o, s'⟩ <;> rw [h1] at he <;> simp [Except.map] at he
    simp [mapPath, h1, ← he.1, ← he.2]
  some s w v s' w' he := by
    simp only [BufPipe.ofSource, h.next] at he
    rcases h1 : P.next s.1 with e' | ⟨o, s'⟩ <;> rw [h1] at he <;> simp [Except.map] at he
    obtain ⟨rfl, rfl, rfl⟩ := he
    simp [mapPath, h1, BufPipe.ofSource, h.path]

theorem Is.advance {P : Spied S V} {M : Pipe S V σ} (h : P.Is M) (grow : Nat → Nat) (start : N → List Nat → S) (taken len : Nat)
    (ns : List N) : ∀ (index : Nat) (cur : Option S) (b : Buf) (w : σ),
    (∀ e, CollPipe.advance M start ns index cur w = .error e → P.collAdvance grow start taken len ns index cur b = .error e) ∧
    (∀ o s' w', CollPipe.advance M start ns index cur w = .ok (o, s', w') →
      P.collAdvance grow start taken len ns index cur b =
        .ok (o.map fun _ => ⟨taken, len, (BufPipe.collRenew P grow start ns index b).id⟩,
          (s', BufPipe.collRenew P grow start ns index b))) := by
  induction ns with
  | nil =>
    intro index cur b w
    refine ⟨fun e he => (by cases he), fun o s' w' he => ?_⟩
    cases he
    rfl
  | cons n ns ih =>
    intro index cur b w
    rw [CollPipe.advance, collAdvance, BufPipe.collRenew, h.next]
    rcases h1 : P.next (start n [index]) with e | ⟨_ | v, c'⟩
    · refine ⟨fun e he => ?_, fun o s' w' he => ?_⟩ <;> cases he
      rfl
    · exact ih _ _ _ _
    · refine ⟨fun e he => ?_, fun o s' w' he => ?_⟩ <;> cases he
      rfl

theorem Is.collStep {P : Spied S V} {M : Pipe S V σ} (h : P.Is M) (grow : Nat → Nat) (start : N → List Nat → S)
    (s : CollPipe.State N S × Buf) (w : σ) :
    (∀ e, CollPipe.next M start s.1.rest s.1.index s.1.current w = .error e → P.collMapPath grow start s = .error e) ∧
    (∀ o s' w', CollPipe.next M start s.1.rest s.1.index s.1.current w = .ok (o, s', w') →
      P.collMapPath grow start s =
        .ok (o.map fun _ => ⟨s.2.id, ((CollPipe.pipe M start).path s.1).length, (BufPipe.collAfter P grow start s.1 s.2).id⟩,
          (s', BufPipe.collAfter P grow start s.1 s.2))) := by
  obtain ⟨⟨rest, index, _ | c⟩, b⟩ := s
  · exact h.advance grow start b.id 0 rest index none b w
  · simp only [CollPipe.next, collMapPath, BufPipe.collAfter, h.next]
    have hl : ((CollPipe.pipe M start).path ⟨rest, index, some c⟩).length = P.len c := h.path c
    rcases h1 : P.next c with e | ⟨_ | v, c'⟩
    · refine ⟨fun e he => ?_, fun o s' w' he => ?_⟩ <;> cases he
      rfl
    · rw [hl]
      exact h.advance grow start b.id (P.len c) rest index (some c') (P.after grow c b) w
    · refine ⟨fun e he => ?_, fun o s' w' he => ?_⟩ <;> cases he
      simp [hl]

theorem Is.collErases {P : Spied S V} {M : Pipe S V σ} (h : P.Is M) (grow : Nat → Nat) (start : N → List Nat → S) :
    (BufPipe.ofSource (CollPipe.pipe M start) (BufPipe.collAfter P grow start)).Erases (P.collMapPath grow start) id where
  error s w e he := by
    have hs := h.collStep grow start s w
    simp only [BufPipe.ofSource] at he
    split at he
    · next h1 => cases he; exact hs.1 _ h1
    · cases he
  none s w s' w' he := by
    have hs := h.collStep grow start s w
    simp only [BufPipe.ofSource] at he
    split at he
    · cases he
    · next h1 => cases he; simpa using hs.2 _ _ _ h1
  some s w v s' w' he := by
    have hs := h.collStep grow start s w
    simp only [BufPipe.ofSource] at he
    split at he
    · cases he
    · next h1 => cases he; exact hs.2 _ _ _ h1

/-- `start` is only used with paths of one element. -/
theorem collAdvance_start (grow : Nat → Nat) (P : Spied S V) {start start' : N → List Nat → S}
    (h : ∀ n i, start n [i] = start' n [i]) (taken len : Nat) (ns : List N) : ∀ (index : Nat) (cur : Option S) (b : Buf),
    P.collAdvance grow start taken len ns index cur b = P.collAdvance grow start' taken len ns index cur b := by
  induction ns with
  | nil => intro index cur b; rfl
  | cons n ns ih => intro index cur b; simp only [collAdvance, h, ih]

theorem collMapPath_start (grow : Nat → Nat) (P : Spied S V) {start start' : N → List Nat → S}
    (h : ∀ n i, start n [i] = start' n [i]) (k : Nat) (s : CollPipe.State N S × Buf) :
    nthCallE (P.collMapPath grow start) k s = nthCallE (P.collMapPath grow start') k s := by
  have : P.collMapPath grow start = P.collMapPath grow start' := by
    funext s
    simp only [collMapPath, collAdvance_start grow P h]
  rw [this]

end Spied

namespace Track
variable {N : Type u} {V : Type v} {σ : Type w}

theorem spied_is [TreeNode N V] : (spied (N := N)).Is (pipe (N := N) σ) where
  next s w := by
    simp only [pipe, spied]
    rcases next s with e | ⟨o, s'⟩ <;> rfl
  path s := by simp [pipe, spied]

theorem binSpied_is [BinNode N V] : (binSpied (N := N)).Is (binPipe (N := N) σ) where
  next s w := by
    simp only [binPipe, binSpied]
    rcases binNext s with e | ⟨o, s'⟩ <;> rfl
  path s := by simp [binPipe, binSpied]

end Track

end TreeIter
