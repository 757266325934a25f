import Verif.Model.PipeMemory
import Verif.Lemmas.Memory

/-! # Bounds on what a pipeline holds -/

universe u v w x

namespace TreeIter

namespace Pipe

variable {S : Type u} {V : Type v} {W : Type x} {σ : Type w}

/-- `next` leads from `A` to `B`, `prune` from `B` to `A`; `len`, which is at most `L`, is the length of the path of the
node just emitted. -/
structure Keeps (M : Pipe S V σ) (A B : S → Prop) (len : S → Nat) (L : Nat) : Prop where
  next : ∀ {s w o s' w'}, A s → M.next s w = .ok (o, s', w') → B s' ∧ (o.isSome → (M.path s').length = len s')
  prune : ∀ {s}, B s → A (M.prune s)
  sub : ∀ {s}, A s → B s
  len_prune : ∀ s, len (M.prune s) = len s
  le : ∀ {s}, B s → len s ≤ L

variable {M : Pipe S V σ} {A B : S → Prop} {len : S → Nat} {L : Nat}

theorem Keeps.map (h : M.Keeps A B len L) (f : σ → V → σ × W) : (M.map f).Keeps A B len L where
  next := by
    intro s w o s' w' hs e
    rw [Pipe.map] at e
    simp only at e
    split at e
    · cases e
    · next h1 => cases e; exact h.next hs h1
    · next h1 =>
      cases e
      obtain ⟨h2, h3⟩ := h.next hs h1
      exact ⟨h2, fun _ => h3 rfl⟩
  prune := h.prune
  sub := h.sub
  len_prune := h.len_prune
  le := h.le

theorem Keeps.pruneDepth (h : M.Keeps A B len L) (d : Nat) : (M.pruneDepth treeDepth d).Keeps A B len L where
  next := by
    intro s w o s' w' hs e
    rw [Pipe.pruneDepth] at e
    simp only [treeDepth] at e
    split at e
    · cases e
    · next h1 => cases e; exact h.next hs h1
    · next h1 =>
      cases e
      obtain ⟨h2, h3⟩ := h.next hs h1
      split
      · refine ⟨h.sub (h.prune h2), fun _ => ?_⟩
        show (M.path (M.prune _)).length = _
        rw [M.path_prune, h.len_prune]
        exact h3 rfl
      · exact ⟨h2, fun _ => h3 rfl⟩
  prune := h.prune
  sub := h.sub
  len_prune := h.len_prune
  le := h.le

theorem Keeps.collPruneDepth (h : M.Keeps A B len L) (d : Nat) : (M.pruneDepth collDepth d).Keeps A B len L where
  next := by
    intro s w o s' w' hs e
    rw [Pipe.pruneDepth] at e
    simp only at e
    split at e
    · cases e
    · next h1 => cases e; exact h.next hs h1
    · next h1 =>
      obtain ⟨h2, h3⟩ := h.next hs h1
      split at e
      · cases e
      · cases e
        split
        · refine ⟨h.sub (h.prune h2), fun _ => ?_⟩
          show (M.path (M.prune _)).length = _
          rw [M.path_prune, h.len_prune]
          exact h3 rfl
        · exact ⟨h2, fun _ => h3 rfl⟩
  prune := h.prune
  sub := h.sub
  len_prune := h.len_prune
  le := h.le

/-- From `prune_depth(d)` on the states are those with nothing waiting below depth `d`. -/
theorem Keeps.cut {d : Nat} (h : M.Keeps A B len d) (low : ∀ s, B s → len s < d → A s)
    (hend : ∀ s w s' w', A s → M.next s w = .ok (none, s', w') → A s') :
    (M.pruneDepth treeDepth d).Keeps A A len d where
  next := by
    intro s w o s' w' hs e
    rw [Pipe.pruneDepth] at e
    simp only [treeDepth] at e
    split at e
    · cases e
    · next h1 => cases e; exact ⟨hend _ _ _ _ hs h1, fun hc => (h.next hs h1).2 hc⟩
    · next h1 =>
      cases e
      obtain ⟨h2, h3⟩ := h.next hs h1
      split
      · refine ⟨h.prune h2, fun _ => ?_⟩
        show (M.path (M.prune _)).length = _
        rw [M.path_prune, h.len_prune]
        exact h3 rfl
      · next hd =>
        have := h3 rfl
        have := h.le h2
        exact ⟨low _ h2 (by omega), fun _ => h3 rfl⟩
  prune := fun hs => h.prune (h.sub hs)
  sub := fun hs => hs
  len_prune := h.len_prune
  le := fun hs => h.le (h.sub hs)

/-- The vectors of a `prune` or `prune_path` stage. -/
def Vecs (L : Nat) (s : PruneState S) : Prop := s.pruned.length = s.current.length ∧ s.current.length ≤ L

theorem bumpLast_length (l : List Nat) : (bumpLast l).length = l.length := by
  rw [bumpLast]
  split
  · rfl
  · next i h =>
    have : l ≠ [] := by rintro rfl; cases h
    have := List.length_pos_iff.2 this
    simp
    omega

theorem adjust_length (len : Nat) (p c : List Nat) (h : p.length = c.length) :
    (adjust len p c).1.length = len ∧ (adjust len p c).2.length = len := by
  rw [adjust]
  split
  · simp; omega
  · split
    · simp [bumpLast_length]; omega
    · simp; omega

theorem count_length {p c p' : List Nat} (h : count p c = .ok p') : p'.length = p.length := by
  rw [count] at h
  split at h
  · split at h
    · cases h
    · cases h; simp
  · cases h; rfl

theorem Keeps.pruneNext (h : M.Keeps A B len L) (f : σ → List Nat → V → σ × Bool) (s : PruneState S) (w : σ)
    {o : Option V} {s' : PruneState S} {w' : σ} (hA : A s.inner) (hv : Vecs L s)
    (e : M.pruneNext f s w = .ok (o, s', w')) :
    B s'.inner ∧ Vecs L s' ∧ (o.isSome → s'.current.length = len s'.inner) ∧
      (o = none → ∃ s1 w1 w2, A s1 ∧ M.next s1 w1 = .ok (none, s'.inner, w2)) := by
  fun_induction Pipe.pruneNext M f s w with
  | case1 => cases e
  | case2 s w s1 w1 h1 => cases e; exact ⟨(h.next hA h1).1, by simp [Vecs], by simp, fun _ => ⟨_, _, _, hA, h1⟩⟩
  | case3 => cases e
  | case4 s w v s1 w1 h1 vs hf p hc ih =>
    obtain ⟨h2, h3⟩ := h.next hA h1
    have h3 := h3 rfl
    have h5 := h.le h2
    have h4 := adjust_length (M.path s1).length s.pruned s.current hv.1
    refine ih (h.prune h2) ⟨?_, ?_⟩ e
    · simp only [count_length hc]; show vs.1.length = vs.2.length; rw [h4.1, h4.2]
    · show vs.2.length ≤ L; rw [h4.2]; omega
  | case5 s w v s1 w1 h1 vs hf =>
    cases e
    obtain ⟨h2, h3⟩ := h.next hA h1
    have h3 := h3 rfl
    have h5 := h.le h2
    have h4 := adjust_length (M.path s1).length s.pruned s.current hv.1
    refine ⟨h2, ⟨?_, ?_⟩, fun _ => ?_, by simp⟩
    · show vs.1.length = vs.2.length; rw [h4.1, h4.2]
    · show vs.2.length ≤ L; rw [h4.2]; omega
    · show vs.2.length = _; rw [h4.2]; exact h3

theorem Keeps.prunePath (h : M.Keeps A B len L) (f : σ → List Nat → V → σ × Bool) :
    (M.prunePath f).Keeps (fun s => A s.inner ∧ Vecs L s) (fun s => B s.inner ∧ Vecs L s) (fun s => len s.inner) L where
  next := by
    rintro s w o s' w' ⟨h1, h2⟩ e
    obtain ⟨h3, h4, h5, -⟩ := h.pruneNext f s w h1 h2 e
    exact ⟨⟨h3, h4⟩, h5⟩
  prune := fun ⟨h1, h2⟩ => ⟨h.prune h1, h2⟩
  sub := fun ⟨h1, h2⟩ => ⟨h.sub h1, h2⟩
  len_prune := fun s => h.len_prune s.inner
  le := fun ⟨h1, _⟩ => h.le h1

theorem Keeps.binPruneNext (h : M.Keeps A B len L) (f : σ → V → σ × Bool) (s : S) (w : σ)
    {o : Option V} {s' : S} {w' : σ} (hA : A s) (e : M.binPruneNext f s w = .ok (o, s', w')) :
    B s' ∧ (o.isSome → (M.path s').length = len s') ∧
      (o = none → ∃ s1 w1 w2, A s1 ∧ M.next s1 w1 = .ok (none, s', w2)) := by
  fun_induction Pipe.binPruneNext M f s w with
  | case1 => cases e
  | case2 s w s1 w1 h1 => cases e; exact ⟨(h.next hA h1).1, by simp, fun _ => ⟨_, _, _, hA, h1⟩⟩
  | case3 s w v s1 w1 h1 hf ih => exact ih (h.prune (h.next hA h1).1) e
  | case4 s w v s1 w1 h1 hf =>
    cases e
    obtain ⟨h2, h3⟩ := h.next hA h1
    exact ⟨h2, fun _ => h3 rfl, by simp⟩

theorem Keeps.binPrunePathNext (h : M.Keeps A B len L) (f : σ → List Nat → V → σ × Bool) (s : S) (w : σ)
    {o : Option V} {s' : S} {w' : σ} (hA : A s) (e : M.binPrunePathNext f s w = .ok (o, s', w')) :
    B s' ∧ (o.isSome → (M.path s').length = len s') ∧
      (o = none → ∃ s1 w1 w2, A s1 ∧ M.next s1 w1 = .ok (none, s', w2)) := by
  fun_induction Pipe.binPrunePathNext M f s w with
  | case1 => cases e
  | case2 s w s1 w1 h1 => cases e; exact ⟨(h.next hA h1).1, by simp, fun _ => ⟨_, _, _, hA, h1⟩⟩
  | case3 s w v s1 w1 h1 hf ih => exact ih (h.prune (h.next hA h1).1) e
  | case4 s w v s1 w1 h1 hf =>
    cases e
    obtain ⟨h2, h3⟩ := h.next hA h1
    exact ⟨h2, fun _ => h3 rfl, by simp⟩

theorem Keeps.binPrune (h : M.Keeps A B len L) (f : σ → V → σ × Bool) : (M.binPrune f).Keeps A B len L where
  next hs e := let r := h.binPruneNext f _ _ hs e; ⟨r.1, r.2.1⟩
  prune := h.prune
  sub := h.sub
  len_prune := h.len_prune
  le := h.le

theorem Keeps.binPrunePath (h : M.Keeps A B len L) (f : σ → List Nat → V → σ × Bool) :
    (M.binPrunePath f).Keeps A B len L where
  next hs e := let r := h.binPrunePathNext f _ _ hs e; ⟨r.1, r.2.1⟩
  prune := h.prune
  sub := h.sub
  len_prune := h.len_prune
  le := h.le

theorem Keeps.reach (h : M.Keeps A A len L) {s s' : S} (hs : A s) (hr : M.Reach s s') : A s' := by
  induction hr with
  | start => exact hs
  | next _ e ih => exact (h.next ih e).1
  | prune _ ih => exact h.prune ih

/-- An end of the iteration leads back to `A`. -/
def Ends (M : Pipe S V σ) (A : S → Prop) : Prop := ∀ s w s' w', A s → M.next s w = .ok (none, s', w') → A s'

end Pipe

/-! ## Chains -/

namespace Chain

variable {S : Type u} {V : Type v} {σ : Type w}

/-- What holds of the source's state, and the bound on the vectors of the stages. -/
def Lift (L : Nat) (A : S → Prop) : {W : Type v} → (c : Chain σ V W) → c.St S → Prop
  | _, source, s => A s
  | _, map c _, s => c.Lift L A s
  | _, prune c _, s => c.Lift L A (Pipe.PruneState.inner s) ∧ Pipe.Vecs L s
  | _, prunePath c _, s => c.Lift L A (Pipe.PruneState.inner s) ∧ Pipe.Vecs L s
  | _, pruneDepth c _, s => c.Lift L A s

/-- `len` of the source's state. -/
def srcLen (len : S → Nat) : {W : Type v} → (c : Chain σ V W) → c.St S → Nat
  | _, source, s => len s
  | _, map c _, s => c.srcLen len s
  | _, prune c _, s => c.srcLen len (Pipe.PruneState.inner s)
  | _, prunePath c _, s => c.srcLen len (Pipe.PruneState.inner s)
  | _, pruneDepth c _, s => c.srcLen len s

variable {M : Pipe S V σ} {A B : S → Prop} {len : S → Nat} {L : Nat}

theorem keeps (h : M.Keeps A B len L) : {W : Type v} → (c : Chain σ V W) →
    (c.pipe M).Keeps (c.Lift L A) (c.Lift L B) (c.srcLen len) L
  | _, source => h
  | _, map c f => (c.keeps h).map f
  | _, prune c _ => (c.keeps h).prunePath _
  | _, prunePath c _ => (c.keeps h).prunePath _
  | _, pruneDepth c d => (c.keeps h).pruneDepth d

theorem collKeeps (h : M.Keeps A B len L) : {W : Type v} → (c : Chain σ V W) →
    (c.collPipe M).Keeps (c.Lift L A) (c.Lift L B) (c.srcLen len) L
  | _, source => h
  | _, map c f => (c.collKeeps h).map f
  | _, prune c _ => (c.collKeeps h).prunePath _
  | _, prunePath c _ => (c.collKeeps h).prunePath _
  | _, pruneDepth c d => (c.collKeeps h).collPruneDepth d

theorem binCollKeeps (h : M.Keeps A B len L) : {W : Type v} → (c : Chain σ V W) → (c.binCollPipe M).Keeps A B len L
  | _, source => h
  | _, map c f => (c.binCollKeeps h).map f
  | _, prune c f => (c.binCollKeeps h).binPrune f
  | _, prunePath c f => (c.binCollKeeps h).binPrunePath f
  | _, pruneDepth c d => (c.binCollKeeps h).collPruneDepth d

theorem ends (h : M.Keeps A B len L) (he : M.Ends A) : {W : Type v} → (c : Chain σ V W) → (c.pipe M).Ends (c.Lift L A)
  | _, source => he
  | _, map c f => by
    intro s w s' w' hs e
    simp only [pipe, Pipe.map] at e
    split at e
    · cases e
    · next h1 => cases e; exact c.ends h he _ _ _ _ hs h1
    · cases e
  | _, prune c f => by
    rintro s w s' w' ⟨h1, h2⟩ e
    obtain ⟨-, h4, -, h6⟩ := (c.keeps h).pruneNext _ s w h1 h2 e
    obtain ⟨s1, w1, w2, h7, h8⟩ := h6 rfl
    exact ⟨c.ends h he _ _ _ _ h7 h8, h4⟩
  | _, prunePath c f => by
    rintro s w s' w' ⟨h1, h2⟩ e
    obtain ⟨-, h4, -, h6⟩ := (c.keeps h).pruneNext _ s w h1 h2 e
    obtain ⟨s1, w1, w2, h7, h8⟩ := h6 rfl
    exact ⟨c.ends h he _ _ _ _ h7 h8, h4⟩
  | _, pruneDepth c d => by
    intro s w s' w' hs e
    simp only [pipe, Pipe.pruneDepth, Pipe.treeDepth] at e
    split at e
    · cases e
    · next h1 => cases e; exact c.ends h he _ _ _ _ hs h1
    · cases e

theorem low {d : Nat} (hl : ∀ s, B s → len s < d → A s) : {W : Type v} → (c : Chain σ V W) →
    ∀ s, c.Lift d B s → c.srcLen len s < d → c.Lift d A s
  | _, source => hl
  | _, map c _ => c.low hl
  | _, prune c _ => fun _ ⟨h1, h2⟩ h3 => ⟨c.low hl _ h1 h3, h2⟩
  | _, prunePath c _ => fun _ ⟨h1, h2⟩ h3 => ⟨c.low hl _ h1 h3, h2⟩
  | _, pruneDepth c _ => c.low hl

theorem keeps_cut {d : Nat} (h : M.Keeps A B len d) (he : M.Ends A) (hl : ∀ s, B s → len s < d → A s) :
    {W : Type v} → (c : Chain σ V W) → c.cutsAt d = true →
    (c.pipe M).Keeps (c.Lift d A) (c.Lift d A) (c.srcLen len) d
  | _, source => by intro hc; cases hc
  | _, map c f => fun hc => (c.keeps_cut h he hl hc).map f
  | _, prune c _ => fun hc => (c.keeps_cut h he hl hc).prunePath _
  | _, prunePath c _ => fun hc => (c.keeps_cut h he hl hc).prunePath _
  | _, pruneDepth c m => fun hc => by
    by_cases hm : m = d
    · subst hm
      exact (c.keeps h).cut (c.low hl) (c.ends h he)
    · refine (c.keeps_cut h he hl ?_).pruneDepth m
      rw [cutsAt] at hc
      simpa [hm] using hc

theorem lift_init {s : S} (h : A s) : {W : Type v} → (c : Chain σ V W) → c.Lift L A (c.init s)
  | _, source => h
  | _, map c _ => c.lift_init h
  | _, prune c _ => ⟨c.lift_init h, by simp [Pipe.Vecs, init, Pipe.PruneState.new]⟩
  | _, prunePath c _ => ⟨c.lift_init h, by simp [Pipe.Vecs, init, Pipe.PruneState.new]⟩
  | _, pruneDepth c _ => c.lift_init h

theorem lift_collInit {s : S} (h : A s) (hL : 1 ≤ L) : {W : Type v} → (c : Chain σ V W) → c.Lift L A (c.collInit s)
  | _, source => h
  | _, map c _ => c.lift_collInit h hL
  | _, prune c _ => ⟨c.lift_collInit h hL, by simp [Pipe.Vecs, collInit, CollPipe.pruneNew]⟩
  | _, prunePath c _ => ⟨c.lift_collInit h hL, by simpa [Pipe.Vecs, collInit, CollPipe.prunePathNew] using hL⟩
  | _, pruneDepth c _ => c.lift_collInit h hL

theorem lens_le {m : S → List Nat} (hm : ∀ s, A s → ∀ l ∈ m s, l ≤ L) : {W : Type v} → (c : Chain σ V W) →
    ∀ s, c.Lift L A s → ∀ l ∈ c.lens m s, l ≤ L
  | _, source => hm
  | _, map c _ => c.lens_le hm
  | _, prune c _ => by
    rintro s ⟨h1, h2, h3⟩ l hl
    simp only [lens, List.mem_cons] at hl
    rcases hl with rfl | rfl | hl
    · omega
    · omega
    · exact c.lens_le hm _ h1 l hl
  | _, prunePath c _ => by
    rintro s ⟨h1, h2, h3⟩ l hl
    simp only [lens, List.mem_cons] at hl
    rcases hl with rfl | rfl | hl
    · omega
    · omega
    · exact c.lens_le hm _ h1 l hl
  | _, pruneDepth c _ => c.lens_le hm

theorem lens_length {m : S → List Nat} {b : Nat} (hm : ∀ s, (m s).length = b) : {W : Type v} → (c : Chain σ V W) →
    ∀ s, (c.lens m s).length = b + 2 * c.prunes
  | _, source => hm
  | _, map c _ => c.lens_length hm
  | _, prune c _ => by
    intro s
    simp only [lens, prunes, List.length_cons, c.lens_length hm]
    omega
  | _, prunePath c _ => by
    intro s
    simp only [lens, prunes, List.length_cons, c.lens_length hm]
    omega
  | _, pruneDepth c _ => c.lens_length hm

theorem binKeeps (h : M.Keeps A B len L) : {W : Type v} → (c : Chain σ V W) → (c.binPipe M).Keeps A B len L
  | _, source => h
  | _, map c f => (c.binKeeps h).map f
  | _, prune c f => (c.binKeeps h).binPrune f
  | _, prunePath c f => (c.binKeeps h).binPrunePath f
  | _, pruneDepth c d => (c.binKeeps h).pruneDepth d

theorem binEnds (h : M.Keeps A B len L) (he : M.Ends A) : {W : Type v} → (c : Chain σ V W) → (c.binPipe M).Ends A
  | _, source => he
  | _, map c f => by
    intro s w s' w' hs e
    simp only [binPipe, Pipe.map] at e
    split at e
    · cases e
    · next h1 => cases e; exact c.binEnds h he _ _ _ _ hs h1
    · cases e
  | _, prune c f => by
    intro s w s' w' hs e
    obtain ⟨-, -, h6⟩ := (c.binKeeps h).binPruneNext f s w hs e
    obtain ⟨s1, w1, w2, h7, h8⟩ := h6 rfl
    exact c.binEnds h he _ _ _ _ h7 h8
  | _, prunePath c f => by
    intro s w s' w' hs e
    obtain ⟨-, -, h6⟩ := (c.binKeeps h).binPrunePathNext f s w hs e
    obtain ⟨s1, w1, w2, h7, h8⟩ := h6 rfl
    exact c.binEnds h he _ _ _ _ h7 h8
  | _, pruneDepth c d => by
    intro s w s' w' hs e
    simp only [binPipe, Pipe.pruneDepth, Pipe.treeDepth] at e
    split at e
    · cases e
    · next h1 => cases e; exact c.binEnds h he _ _ _ _ hs h1
    · cases e

theorem binKeeps_cut {d : Nat} (h : M.Keeps A B len d) (he : M.Ends A) (hl : ∀ s, B s → len s < d → A s) :
    {W : Type v} → (c : Chain σ V W) → c.cutsAt d = true → (c.binPipe M).Keeps A A len d
  | _, source => by intro hc; cases hc
  | _, map c f => fun hc => (c.binKeeps_cut h he hl hc).map f
  | _, prune c f => fun hc => (c.binKeeps_cut h he hl hc).binPrune f
  | _, prunePath c f => fun hc => (c.binKeeps_cut h he hl hc).binPrunePath f
  | _, pruneDepth c m => fun hc => by
    by_cases hm : m = d
    · subst hm
      exact (c.binKeeps h).cut hl (c.binEnds h he)
    · refine (c.binKeeps_cut h he hl ?_).pruneDepth m
      rw [cutsAt] at hc
      simpa [hm] using hc

end Chain

/-! ## The source -/

namespace Track

variable {N : Type u} {V : Type v}

/-- The path is as long as the stack; nothing waits below depth `H - 1`. -/
def Src [TreeNode N V] (b H : Nat) (s : State N (List N) N) : Prop :=
  s.path.length = b + s.stack.length ∧ s.stack.length + 1 ≤ H ∧ Fits H s.stack ∧
    (∀ cs, s.onDeck = some cs → Fits H (cs :: s.stack)) ∧ ∀ r, s.root = some r → lev r ≤ H ∧ s.stack = [] ∧ s.onDeck = none

theorem loop_src [TreeNode N V] {b H : Nat} (hH : 0 < H) {st : List (List N)} {path : List Nat} {o : Option V}
    {s' : State N (List N) N} (h : loop st path = .ok (o, s')) (hf : Fits H st) (hp : path.length = b + st.length) :
    Src b H s' := by
  fun_induction loop st path with
  | case1 => cases h; exact ⟨hp, hH, trivial, by simp, by simp⟩
  | case2 => cases h
  | case3 c cs rest p ps =>
    cases h
    have := hf.push
    refine ⟨by simpa using hp, this.2.1, this.2.2, ?_, by simp⟩
    intro x hx
    cases hx
    exact this
  | case4 rest path ih =>
    refine ih h hf.2.2 ?_
    rw [List.length_tail, hp]
    simp

theorem src_next [TreeNode N V] {b H : Nat} {s s' : State N (List N) N} {o : Option V} (hs : Src b H s)
    (h : next s = .ok (o, s')) : Src b H s' := by
  obtain ⟨h1, h2, h3, h4, h5⟩ := hs
  rw [next] at h
  split at h
  · next r hr =>
    cases h
    obtain ⟨h6, h7, h8⟩ := h5 r hr
    refine ⟨h1, h2, h3, ?_, by simp⟩
    intro cs hc
    cases hc
    simp only [h7] at h2 ⊢
    exact ⟨fun c hc => by have := lev_kids hc; simp; omega, by simpa using h2, trivial⟩
  · split at h
    · next cs hc => exact loop_src (by omega) h (h4 cs hc) (by simp [h1]; omega)
    · exact loop_src (by omega) h h3 h1

theorem keeps_src [TreeNode N V] (σ : Type w) (b H : Nat) :
    (pipe (N := N) σ).Keeps (Src b H) (Src b H) (fun s => s.path.length) (b + (H - 1)) where
  next := by
    intro s w o s' w' hs e
    rw [pipe] at e
    simp only at e
    split at e
    · cases e
    · next h1 => cases e; exact ⟨src_next hs h1, fun _ => by simp [pipe]⟩
  prune := fun ⟨h1, h2, h3, _, h5⟩ => ⟨h1, h2, h3, by simp [pipe], fun r hr => ⟨(h5 r hr).1, (h5 r hr).2.1, rfl⟩⟩
  sub h := h
  len_prune _ := rfl
  le := fun ⟨h1, h2, _⟩ => by rw [h1]; omega

theorem src_new [TreeNode N V] (n : N) (path : List Nat) {H : Nat} (h : lev n ≤ H) :
    Src path.length H (State.new n path) := by
  refine ⟨rfl, ?_, trivial, by simp [State.new], ?_⟩
  · have := lev_pos n; simp only [State.new, List.length_nil]; omega
  · intro r hr
    cases hr
    exact ⟨h, rfl, rfl⟩

/-- The path is as long as the stack, which is at most `d`. -/
def CutB {C : Type v} {I : Type w} (b d : Nat) (s : State N C I) : Prop :=
  s.path.length = b + s.stack.length ∧ s.stack.length ≤ d ∧ (s.root.isSome = true → s.onDeck = none ∧ s.stack = [])

/-- And no children of a node at depth `d` are on deck. -/
def CutA {C : Type v} {I : Type w} (b d : Nat) (s : State N C I) : Prop :=
  CutB b d s ∧ (s.onDeck.isSome = true → s.stack.length < d)

theorem loop_cutB [SplitNode N V] {b : Nat} {st : List (List N)} {path : List Nat} {o : Option V}
    {s' : State N (List N) N} (h : loop st path = .ok (o, s')) (hp : path.length = b + st.length) :
    s'.path.length = b + s'.stack.length ∧ s'.stack.length ≤ st.length ∧ s'.root = none ∧ (o = none → s'.onDeck = none) := by
  fun_induction loop st path with
  | case1 => cases h; exact ⟨hp, by simp, rfl, by simp⟩
  | case2 => cases h
  | case3 => cases h; exact ⟨by simpa using hp, by simp, rfl, by simp⟩
  | case4 rest path ih =>
    obtain ⟨h1, h2, h3, h4⟩ := ih h (by rw [List.length_tail, hp]; simp)
    exact ⟨h1, by simp only [List.length_cons]; omega, h3, h4⟩

theorem cut_next [SplitNode N V] {b d : Nat} {s s' : State N (List N) N} {o : Option V} (hs : CutA b d s)
    (h : next s = .ok (o, s')) : CutB b d s' ∧ (o = none → CutA b d s') := by
  obtain ⟨⟨h1, h2, h3⟩, h4⟩ := hs
  have fin : ∀ st path, st.length ≤ d → path.length = b + st.length → loop st path = .ok (o, s') →
      CutB b d s' ∧ (o = none → CutA b d s') := by
    intro st path hd hp h
    obtain ⟨e1, e2, e3, e4⟩ := loop_cutB h hp
    have : CutB b d s' := ⟨e1, by omega, by simp [e3]⟩
    exact ⟨this, fun ho => ⟨this, by simp [e4 ho]⟩⟩
  rw [next] at h
  split at h
  · next r hr =>
    cases h
    exact ⟨⟨h1, h2, by simp⟩, by simp⟩
  · split at h
    · next cs hc =>
      have := h4 (by simp [hc])
      exact fin _ _ (by simp only [List.length_cons]; omega) (by simp [h1]; omega) h
    · exact fin _ _ h2 h1 h

theorem keeps_cut [TreeNode N V] (σ : Type w) (d : Nat) :
    (pipe (N := N) σ).Keeps (CutA 0 d) (CutB 0 d) (fun s => s.path.length) d where
  next := by
    intro s w o s' w' hs e
    rw [pipe] at e
    simp only at e
    split at e
    · cases e
    · next h1 => cases e; exact ⟨(cut_next hs h1).1, fun _ => by simp [pipe]⟩
  prune := fun ⟨h1, h2, h3⟩ => ⟨⟨h1, h2, fun h => ⟨rfl, (h3 h).2⟩⟩, by simp [pipe]⟩
  sub h := h.1
  len_prune _ := rfl
  le := fun ⟨h1, h2, _⟩ => by rw [h1]; omega

theorem ends_cut [TreeNode N V] (σ : Type w) (d : Nat) : (pipe (N := N) σ).Ends (CutA 0 d) := by
  intro s w s' w' hs e
  rw [pipe] at e
  simp only at e
  split at e
  · cases e
  · next h1 => cases e; exact (cut_next hs h1).2 rfl

theorem cut_new {C : Type v} {I : Type w} (n : N) (d : Nat) : CutA 0 d (State.new (C := C) (I := I) n []) := by
  simp [CutA, CutB, State.new]

theorem cut_low {C : Type v} {I : Type w} {d : Nat} (s : State N C I) (h : CutB 0 d s) (hl : s.path.length < d) :
    CutA 0 d s := ⟨h, fun _ => by have := h.1; omega⟩

/-! ### Binary -/

/-- As `Fits`, for slots. -/
def FitsO [BinNode N V] (H : Nat) : List (List (Option N)) → Prop
  | [] => True
  | it :: rest => (∀ c, some c ∈ it → lev c + rest.length + 1 ≤ H) ∧ rest.length + 1 ≤ H ∧ FitsO H rest

/-- As `Src`, for binary trees. -/
def BinSrc [BinNode N V] (b H : Nat) (s : State N (Option N × Option N) (Option N)) : Prop :=
  s.path.length = b + s.stack.length ∧ s.stack.length + 1 ≤ H ∧ FitsO H s.stack ∧
    (∀ cs, s.onDeck = some cs → FitsO H ([cs.1, cs.2] :: s.stack)) ∧
    ∀ r, s.root = some r → lev r ≤ H ∧ s.stack = [] ∧ s.onDeck = none

theorem mem_slot_kids [BinNode N V] {n c : N} (h : some c ∈ [(split2 n).2.1, (split2 n).2.2]) : c ∈ kids n := by
  show c ∈ [(split2 n).2.1, (split2 n).2.2].filterMap id
  simpa using h

theorem binLoop_src [BinNode N V] {b H : Nat} (hH : 0 < H) {st : List (List (Option N))} {path : List Nat} {o : Option V}
    {s' : State N (Option N × Option N) (Option N)} (h : binLoop st path = .ok (o, s')) (hf : FitsO H st)
    (hp : path.length = b + st.length) : BinSrc b H s' := by
  fun_induction binLoop st path with
  | case1 => cases h; exact ⟨hp, hH, trivial, by simp, by simp⟩
  | case2 => cases h
  | case3 c cs rest p ps =>
    cases h
    obtain ⟨h1, h2, h3⟩ := hf
    have h4 := h1 c (by simp)
    have h5 := lev_pos c
    have h6 : FitsO H (cs :: rest) := ⟨fun c hc => h1 c (by simp [hc]), h2, h3⟩
    refine ⟨by simpa using hp, by simp only [List.length_cons]; omega, h6, ?_, by simp⟩
    intro x hx
    cases hx
    refine ⟨fun y hy => ?_, by simp only [List.length_cons]; omega, h6⟩
    have := lev_kids (mem_slot_kids hy)
    simp only [List.length_cons]
    omega
  | case4 cs rest p ps ih =>
    obtain ⟨h1, h2, h3⟩ := hf
    exact ih h ⟨fun c hc => h1 c (by simp [hc]), h2, h3⟩ (by simpa using hp)
  | case5 rest path ih =>
    refine ih h hf.2.2 ?_
    rw [List.length_tail, hp]
    simp

theorem binSrc_next [BinNode N V] {b H : Nat} {s s' : State N (Option N × Option N) (Option N)} {o : Option V}
    (hs : BinSrc b H s) (h : binNext s = .ok (o, s')) : BinSrc b H s' := by
  obtain ⟨h1, h2, h3, h4, h5⟩ := hs
  rw [binNext] at h
  split at h
  · next r hr =>
    cases h
    obtain ⟨h6, h7, h8⟩ := h5 r hr
    refine ⟨h1, h2, h3, ?_, by simp⟩
    intro cs hc
    cases hc
    simp only [h7] at h2 ⊢
    exact ⟨fun c hc => by have := lev_kids (mem_slot_kids hc); simp; omega, by simpa using h2, trivial⟩
  · split at h
    · next cs hc => exact binLoop_src (by omega) h (h4 cs hc) (by simp [h1]; omega)
    · exact binLoop_src (by omega) h h3 h1

theorem binKeeps_src [BinNode N V] (σ : Type w) (b H : Nat) :
    (binPipe (N := N) σ).Keeps (BinSrc b H) (BinSrc b H) (fun s => s.path.length) (b + (H - 1)) where
  next := by
    intro s w o s' w' hs e
    rw [binPipe] at e
    simp only at e
    split at e
    · cases e
    · next h1 => cases e; exact ⟨binSrc_next hs h1, fun _ => by simp [binPipe]⟩
  prune := fun ⟨h1, h2, h3, _, h5⟩ => ⟨h1, h2, h3, by simp [binPipe], fun r hr => ⟨(h5 r hr).1, (h5 r hr).2.1, rfl⟩⟩
  sub h := h
  len_prune _ := rfl
  le := fun ⟨h1, h2, _⟩ => by rw [h1]; omega

theorem binSrc_new [BinNode N V] (n : N) (path : List Nat) {H : Nat} (h : lev n ≤ H) :
    BinSrc path.length H (State.new n path) := by
  refine ⟨rfl, ?_, trivial, by simp [State.new], ?_⟩
  · have := lev_pos n; simp only [State.new, List.length_nil]; omega
  · intro r hr
    cases hr
    exact ⟨h, rfl, rfl⟩

theorem binLoop_cutB [SplitNode2 N V] {b : Nat} {st : List (List (Option N))} {path : List Nat} {o : Option V}
    {s' : State N (Option N × Option N) (Option N)} (h : binLoop st path = .ok (o, s')) (hp : path.length = b + st.length) :
    s'.path.length = b + s'.stack.length ∧ s'.stack.length ≤ st.length ∧ s'.root = none ∧ (o = none → s'.onDeck = none) := by
  fun_induction binLoop st path with
  | case1 => cases h; exact ⟨hp, by simp, rfl, by simp⟩
  | case2 => cases h
  | case3 => cases h; exact ⟨by simpa using hp, by simp, rfl, by simp⟩
  | case4 cs rest p ps ih => exact ih h (by simpa using hp)
  | case5 rest path ih =>
    obtain ⟨h1, h2, h3, h4⟩ := ih h (by rw [List.length_tail, hp]; simp)
    exact ⟨h1, by simp only [List.length_cons]; omega, h3, h4⟩

theorem binCut_next [SplitNode2 N V] {b d : Nat} {s s' : State N (Option N × Option N) (Option N)} {o : Option V}
    (hs : CutA b d s) (h : binNext s = .ok (o, s')) : CutB b d s' ∧ (o = none → CutA b d s') := by
  obtain ⟨⟨h1, h2, h3⟩, h4⟩ := hs
  have fin : ∀ st path, st.length ≤ d → path.length = b + st.length → binLoop st path = .ok (o, s') →
      CutB b d s' ∧ (o = none → CutA b d s') := by
    intro st path hd hp h
    obtain ⟨e1, e2, e3, e4⟩ := binLoop_cutB h hp
    have : CutB b d s' := ⟨e1, by omega, by simp [e3]⟩
    exact ⟨this, fun ho => ⟨this, by simp [e4 ho]⟩⟩
  rw [binNext] at h
  split at h
  · next r hr =>
    cases h
    exact ⟨⟨h1, h2, by simp⟩, by simp⟩
  · split at h
    · next cs hc =>
      have := h4 (by simp [hc])
      exact fin _ _ (by simp only [List.length_cons]; omega) (by simp [h1]; omega) h
    · exact fin _ _ h2 h1 h

theorem binKeeps_cut [BinNode N V] (σ : Type w) (d : Nat) :
    (binPipe (N := N) σ).Keeps (CutA 0 d) (CutB 0 d) (fun s => s.path.length) d where
  next := by
    intro s w o s' w' hs e
    rw [binPipe] at e
    simp only at e
    split at e
    · cases e
    · next h1 => cases e; exact ⟨(binCut_next hs h1).1, fun _ => by simp [binPipe]⟩
  prune := fun ⟨h1, h2, h3⟩ => ⟨⟨h1, h2, fun h => ⟨rfl, (h3 h).2⟩⟩, by simp [binPipe]⟩
  sub h := h.1
  len_prune _ := rfl
  le := fun ⟨h1, h2, _⟩ => by rw [h1]; omega

theorem binEnds_cut [BinNode N V] (σ : Type w) (d : Nat) : (binPipe (N := N) σ).Ends (CutA 0 d) := by
  intro s w s' w' hs e
  rw [binPipe] at e
  simp only at e
  split at e
  · cases e
  · next h1 => cases e; exact (binCut_next hs h1).2 rfl

end Track

/-! ## Collections -/

namespace CollPipe

variable {N : Type u} {S : Type v} {V : Type w} {σ : Type x}

/-- What holds of the tree at hand and of those to come. -/
def Each (A : S → Prop) (ok : N → Prop) (s : State N S) : Prop := (∀ c, s.current = some c → A c) ∧ ∀ n ∈ s.rest, ok n

/-- `len` of the tree at hand. -/
def curLen (len : S → Nat) (s : State N S) : Nat := (s.current.map len).getD 0

theorem keeps_advance {P : Pipe S V σ} {A : S → Prop} {len : S → Nat} {L : Nat} (h : P.Keeps A A len L) {ok : N → Prop}
    {start : N → List Nat → S} (hs : ∀ n i, ok n → A (start n [i])) (rest : List N) :
    ∀ {i : Nat} {cur : Option S} {w : σ} {o : Option V} {s' : State N S} {w' : σ},
    (∀ c, cur = some c → A c) → (∀ n ∈ rest, ok n) → advance P start rest i cur w = .ok (o, s', w') →
    Each A ok s' ∧ (o.isSome → ((pipe P start).path s').length = curLen len s') := by
  induction rest with
  | nil =>
    intro i cur w o s' w' h1 h2 e
    cases e
    exact ⟨⟨h1, by simp⟩, by simp⟩
  | cons n rest ih =>
    intro i cur w o s' w' h1 h2 e
    rw [advance] at e
    have hn : A (start n [i]) := hs n i (h2 n (by simp))
    split at e
    · cases e
    · next h3 =>
      cases e
      obtain ⟨h4, h5⟩ := h.next hn h3
      refine ⟨⟨fun c hc => ?_, fun m hm => h2 m (by simp [hm])⟩, fun _ => ?_⟩
      · cases hc; exact h4
      · exact h5 rfl
    · next h3 =>
      refine ih (fun c hc => ?_) (fun m hm => h2 m (by simp [hm])) e
      cases hc
      exact (h.next hn h3).1

theorem keeps {P : Pipe S V σ} {A : S → Prop} {len : S → Nat} {L : Nat} (h : P.Keeps A A len L) {ok : N → Prop}
    {start : N → List Nat → S} (hs : ∀ n i, ok n → A (start n [i])) :
    (pipe P start).Keeps (Each A ok) (Each A ok) (curLen len) L where
  next := by
    rintro ⟨rest, i, cur⟩ w o s' w' ⟨h1, h2⟩ e
    change next P start rest i cur w = _ at e
    rw [next.eq_def] at e
    split at e
    · exact keeps_advance h hs rest (by simp) h2 e
    · next c =>
      have hc := h1 c rfl
      split at e
      · cases e
      · next h3 =>
        cases e
        obtain ⟨h4, h5⟩ := h.next hc h3
        refine ⟨⟨fun c hc => ?_, h2⟩, fun _ => h5 rfl⟩
        cases hc; exact h4
      · next h3 =>
        refine keeps_advance h hs rest (fun c hc => ?_) h2 e
        cases hc
        exact (h.next hc h3).1
  prune := by
    rintro ⟨rest, i, cur⟩ ⟨h1, h2⟩
    refine ⟨fun c hc => ?_, h2⟩
    cases cur with
    | none => cases hc
    | some c => cases hc; exact h.prune (h1 _ rfl)
  sub h := h
  len_prune := by
    rintro ⟨rest, i, cur⟩
    cases cur with
    | none => rfl
    | some c => exact h.len_prune c
  le := by
    rintro ⟨rest, i, cur⟩ ⟨h1, h2⟩
    cases cur with
    | none => simp [curLen]
    | some c => exact h.le (h1 _ rfl)

theorem each_new (A : S → Prop) (ok : N → Prop) (ns : List N) (h : ∀ n ∈ ns, ok n) : Each A ok (State.new ns) :=
  ⟨by simp [State.new], h⟩

end CollPipe

end TreeIter
