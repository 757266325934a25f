import Verif.Lemmas.PathBufChain

/-! # The vector of the path that a `prune` stage holds -/

universe u v w x

namespace TreeIter

/-! ## Depths -/

/-- No step down by more than one level, and none below a node that is dropped; `u` bounds the next depth. -/
def WalkSteps : Nat → List (Nat × Bool) → Prop
  | _, [] => True
  | u, (d, k) :: rest => d ≤ u ∧ WalkSteps (if k then d + 1 else d) rest

theorem WalkSteps.mono {u v : Nat} {L : List (Nat × Bool)} (h : WalkSteps u L) (huv : u ≤ v) : WalkSteps v L := by
  cases L with
  | nil => trivial
  | cons q L => exact ⟨Nat.le_trans h.1 huv, h.2⟩

mutual
theorem Tree.steps_looks {α : Type u} (f : α → Bool) (t : Tree α) (d : Nat) {rest : List (Nat × Bool)} (h : WalkSteps d rest) :
    WalkSteps d (t.looks f d ++ rest) := by
  cases t with
  | node x cs =>
    rw [Tree.looks]
    split
    · exact ⟨Nat.le_refl _, h⟩
    · exact ⟨Nat.le_refl _, Tree.steps_looksL f cs (d + 1) (h.mono (Nat.le_succ d))⟩
theorem Tree.steps_looksL {α : Type u} (f : α → Bool) (cs : List (Tree α)) (d : Nat) {rest : List (Nat × Bool)} (h : WalkSteps d rest) :
    WalkSteps d (Tree.looksL f d cs ++ rest) := by
  cases cs with
  | nil => exact h
  | cons c cs =>
    rw [Tree.looksL, List.append_assoc]
    exact Tree.steps_looks f c d (Tree.steps_looksL f cs d h)
end

namespace BufPipe
variable {S : Type u} {V : Type v} {σ : Type w}

mutual
/-- The nodes a `prune` stage looks at, by the lengths of their paths. -/
def lookT (f : V → Bool) : Lab V → List (Nat × Bool)
  | .node q cs => if f q.2 then [(q.1.length, false)] else (q.1.length, true) :: lookL f cs
def lookL (f : V → Bool) : List (Lab V) → List (Nat × Bool)
  | [] => []
  | t :: ts => lookT f t ++ lookL f ts
end

theorem lookL_append (f : V → Bool) (l r : List (Lab V)) : lookL f (l ++ r) = lookL f l ++ lookL f r := by
  induction l with
  | nil => rfl
  | cons t l ih => simp [lookL, ih]

mutual
theorem lookT_wpaths (f : V → Bool) (t : Tree V) (p : List Nat) : lookT f (t.wpaths p) = t.looks f p.length := by
  cases t with
  | node x cs =>
    rw [Tree.wpaths, lookT, Tree.looks, lookL_wpaths f cs p _]
theorem lookL_wpaths (f : V → Bool) (cs : List (Tree V)) (p : List Nat) (i : Nat) :
    lookL f (Tree.wpathsL p i cs) = Tree.looksL f (p.length + 1) cs := by
  cases cs with
  | nil => rfl
  | cons c cs =>
    rw [Tree.wpathsL, lookL, lookT_wpaths f c, lookL_wpaths f cs p _, Tree.looksL]
    simp
end

/-- What is known of the vectors of a `prune` stage that last looked at a node at depth `v`. -/
structure Holds (s : Pipe.PruneState S × Buf) (v : Nat) : Prop where
  pruned : s.1.pruned.length = v
  current : s.1.current.length = v
  cap : v ≤ s.2.cap

theorem pushMany_one {grow : Nat → Nat} {b : Buf} {v d : Nat} (hv : v ≤ b.cap) (hd : d ≤ v + 1) :
    b.pushMany grow v (d - v) = if b.cap < d then ⟨b.id + 1, grow b.cap⟩ else b := by
  by_cases h : d ≤ v
  · rw [show d - v = 0 by omega, Buf.pushMany, if_neg (by omega)]
  · have : d = v + 1 := by omega
    subst this
    rw [show v + 1 - v = 0 + 1 by omega, Buf.pushMany, Buf.pushMany, Buf.push]
    by_cases h : v < b.cap
    · rw [if_pos h, if_neg (by omega)]
    · rw [if_neg h, if_pos (by omega)]

/-- What one call of `next` does: `i` and `l` are the allocation and the length of the slice taken before it. -/
structure Call (M : Pipe S V σ) (R : S → List Nat → List (Lab V) → Prop) (f : V → Bool) (grow : Nat → Nat)
    (s : Pipe.PruneState S × Buf) (w : σ) (L : List (Nat × Bool)) (i : Nat) (l : Nat) (m : Bool) : Prop where
  none : ownMoves grow s.2.cap l m L = [] → ∃ s', pruneNext M grow (fun w _ x => (w, f x)) s w = .ok (none, s', w) ∧
    ∃ a, R s'.1.inner a []
  some : ∀ b bs, ownMoves grow s.2.cap l m L = b :: bs → ∃ x s' d rest a lab,
    pruneNext M grow (fun w _ x => (w, f x)) s w = .ok (some x, s', w) ∧ R s'.1.inner a lab ∧ lookL f lab = rest ∧
      Holds s' d ∧ WalkSteps (d + 1) rest ∧ (Slice.mk i l s'.2.id).dangles = b ∧ bs = ownMoves grow s'.2.cap d false rest

theorem call {M : Pipe S V σ} {R : S → List Nat → List (Lab V) → Prop} (hM : Enum M (idVisitor σ V) R) (f : V → Bool)
    {grow : Nat → Nat} (hg : ∀ c, c < grow c) (w : σ) (i l : Nat) (L : List (Nat × Bool)) :
    ∀ (s : Pipe.PruneState S × Buf) (a : List Nat) (lab : List (Lab V)) (v u : Nat) (m : Bool), R s.1.inner a lab →
      lookL f lab = L → Holds s v → WalkSteps u L → u ≤ v + 1 → i ≤ s.2.id → (m = true ↔ i ≠ s.2.id) →
      Call M R f grow s w L i l m := by
  induction L with
  | nil =>
    intro s a lab v u m hR hL hh hst hu hi hm
    have hl : lab = [] := by
      cases lab with
      | nil => rfl
      | cons t lab =>
        obtain ⟨q, cs⟩ := t
        rw [lookL, lookT] at hL
        split at hL <;> simp at hL
    subst hl
    obtain ⟨s', a', h1, h2⟩ := hM.next_none (w := w) (a' := a) (w' := w) hR (by rw [visitNext])
    refine ⟨fun _ => ⟨(⟨s', [], []⟩, s.2.release), ?_, a', h2⟩, by simp [ownMoves]⟩
    rw [pruneNext]
    split
    · next h3 => rw [h1] at h3; cases h3
    · next h3 => rw [h1] at h3; cases h3; rfl
    · next h3 => rw [h1] at h3; cases h3
  | cons q L ih =>
    intro s a lab v u m hR hL hh hst hu hi hm
    obtain ⟨d, k⟩ := q
    cases lab with
    | nil => simp [lookL] at hL
    | cons t lab =>
      obtain ⟨⟨p, x⟩, cs⟩ := t
      obtain ⟨s1, h1, h2, h3⟩ := hM.next_some (w := w) (y := x) (cs := cs) (rest := lab) (a' := p) (w' := w) hR
        (by simp [visitNext, idVisitor])
      have hp : M.path s1 = p := hM.path h2
      have hd : p.length = d ∧ f x = !k := by
        rw [lookL, lookT] at hL
        split at hL <;> simp only [List.cons_append, List.cons.injEq, Prod.mk.injEq] at hL <;> simp_all
      obtain ⟨hd, hf⟩ := hd
      have hdv : d ≤ v + 1 := Nat.le_trans hst.1 hu
      have hb := pushMany_one (grow := grow) (b := s.2) hh.cap hdv
      have hadj := Pipe.adjust_length d s.1.pruned s.1.current (by rw [hh.pruned, hh.current])
      have hb' : s.2.pushMany grow s.1.current.length (d - s.1.pruned.length) =
          if s.2.cap < d then ⟨s.2.id + 1, grow s.2.cap⟩ else s.2 := by
        rw [hh.current, hh.pruned, hb]
      have hcap : (if s.2.cap < d then (⟨s.2.id + 1, grow s.2.cap⟩ : Buf) else s.2).cap =
          if s.2.cap < d then grow s.2.cap else s.2.cap := by split <;> rfl
      have hroom : d ≤ (if s.2.cap < d then (⟨s.2.id + 1, grow s.2.cap⟩ : Buf) else s.2).cap := by
        have h4 := hg s.2.cap
        have h5 := hh.cap
        rw [hcap]
        split <;> omega
      have hid : i ≤ (if s.2.cap < d then (⟨s.2.id + 1, grow s.2.cap⟩ : Buf) else s.2).id := by
        split
        · show i ≤ s.2.id + 1; omega
        · exact hi
      have hmov : ((m || decide (s.2.cap < d)) = true ↔
          i ≠ (if s.2.cap < d then (⟨s.2.id + 1, grow s.2.cap⟩ : Buf) else s.2).id) := by
        by_cases hc : s.2.cap < d
        · simp only [hc, decide_true, Bool.or_true, if_true, true_iff]
          show i ≠ s.2.id + 1
          omega
        · simpa [hc] using hm
      cases k with
      | true =>
        have hf : f x = false := by simpa using hf
        have hL' : lookL f (cs ++ lab) = L := by
          rw [lookL, lookT] at hL
          simp only [hf, Bool.false_eq_true, if_false, List.cons_append, List.cons.injEq] at hL
          rw [lookL_append]
          exact hL.2
        refine ⟨by simp [ownMoves], ?_⟩
        intro b bs hb2
        rw [ownMoves, List.cons.injEq] at hb2
        refine ⟨x, (⟨s1, _, _⟩, if s.2.cap < d then ⟨s.2.id + 1, grow s.2.cap⟩ else s.2), d, L, p, cs ++ lab, ?_, h2, hL',
          ⟨hadj.1, hadj.2, hroom⟩, hst.2, ?_, ?_⟩
        · rw [pruneNext]
          split
          · next h4 => rw [h1] at h4; cases h4
          · next h4 => rw [h1] at h4; cases h4
          · next h4 =>
            rw [h1] at h4
            cases h4
            simp only [hf, Bool.false_eq_true, if_false, hb', hp, hd]
        · rw [← hb2.1]
          by_cases hc : 0 < l
          · rw [Bool.eq_iff_iff]
            have : l ≠ 0 := by omega
            simp only [Slice.dangles, bne_iff_ne, ne_eq, this, not_false_eq_true, Bool.and_eq_true, true_and, hc,
              decide_true]
            exact hmov.symm
          · have : l = 0 := by omega
            simp [Slice.dangles, this]
        · rw [← hb2.2, hcap]
      | false =>
        have hf : f x = true := by simpa using hf
        have hL' : lookL f lab = L := by
          rw [lookL, lookT] at hL
          simp only [hf, if_true, List.cons_append, List.nil_append, List.cons.injEq] at hL
          exact hL.2
        have hcnt : ∃ pr, Pipe.count (Pipe.adjust d s.1.pruned s.1.current).1 (Pipe.adjust d s.1.pruned s.1.current).2 =
            .ok pr ∧ pr.length = d := by
          have : ∃ pr, Pipe.count (Pipe.adjust d s.1.pruned s.1.current).1 (Pipe.adjust d s.1.pruned s.1.current).2 =
              .ok pr := by
            rw [Pipe.count]
            split
            · split
              · next hn => rw [List.getElem?_eq_none_iff] at hn; omega
              · exact ⟨_, rfl⟩
            · exact ⟨_, rfl⟩
          obtain ⟨pr, hpr⟩ := this
          exact ⟨pr, hpr, by rw [Pipe.count_length hpr, hadj.1]⟩
        obtain ⟨pr, hpr, hlen⟩ := hcnt
        have step : pruneNext M grow (fun w _ x => (w, f x)) s w = pruneNext M grow (fun w _ x => (w, f x))
            (⟨M.prune s1, pr, (Pipe.adjust d s.1.pruned s.1.current).2⟩,
              if s.2.cap < d then ⟨s.2.id + 1, grow s.2.cap⟩ else s.2) w := by
          conv_lhs => rw [pruneNext]
          split
          · next h4 => rw [h1] at h4; cases h4
          · next h4 => rw [h1] at h4; cases h4
          · next h4 =>
            rw [h1] at h4
            cases h4
            simp only [hf, if_true, hb', hp, hd, hpr]
        have := ih (⟨M.prune s1, pr, (Pipe.adjust d s.1.pruned s.1.current).2⟩,
          if s.2.cap < d then ⟨s.2.id + 1, grow s.2.cap⟩ else s.2) p lab d d (m || decide (s.2.cap < d)) h3 hL'
          ⟨hlen, hadj.2, hroom⟩ hst.2 (Nat.le_succ d) hid hmov
        refine ⟨?_, ?_⟩
        · intro h
          rw [step]
          exact this.none (by rw [ownMoves] at h; simp only [hcap]; exact h)
        · intro b bs h
          rw [step]
          exact this.some b bs (by rw [ownMoves] at h; simp only [hcap]; exact h)

/-- The slices of the calls, from any moment on. -/
theorem prune_walk {M : BufPipe S V σ} {R : S → List Nat → List (Lab V) → Prop} (hM : Enum M.toPipe (idVisitor σ V) R)
    (f : V → Bool) {grow : Nat → Nat} (hg : ∀ c, c < grow c) (g : σ → Slice → V → σ) (bs : List Bool) :
    ∀ (s : Pipe.PruneState S × Buf) (a : List Nat) (lab : List (Lab V)) (d : Nat) (w : σ), R s.1.inner a lab →
      Holds s d → WalkSteps (d + 1) (lookL f lab) → ownMoves grow s.2.cap d false (lookL f lab) = bs →
      Spied.Gives ((M.prunePath grow fun w _ x => (w, f x)).mapPath g) (s, w) bs := by
  have ended : ∀ (k : Nat) (s : Pipe.PruneState S × Buf) (a : List Nat) (w : σ), R s.1.inner a [] →
      nthCallE ((M.prunePath grow fun w _ x => (w, f x)).mapPath g) k (s, w) = .ok none := by
    intro k
    have one : ∀ (s : Pipe.PruneState S × Buf) (a : List Nat) (w : σ), R s.1.inner a [] → ∃ s' a',
        (M.prunePath grow fun w _ x => (w, f x)).mapPath g (s, w) = .ok (none, (s', w)) ∧ R s'.1.inner a' [] := by
      intro s a w h
      obtain ⟨s', a', h1, h2⟩ := hM.next_none (w := w) (a' := a) (w' := w) h (by rw [visitNext])
      refine ⟨(⟨s', [], []⟩, s.2.release), a', ?_, h2⟩
      have : pruneNext M.toPipe grow (fun w _ x => (w, f x)) s w = .ok (none, (⟨s', [], []⟩, s.2.release), w) := by
        rw [pruneNext]
        split
        · next h3 => rw [h1] at h3; cases h3
        · next h3 => rw [h1] at h3; cases h3; rfl
        · next h3 => rw [h1] at h3; cases h3
      simp only [mapPath, prunePath, this]
    induction k with
    | zero =>
      intro s a w h
      obtain ⟨s', a', h1, -⟩ := one s a w h
      exact nthCallE_ok_zero h1
    | succ k ih =>
      intro s a w h
      obtain ⟨s', a', h1, h2⟩ := one s a w h
      rw [nthCallE_ok_succ h1]
      exact ih s' a' w h2
  induction bs with
  | nil =>
    intro s a lab d w hR hh hst hb
    refine .nil fun k => ?_
    obtain ⟨s', h1, a', h2⟩ := (call hM f hg w s.2.id d _ s a lab d (d + 1) false hR rfl hh hst (Nat.le_refl _)
      (Nat.le_refl _) (by simp)).none hb
    have h3 : (M.prunePath grow fun w _ x => (w, f x)).mapPath g (s, w) = .ok (none, (s', w)) := by
      simp only [mapPath, prunePath, h1]
    cases k with
    | zero => exact nthCallE_ok_zero h3
    | succ k => rw [nthCallE_ok_succ h3]; exact ended k s' a' w h2
  | cons b bs ih =>
    intro s a lab d w hR hh hst hb
    obtain ⟨x, s', d', rest, a', lab', h1, h2, h3, h4, h5, h6, h7⟩ :=
      (call hM f hg w s.2.id d _ s a lab d (d + 1) false hR rfl hh hst (Nat.le_refl _) (Nat.le_refl _) (by simp)).some b bs hb
    subst h3
    have := ih s' a' lab' d' (g w ⟨s.2.id, d, s'.2.id⟩ x) h2 h4 h5 h7.symm
    refine (Spied.Gives.cons (x := ⟨s.2.id, d, s'.2.id⟩) ?_ this).eq (by rw [h6])
    simp only [mapPath, prunePath, h1, hh.current]

end BufPipe

/-- The visits of the source with its vector. -/
theorem Proj.enum {S T : Type u} {V : Type v} {σ : Type w} {M : Pipe S V σ} {M' : Pipe T V σ} {π : S → T} (h : Proj M M' π)
    {R : T → List Nat → List (Lab V) → Prop} (hM : Enum M' (idVisitor σ V) R) :
    Enum M (idVisitor σ V) (fun s => R (π s)) where
  path hs := by rw [← h.path]; exact hM.path hs
  next_none := by
    intro s a l w a' w' hR hv
    obtain ⟨s'', a'', h1, h2⟩ := hM.next_none hR hv
    rw [h.next] at h1
    split at h1
    · cases h1
    · next o s1 w1 h3 =>
      cases h1
      exact ⟨s1, a'', h3, h2⟩
  next_some := by
    intro s a l w y cs rest a' w' hR hv
    obtain ⟨s'', h1, h2, h4⟩ := hM.next_some hR hv
    rw [h.next] at h1
    split at h1
    · cases h1
    · next o s1 w1 h3 =>
      cases h1
      exact ⟨s1, h3, h2, by rw [← h.prune]; exact h4⟩

end TreeIter
