import Verif.Lemmas.Rounds
import Verif.Props.BreadthFirstAnc
import Mathlib.Tactic.Ring

/-!
# The rounds of the breadth-first iterator with ancestors: helper lemmas
-/

universe u v w

namespace TreeIter

variable {N : Type u} {V : Type v}

/-- `y` can be made from `x` with `d` pops and pushes. -/
def Within {α : Type u} (d : Nat) (x y : List α) : Prop :=
  ∃ p q c, x = p ++ c ∧ y = q ++ c ∧ p.length + q.length ≤ d

namespace Within
variable {α : Type u} {x y z : List α} {d e : Nat}

theorem refl (x : List α) (d : Nat) : Within d x x := ⟨[], [], x, rfl, rfl, Nat.zero_le _⟩

theorem push (a : α) (x : List α) : Within 1 x (a :: x) := ⟨[], [a], x, rfl, rfl, Nat.le_refl _⟩

theorem pop (a : α) (x : List α) : Within 1 (a :: x) x := ⟨[a], [], x, rfl, rfl, Nat.le_refl _⟩

theorem mono (h : Within d x y) (hd : d ≤ e) : Within e x y := by
  obtain ⟨p, q, c, h1, h2, h3⟩ := h
  exact ⟨p, q, c, h1, h2, by omega⟩

theorem tail (x : List α) : Within 1 x x.tail := by
  cases x with
  | nil => exact refl _ _
  | cons a x => exact pop a x

theorem trans (h : Within d x y) (h' : Within e y z) : Within (d + e) x z := by
  obtain ⟨p, q, c, rfl, rfl, h3⟩ := h
  obtain ⟨p', q', c', h1, rfl, h3'⟩ := h'
  rcases List.append_eq_append_iff.1 h1 with ⟨a, rfl, rfl⟩ | ⟨a, rfl, rfl⟩
  · refine ⟨p ++ a, q', c', by simp, rfl, ?_⟩
    simp only [List.length_append] at *
    omega
  · refine ⟨p, q' ++ a, c, rfl, by simp, ?_⟩
    simp only [List.length_append] at *
    omega

end Within

theorem commonLen_append {α : Type u} [DecidableEq α] (c a b : List α) :
    c.length + commonLen a b = commonLen (c ++ a) (c ++ b) := by
  induction c with
  | nil => simp
  | cons x c ih => simp only [List.cons_append, commonLen, if_true, List.length_cons]; omega

theorem commonLen_le {α : Type u} [DecidableEq α] (a b : List α) : commonLen a b ≤ a.length ∧ commonLen a b ≤ b.length := by
  fun_induction commonLen a b with
  | case1 as b bs ih => simp; omega
  | case2 a as b bs h => simp
  | case3 => simp

theorem sliceDist_le {α : Type u} [DecidableEq α] {d : Nat} {x y : List α} (h : Within d x y) :
    sliceDist x.reverse y.reverse ≤ d := by
  obtain ⟨p, q, c, rfl, rfl, h3⟩ := h
  have h1 := commonLen_append c.reverse p.reverse q.reverse
  simp only [List.length_reverse] at h1
  simp only [sliceDist, List.reverse_append, ← h1, List.length_append, List.length_reverse]
  omega

namespace Bfs

namespace CacheState
variable {β : Type w}

theorem setTop_items (s : CacheState β) (cs : List (Option (Cache β))) : (s.setTop cs).items = s.items := by
  obtain ⟨i, st, c⟩ := s
  cases st <;> rfl

theorem moveUp_within {s s' : CacheState β} (h : s.moveUp = .ok s') : Within 1 s.items s'.items := by
  unfold moveUp at h
  split at h
  · rename_i v i is t st h1 h2
    split at h <;> cases h <;> rw [h1] <;> exact Within.pop _ _
  · cases h
  · split at h <;> cases h <;> exact Within.refl _ _
  · cases h; exact Within.refl _ _

theorem advanceDfs_within (start fuel : Nat) (s : CacheState β) :
    ∀ s', advanceDfs start fuel s = .ok s' → Within (advanceRounds start fuel s) s.items s'.items := by
  induction fuel generalizing s with
  | zero => intro s' h; cases h
  | succ fuel ih =>
    intro s' h
    rw [advanceDfs] at h
    rw [advanceRounds]
    split at h <;> rename_i ht <;> rw [ht]
    · cases h; exact Within.refl _ _
    · rename_i c rest
      simp only
      split at h
      · cases h
      · rename_i v hv
        simp only [hv]
        by_cases hc : (c.children.isEmpty &&
            decide ((v :: (s.setTop rest).items).length ≥ start)) = true
        · rw [if_pos hc] at h ⊢
          cases h
          simpa [setTop_items] using Within.push v s.items
        · rw [if_neg hc] at h ⊢
          have h1 := ih _ s' h
          have h2 : Within 1 s.items (v :: (s.setTop rest).items) := by
            rw [setTop_items]
            exact Within.push v s.items
          exact (h2.trans h1).mono (by omega)
    · rename_i rest
      simp only
      split at h
      · cases h
      · rename_i s1 h1
        simp only [h1]
        have h2 := moveUp_within h1
        rw [setTop_items] at h2
        exact (h2.trans (ih _ s' h)).mono (by omega)

theorem dropSpent_within (st : List (Cache β)) (items : List β) :
    Within (dropRounds st) items (dropSpent st items).2 := by
  fun_induction dropSpent st items with
  | case1 t st items h => exact Within.refl _ _
  | case2 t st items h ih =>
    rw [dropRounds, if_neg h]
    exact ((Within.tail items).trans ih).mono (by omega)
  | case3 => exact Within.refl _ _

theorem retire_within {s s' : CacheState β} (h : s.retire = .ok s') : Within s.retireRounds s.items s'.items := by
  unfold retire at h
  unfold retireRounds
  by_cases hc : (!s.topChildren.isEmpty) = true
  · simp only [if_pos hc] at h ⊢
    have := advanceDfs_within _ _ _ _ h
    rw [setTop_items] at this
    exact this.mono (by simp [setTop_items])
  · simp only [if_neg hc] at h ⊢
    have h1 := advanceDfs_within _ _ _ _ h
    exact (dropSpent_within s.stack s.items).trans h1

theorem popItem_within {s s' : CacheState β} (h : s.popItem = .ok s') : Within 1 s.items s'.items := by
  unfold popItem at h
  split at h
  · cases h
  · cases h; exact Within.refl _ _
  · rename_i v i is h1
    rw [h1]
    simp only at h
    split at h
    · rename_i his
      cases h
      obtain rfl := List.isEmpty_iff.1 his
      exact Within.pop _ _
    · split at h
      · cases h; exact Within.pop _ _
      · cases h

end CacheState

theorem settle_within {cs cs' : CacheState V} (h : settle cs = .ok cs') : Within 1 cs.items cs'.items := by
  unfold settle at h
  split at h
  · exact CacheState.popItem_within h
  · cases h; exact Within.refl _ _

theorem ancLoop_within [SplitNode N V] (q : List (List N)) (cs : CacheState V) :
    ∀ s', ancLoop q cs = .ok s' → s'.cs.items ≠ [] → Within (ancLoopRounds q cs + 1) cs.items s'.cs.items := by
  induction q generalizing cs with
  | nil =>
    intro s' h
    rw [ancLoop] at h
    split at h <;> cases h
  | cons ns q ih =>
    intro s' h hne
    rw [ancLoop] at h
    rw [ancLoopRounds]
    split at h
    · cases h
    · rename_i cs1 h1
      have w1 := settle_within h1
      simp only [h1]
      cases ns with
      | cons n ns =>
        cases h
        exact w1.trans (Within.push _ _)
      | nil =>
        simp only at h ⊢
        split at h
        · cases h
        · rename_i cs2 h2
          have w2 := CacheState.retire_within h2
          split at h
          · cases h; simp at hne
          · rename_i hq
            have w3 := ih _ s' h hne
            simp only [h2, hq]
            exact ((w1.trans w2).trans w3).mono (by simp; omega)

theorem ancNext_within [SplitNode N V] {s s' : AncState N V} {a : List V} (hr : s.isRoot = false)
    (h : ancNext s = .ok (some a, s')) : Within (ancRounds s + 1) s.cs.items s'.cs.items ∧ a = s'.cs.items.reverse := by
  obtain ⟨r, cs, q⟩ := s
  subst hr
  simp only [ancNext, streamNextE, ancAdvance, Bool.false_eq_true, if_false] at h
  cases hc : ancLoop q cs with
  | error e => simp [hc] at h
  | ok s1 =>
    simp only [hc, Except.ok.injEq, Prod.mk.injEq] at h
    obtain ⟨ha, rfl⟩ := h
    unfold ancGet at ha
    split at ha
    · cases ha
    · rename_i hl
      cases ha
      have := ancLoop_within q cs s1 hc (fun h => hl (by simp [h]))
      exact ⟨by simpa [ancRounds] using this, rfl⟩

theorem ancNext_isRoot [SplitNode N V] {s s' : AncState N V} {o : Option (List V)} (h : ancNext s = .ok (o, s')) :
    s'.isRoot = false := by
  obtain ⟨r, cs, q⟩ := s
  simp only [ancNext, streamNextE, ancAdvance] at h
  cases r with
  | true =>
    simp only [if_true, Except.ok.injEq, Prod.mk.injEq] at h
    obtain ⟨-, rfl⟩ := h
    rfl
  | false =>
    simp only [Bool.false_eq_true, if_false] at h
    cases hc : ancLoop q cs with
    | error e => simp [hc] at h
    | ok s1 =>
      simp only [hc, Except.ok.injEq, Prod.mk.injEq] at h
      obtain ⟨-, rfl⟩ := h
      have key : ∀ (q : List (List N)) (cs : CacheState V) s', ancLoop q cs = .ok s' → s'.isRoot = false := by
        intro q
        induction q with
        | nil =>
          intro cs s' h
          rw [ancLoop] at h
          split at h <;> cases h
        | cons ns q ih =>
          intro cs s' h
          rw [ancLoop] at h
          split at h
          · cases h
          · cases ns with
            | cons n ns => cases h; rfl
            | nil =>
              simp only at h
              split at h
              · cases h
              · split at h
                · cases h; rfl
                · exact ih _ _ h
      exact key q cs s1 hc

/-- The walk from the slice on display over the slices to come costs at least its length. -/
theorem walk_le [SplitNode N V] [DecidableEq V] (l : List (List V)) :
    ∀ s : AncState N V, s.isRoot = false → (∀ k < l.length, nthCallE ancNext k s = .ok l[k]?) →
      walkLength (s.cs.items.reverse :: l) ≤ totalOverE ancNext ancRounds l.length s + l.length := by
  induction l with
  | nil => intro s _ _; simp [walkLength]
  | cons a l ih =>
    intro s hr h
    have h0 := h 0 (by simp)
    cases hn : ancNext s with
    | error e => simp [nthCallE, stateAfterE, hn] at h0
    | ok r =>
      obtain ⟨o, s'⟩ := r
      have ho : o = some a := by simpa [nthCallE, stateAfterE, hn] using h0
      subst ho
      obtain ⟨h1, h2⟩ := ancNext_within hr hn
      have h3 := sliceDist_le h1
      have h4 := ih s' (ancNext_isRoot hn) (fun k hk => by
        have := h (k + 1) (by simpa using hk)
        rw [nthCallE, stateAfterE, hn] at this
        simpa [nthCallE] using this)
      rw [← h2] at h3 h4
      simp only [walkLength, totalOverE, hn, List.length_cons]
      omega

end Bfs

/-! ## Forks -/

theorem walkLength_append {α : Type u} [DecidableEq α] (xs : List (List α)) (y : List α) (zs : List (List α)) :
    walkLength (xs ++ y :: zs) = walkLength (xs ++ [y]) + walkLength (y :: zs) := by
  induction xs with
  | nil => simp [walkLength]
  | cons x xs ih =>
    cases xs with
    | nil => simp [walkLength]
    | cons x' xs =>
      simp only [List.cons_append, walkLength] at ih ⊢
      omega

theorem sliceDist_replicate {a b : Nat} (h : a ≠ b) (i j : Nat) :
    sliceDist (0 :: List.replicate (i + 1) a) (0 :: List.replicate (j + 1) b) = (i + 1) + (j + 1) := by
  simp [sliceDist, commonLen, List.replicate_succ, h]

theorem atDepth_chain (a : Nat) (h : Nat) : ∀ (path : List Nat) (anc : List Nat) (d : Nat),
    (((forkArm a h).withPos path anc).atDepth d).map Pos.ancestors =
      if d ≤ h then [anc ++ List.replicate (d + 1) a] else [] := by
  induction h with
  | zero =>
    intro path anc d
    cases d with
    | zero => simp [forkArm, Tree.withPos, Tree.atDepth]
    | succ d => simp [forkArm, Tree.withPos, Tree.withPosL, Tree.atDepth, Tree.atDepthL]
  | succ h ih =>
    intro path anc d
    cases d with
    | zero => simp [forkArm, Tree.withPos, Tree.atDepth]
    | succ d =>
      simp only [forkArm, Tree.withPos, Tree.withPosL, Tree.atDepth, Tree.atDepthL, List.append_nil, ih]
      simp [List.replicate_succ]

theorem height_chain (a : Nat) (h : Nat) : ∀ path anc : List Nat, ((forkArm a h).withPos path anc).height = h + 1 := by
  induction h with
  | zero => intro path anc; simp [forkArm, Tree.withPos, Tree.withPosL, Tree.height, Tree.heightL]
  | succ h ih =>
    intro path anc
    simp only [forkArm, Tree.withPos, Tree.withPosL, Tree.height, Tree.heightL, ih]
    omega

theorem size_chain (a : Nat) (h : Nat) : (forkArm a h).size = h + 1 := by
  induction h with
  | zero => simp [forkArm, Tree.size, Tree.sizeL]
  | succ h ih => simp only [forkArm, Tree.size, Tree.sizeL, ih]; omega

/-- The slices of a fork. -/
def forkSlices (h : Nat) : List (List Nat) :=
  [0] :: (List.range (h + 1)).flatMap fun d => [0 :: List.replicate (d + 1) 1, 0 :: List.replicate (d + 1) 2]

theorem fork_slices (h : Nat) : (fork h).located.levelOrder.map Pos.ancestors = forkSlices h := by
  have hh : (fork h).located.height = h + 2 := by
    simp only [fork, Tree.located, Tree.withPos, Tree.withPosL, Tree.height, Tree.heightL, height_chain]
    omega
  rw [Tree.levelOrder, hh, List.range_succ_eq_map, List.flatMap_cons, List.map_append, forkSlices]
  rw [List.flatMap_map, List.map_flatMap, List.flatMap_def, List.flatMap_def]
  have h0 : ((fork h).located.atDepth 0).map Pos.ancestors = [[0]] := rfl
  rw [h0, List.singleton_append]
  congr 2
  refine List.map_congr_left fun d hd => ?_
  have hd : d ≤ h := by simp at hd; omega
  simp only [fork, Tree.located, Tree.withPos, Tree.withPosL, Tree.atDepth, Tree.atDepthL, List.map_append, atDepth_chain, hd,
    if_true]
  simp

theorem fork_walk (h : Nat) :
    ∃ xs, forkSlices h = xs ++ [0 :: List.replicate (h + 1) 2] ∧ walkLength (forkSlices h) = (2 * h + 3) * (h + 1) := by
  induction h with
  | zero => exact ⟨[[0], [0, 1]], rfl, by decide⟩
  | succ h ih =>
    obtain ⟨xs, h1, h2⟩ := ih
    have e : forkSlices (h + 1) =
        forkSlices h ++ [0 :: List.replicate (h + 2) 1, 0 :: List.replicate (h + 2) 2] := by
      simp only [forkSlices]
      rw [List.range_succ (n := h + 1), List.flatMap_append]
      simp
    refine ⟨forkSlices h ++ [0 :: List.replicate (h + 2) 1], by rw [e]; simp, ?_⟩
    rw [e, h1, List.append_assoc, List.singleton_append, walkLength_append, ← h1, h2]
    simp only [walkLength, sliceDist_replicate (a := 2) (b := 1) (by decide), sliceDist_replicate (a := 1) (b := 2) (by decide)]
    ring

end TreeIter
