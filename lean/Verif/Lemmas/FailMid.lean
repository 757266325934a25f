import Verif.Lemmas.Fail
import Verif.Lemmas.LeavesMid

/-! # Lemmas for leaves with ancestors, taken in the middle of a traversal in which the user's code panics -/

universe u v

namespace TreeIter

variable {N : Type u} {V : Type v}

namespace Fail

/-- The replies for the leaves below the nodes of a stack. -/
def stackLeaves [TreeNode N V] (bad : N → Bool) (st : List (List N)) : List (Option V) :=
  st.flatten.flatMap fun n => (repT bad n).leaves

theorem stackLeaves_cons [TreeNode N V] (bad : N → Bool) (ns : List N) (st : List (List N)) :
    stackLeaves (V := V) bad (ns :: st) = (ns.flatMap fun n => (repT bad n).leaves) ++ stackLeaves bad st := by
  simp [stackLeaves]

theorem repT_leaves [TreeNode N V] (bad : N → Bool) (n : N) :
    (repT (V := V) bad n).leaves = if bad n then [none] else
      if kids n = [] then [some (val n)] else (kids n).flatMap fun c => (repT bad c).leaves := by
  rw [repT_eq]
  split
  · rw [Tree.leaves_node]; rfl
  · rw [Tree.leaves_node, List.flatMap_map]; simp

/-- The replies for the leaves below the pending nodes. -/
def ancPendF [TreeNode N V] (bad : N → Bool) (s : Leaves.AncState N V) : List (Option V) :=
  (match s.root with | some r => (repT bad r).leaves | none => []) ++ stackLeaves bad s.new ++ stackLeaves bad s.old

/-- The reply of a call. -/
def ancReply (x : Bool × Leaves.AncState N V) : Option (Option (List V)) :=
  if x.1 then some none else (Leaves.ancGet x.2).map some

theorem ancLoopF_true [TreeNode N V] (bad : N → Bool) (old new : List (List N)) (ns : List N) (v : V) (items : List V) :
    ∃ y, ancReply (leavesAncLoop bad old (ns :: new) (v :: items) true) = some y ∧
      (leavesAncLoop bad old (ns :: new) (v :: items) true).2.root = none ∧
      (y.bind List.getLast? :: ancPendF bad (leavesAncLoop bad old (ns :: new) (v :: items) true).2).Perm
        ((if ns = [] then [some v] else ns.flatMap fun n => (repT bad n).leaves) ++ stackLeaves bad new ++ stackLeaves bad old) := by
  cases ns with
  | nil =>
    have e : leavesAncLoop bad old ([] :: new) (v :: items) true = (false, ⟨none, v :: items, old, new⟩) := by
      rw [leavesAncLoop.eq_def]; simp
    rw [e]
    exact ⟨some (v :: items).reverse, by simp [ancReply, Leaves.ancGet], rfl, by simp [ancPendF]⟩
  | cons n ns =>
    by_cases hb : bad n
    · have e : leavesAncLoop bad old ((n :: ns) :: new) (v :: items) true = (true, ⟨none, v :: items, old, ns :: new⟩) := by
        rw [leavesAncLoop.eq_def]; simp [hb]
      rw [e]
      refine ⟨none, rfl, rfl, ?_⟩
      have : (repT (V := V) bad n).leaves = [none] := by rw [repT_leaves, if_pos hb]
      simp [ancPendF, stackLeaves_cons, this]
    · have e : leavesAncLoop bad old ((n :: ns) :: new) (v :: items) true =
          leavesAncLoop bad old (kids n :: ns :: new) (val n :: v :: items) true := by
        conv_lhs => rw [leavesAncLoop.eq_def]
        simp [hb]
      have := ancLoopF_true bad old (ns :: new) (kids n) (val n) (v :: items)
      rw [← e] at this
      obtain ⟨y, h1, h2, h3⟩ := this
      refine ⟨y, h1, h2, h3.trans ?_⟩
      have := repT_leaves (V := V) bad n
      cases hk : kids n <;> simp_all [stackLeaves_cons]
termination_by stackNodes (ns :: new)
decreasing_by
  have hs := size_unfold n
  simp only [stackNodes, List.map_cons, List.sum_cons]
  omega

/-- What one call does: it replies for a pending leaf, or answers `None`, and then pending iterators have been dropped unless nothing
is pending. -/
def ProgressF [TreeNode N V] (bad : N → Bool) (pend : List (Option V)) (len : Nat) (x : Bool × Leaves.AncState N V) : Prop :=
  x.2.root = none ∧
  ((∃ y, ancReply x = some y ∧ (y.bind List.getLast? :: ancPendF bad x.2).Perm pend) ∨
    (ancReply x = none ∧ (ancPendF bad x.2).Perm pend ∧ (pend = [] ∨ x.2.old.length + x.2.new.length < len)))

theorem progressF_true [TreeNode N V] (bad : N → Bool) (old new : List (List N)) (n : N) (hb : bad n = false) (items : List V)
    (len : Nat) (pend : List (Option V)) (h : ((repT bad n).leaves ++ stackLeaves bad new ++ stackLeaves bad old).Perm pend) :
    ProgressF bad pend len (leavesAncLoop bad old (kids n :: new) (val n :: items) true) := by
  obtain ⟨y, h1, h2, h3⟩ := ancLoopF_true bad old new (kids n) (val n) items
  have := repT_leaves (V := V) bad n
  rw [hb] at this
  simp only [Bool.false_eq_true, if_false] at this
  rw [← this] at h3
  exact ⟨h2, .inl ⟨y, h1, h3.trans h⟩⟩

/-- A panic at a pending node. -/
theorem progressF_bad [TreeNode N V] (bad : N → Bool) (old new : List (List N)) (n : N) (hb : bad n = true) (items : List V)
    (len : Nat) (pend : List (Option V)) (h : ((repT bad n).leaves ++ stackLeaves bad new ++ stackLeaves bad old).Perm pend) :
    ProgressF bad pend len (true, (⟨none, items, old, new⟩ : Leaves.AncState N V)) := by
  refine ⟨rfl, .inl ⟨none, rfl, ?_⟩⟩
  rw [repT_leaves, if_pos hb] at h
  simpa [ancPendF] using h

theorem ProgressF.mono [TreeNode N V] {bad : N → Bool} {pend : List (Option V)} {len len' : Nat} {x : Bool × Leaves.AncState N V}
    (h : ProgressF bad pend len x) (hl : len ≤ len') : ProgressF bad pend len' x := by
  obtain ⟨h0, h | ⟨h1, h2, h3⟩⟩ := h
  · exact ⟨h0, .inl h⟩
  · refine ⟨h0, .inr ⟨h1, h2, ?_⟩⟩
    rcases h3 with h3 | h3
    · exact .inl h3
    · exact .inr (by omega)

theorem ancLoopF_false [TreeNode N V] (bad : N → Bool) (items : List V) (old new : List (List N)) :
    ProgressF bad (stackLeaves bad new ++ stackLeaves bad old) (old.length + new.length)
      (leavesAncLoop bad old new items false) := by
  by_cases hnew : ∃ n ns st, new = (n :: ns) :: st
  · obtain ⟨n, ns, st, rfl⟩ := hnew
    rw [leavesAncLoop.eq_def]
    by_cases hb : bad n
    · simp only [hb, if_true]
      exact progressF_bad bad old (ns :: st) n hb _ _ _ (by simp [stackLeaves_cons])
    · simp only [hb, Bool.false_eq_true, if_false]
      exact progressF_true bad old (ns :: st) n (by simpa using hb) _ _ _ (by simp [stackLeaves_cons])
  · have hn : stackLeaves (V := V) bad new = stackLeaves bad new.tail := by
      cases new with
      | nil => rfl
      | cons a st =>
        cases a with
        | nil => simp [stackLeaves]
        | cons n ns => exact absurd ⟨n, ns, st, rfl⟩ hnew
    by_cases hold : ∃ n ns st, old = (n :: ns) :: st
    · obtain ⟨n, ns, st, rfl⟩ := hold
      have hp : ((repT (V := V) bad n).leaves ++ stackLeaves bad new.tail ++ stackLeaves bad (ns :: st)).Perm
          (stackLeaves bad new ++ stackLeaves bad ((n :: ns) :: st)) := by
        rw [hn, stackLeaves_cons, stackLeaves_cons, List.flatMap_cons]
        have : ∀ a b c d : List (Option V), (a ++ b ++ (c ++ d)).Perm (b ++ (a ++ c ++ d)) := by
          intro a b c d
          simp only [List.append_assoc]
          exact (List.perm_append_comm_assoc a b (c ++ d))
        exact this _ _ _ _
      rw [leavesAncLoop]
      · simp only [Bool.false_eq_true, ↓reduceIte]
        by_cases hb : bad n
        · simp only [hb, if_true]
          exact progressF_bad bad (ns :: st) new.tail n hb _ _ _ hp
        · simp only [hb, Bool.false_eq_true, if_false]
          exact progressF_true bad (ns :: st) new.tail n (by simpa using hb) _ _ _ hp
      · intro a b c h
        exact hnew ⟨a, b, c, h⟩
    · have ho : stackLeaves (V := V) bad old = stackLeaves bad old.tail := by
        cases old with
        | nil => rfl
        | cons a st =>
          cases a with
          | nil => simp [stackLeaves]
          | cons n ns => exact absurd ⟨n, ns, st, rfl⟩ hold
      rw [leavesAncLoop]
      · simp only [Bool.false_eq_true, ↓reduceIte]
        have hcase : (stackLeaves bad new ++ stackLeaves bad old : List (Option V)) = [] ∨
            old.tail.length + new.tail.length < old.length + new.length := by
          cases old <;> cases new <;> (simp [stackLeaves]; try omega)
        rw [hn, ho] at hcase ⊢
        split
        · refine ⟨rfl, .inr ⟨rfl, by simp [ancPendF], hcase⟩⟩
        · next i is hi =>
          refine (ancLoopF_false bad (i :: is) old.tail new.tail).mono ?_
          simp only [List.length_tail]
          omega
      · intro a b c h
        exact hnew ⟨a, b, c, h⟩
      · intro a b c h
        exact hold ⟨a, b, c, h⟩
termination_by items.length
decreasing_by
  rename_i hi
  have := congrArg List.length hi
  simp only [List.length_tail, List.length_cons] at this ⊢
  omega

theorem leavesAncNext_eq [TreeNode N V] (bad : N → Bool) (s : Leaves.AncState N V) :
    leavesAncNext bad s = (ancReply (leavesAncAdvance bad s), (leavesAncAdvance bad s).2) := by
  rw [leavesAncNext, streamNext]
  rcases leavesAncAdvance bad s with ⟨_ | _, s'⟩ <;> rfl

theorem leavesAncNext_progress [TreeNode N V] (bad : N → Bool) (s : Leaves.AncState N V)
    (h : s.root ≠ none → s.old = [] ∧ s.new = []) :
    ProgressF bad (ancPendF bad s) (s.old.length + s.new.length) (leavesAncAdvance bad s) := by
  obtain ⟨root, items, old, new⟩ := s
  cases root with
  | some r =>
    obtain ⟨h1, h2⟩ := h (by simp)
    simp only at h1 h2
    subst h1 h2
    simp only [leavesAncAdvance]
    by_cases hb : bad r
    · simp only [hb, if_true]
      exact progressF_bad bad [] [] r hb _ _ _ (by simp [ancPendF])
    · simp only [hb, Bool.false_eq_true, if_false]
      exact progressF_true bad [] [] r (by simpa using hb) _ _ _ (by simp [ancPendF])
  | none =>
    have := ancLoopF_false bad items.tail old new
    simpa [ancPendF, leavesAncAdvance] using this

/-- With enough calls, also after `None`, the replies are those for the pending leaves, in some order. -/
theorem leavesAncOuts_perm [TreeNode N V] (bad : N → Bool) (s : Leaves.AncState N V)
    (h : s.root ≠ none → s.old = [] ∧ s.new = []) :
    ∃ m, ∀ j, m ≤ j → ((Leaves.outs (leavesAncNext bad) j s).map (·.bind List.getLast?)).Perm (ancPendF bad s) := by
  have empty : ∀ (j : Nat) (s : Leaves.AncState N V), (s.root ≠ none → s.old = [] ∧ s.new = []) → ancPendF bad s = [] →
      Leaves.outs (leavesAncNext bad) j s = [] := by
    intro j
    induction j with
    | zero => intros; rfl
    | succ j ih =>
      intro s hs h
      obtain ⟨h0, ⟨y, h1, h2⟩ | ⟨h1, h2, h3⟩⟩ := leavesAncNext_progress bad s hs
      · rw [h] at h2
        exact absurd h2.length_eq (by simp)
      · rw [h] at h2
        rw [Leaves.outs, leavesAncNext_eq, h1, ih _ (fun hh => absurd h0 hh) (List.perm_nil.1 h2)]
        rfl
  have main : ∀ (p : Nat) (len : Nat) (s : Leaves.AncState N V), (s.root ≠ none → s.old = [] ∧ s.new = []) →
      (ancPendF bad s).length = p → s.old.length + s.new.length = len →
      ∃ m, ∀ j, m ≤ j → ((Leaves.outs (leavesAncNext bad) j s).map (·.bind List.getLast?)).Perm (ancPendF bad s) := by
    intro p
    induction p using Nat.strongRecOn with
    | ind p ihp =>
      intro len
      induction len using Nat.strongRecOn with
      | ind len ihl =>
        intro s hs h1 h2
        obtain ⟨h0, ⟨y, e, h3⟩ | ⟨e, h3, h4⟩⟩ := leavesAncNext_progress bad s hs
        · obtain ⟨m, hm⟩ := ihp _ (by have := h3.length_eq; simp only [List.length_cons] at this; omega) _
            (leavesAncAdvance bad s).2 (fun hh => absurd h0 hh) rfl rfl
          refine ⟨m + 1, fun j hj => ?_⟩
          obtain ⟨j, rfl⟩ : ∃ i, j = i + 1 := ⟨j - 1, by omega⟩
          rw [Leaves.outs, leavesAncNext_eq, e]
          simp only [Option.toList_some, List.singleton_append, List.map_cons]
          exact ((hm j (by omega)).cons _).trans h3
        · rcases h4 with h4 | h4
          · exact ⟨0, fun j _ => by rw [empty j s hs h4, h4]; exact List.Perm.refl _⟩
          · obtain ⟨m, hm⟩ := ihl _ (h2 ▸ h4) (leavesAncAdvance bad s).2 (fun hh => absurd h0 hh) (h3.length_eq.trans h1) rfl
            refine ⟨m + 1, fun j hj => ?_⟩
            obtain ⟨j, rfl⟩ : ∃ i, j = i + 1 := ⟨j - 1, by omega⟩
            rw [Leaves.outs, leavesAncNext_eq, e]
            simpa using (hm j (by omega)).trans h3
  exact main _ _ s h rfl rfl

end Fail

end TreeIter
