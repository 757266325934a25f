import Verif.Spec.FailAfter
import Verif.Model.Fail
import Verif.Lemmas.Preorder
import Verif.Lemmas.BfsCtx

/-! # Lemmas for the iterators that lose ancestors when the user's code panics -/

universe u v

namespace TreeIter

variable {N : Type u} {V : Type v}

namespace Fail

/-- The reply a call makes of the ancestors it finds. -/
def lossyReply : Option (List V) → Option (Option (List V))
  | none => some none
  | some [] => none
  | some (a :: as) => some (some (a :: as))

/-- Outputs that are described by a list of entries, of which some are answered by `None`. -/
theorem nthCall_lossy {S : Type u} {next : S → Option (Option (List V)) × S} (Inv : S → Prop)
    (rem : S → List (Option (List V)))
    (hnext : ∀ s, Inv s → (next s).1 = (rem s).head?.bind lossyReply ∧ rem (next s).2 = (rem s).tail ∧ Inv (next s).2)
    {s : S} (hs : Inv s) (k : Nat) : nthCall next k s = lossyAnswer (rem s) k := by
  have key : Inv (stateAfter next k s) ∧ rem (stateAfter next k s) = (rem s).drop k := by
    induction k generalizing s with
    | zero => exact ⟨hs, by simp [stateAfter]⟩
    | succ n ih =>
      obtain ⟨_, h2, h3⟩ := hnext s hs
      obtain ⟨i1, i2⟩ := ih h3
      exact ⟨i1, by rw [stateAfter, i2, h2, List.drop_tail]⟩
  rw [nthCall, (hnext _ key.1).1, key.2, List.head?_drop, lossyAnswer]
  cases (rem s)[k]? with
  | none => rfl
  | some e => cases e with
    | none => rfl
    | some l => cases l <;> rfl

/-! ## Postorder with ancestors -/

/-- The entries still to come. -/
def lossyPostS [TreeNode N V] (bad : N → Bool) (anc : List V) : List (List N) → List (Option (List V))
  | [] => []
  | f :: rest => (Tree.lossyPostL bad anc (f.map unfold)).1 ++
      some (Tree.lossyPostL bad anc (f.map unfold)).2 ::
        lossyPostS bad (Tree.lossyPostL bad anc (f.map unfold)).2.dropLast rest

/-- `none` after a panic, the ancestors otherwise. -/
def lossyEntry (boom : Bool) (items : List V) : Option (List V) := if boom then none else some items.reverse

theorem postAncLoop_lossy [TreeNode N V] (bad : N → Bool) (st : List (List N)) (items : List V)
    (hl : items.length ≤ st.length) :
    (st ≠ [] → lossyPostS bad items.reverse st =
        lossyEntry (postAncLoop bad st items).1 (postAncLoop bad st items).2.1 ::
          lossyPostS bad (postAncLoop bad st items).2.1.tail.reverse (postAncLoop bad st items).2.2) ∧
      (st = [] → postAncLoop bad st items = (false, [], [])) ∧
      (postAncLoop bad st items).2.1.tail.length ≤ (postAncLoop bad st items).2.2.length := by
  fun_induction postAncLoop bad st items with
  | case1 items =>
    obtain rfl : items = [] := List.length_eq_zero_iff.1 (by simpa using hl)
    simp
  | case2 rest items =>
    simp [lossyPostS, lossyEntry, Tree.lossyPostL]
    simp only [List.length_cons] at hl; omega
  | case3 n ns rest items h =>
    refine ⟨fun _ => ?_, by simp, by simp only [List.length_tail, List.length_cons] at *; omega⟩
    rw [lossyPostS, List.map_cons, Tree.lossyPostL, unfold_eq, Tree.lossyPost]
    simp [h, lossyEntry, lossyPostS]
  | case4 n ns rest items h ih =>
    obtain ⟨i1, _, i3⟩ := ih (by simp only [List.length_cons] at *; omega)
    refine ⟨fun _ => ?_, by simp, i3⟩
    rw [← i1 (by simp), lossyPostS, List.map_cons, Tree.lossyPostL, unfold_eq n, Tree.lossyPost]
    simp [h, lossyPostS]

/-- The entries still to come in a state. -/
def lossyPostRem [TreeNode N V] (bad : N → Bool) (s : Postorder.AncState N V) : List (Option (List V)) :=
  match s.root with
  | some r => ((unfold r).lossyPost bad []).1
  | none => lossyPostS bad s.items.tail.reverse s.stack

/-- Reachable states. -/
def LossyPostInv (s : Postorder.AncState N V) : Prop :=
  match s.root with
  | some _ => s.items = [] ∧ s.stack = []
  | none => s.items.tail.length ≤ s.stack.length

theorem lossyReply_entry (boom : Bool) (items : List V) :
    (match boom with
      | true => some none
      | false => (if items.length > 0 then some items.reverse else none).map some) =
      lossyReply (lossyEntry boom items) := by
  cases boom with
  | true => rfl
  | false =>
    cases h : items.reverse with
    | nil =>
      obtain rfl : items = [] := by simpa using h
      rfl
    | cons a as =>
      have : items.length > 0 := by
        rw [← List.length_reverse, h]; simp
      simp [lossyEntry, h, this, lossyReply]

theorem lossyPostS_nil [TreeNode N V] (bad : N → Bool) (anc : List V) :
    lossyPostS bad anc ([] : List (List N)) = [] := rfl

theorem postAncNext_lossy [TreeNode N V] (bad : N → Bool) (s : Postorder.AncState N V) (h : LossyPostInv s) :
    (postAncNext bad s).1 = (lossyPostRem bad s).head?.bind lossyReply ∧
      lossyPostRem bad (postAncNext bad s).2 = (lossyPostRem bad s).tail ∧ LossyPostInv (postAncNext bad s).2 := by
  obtain ⟨root, items, stack⟩ := s
  cases root with
  | some r =>
    obtain ⟨rfl, rfl⟩ : items = [] ∧ stack = [] := h
    by_cases hb : bad r
    · simp [postAncNext, streamNext, postAncAdvance, hb, lossyPostRem, LossyPostInv, unfold_eq r, Tree.lossyPost,
        lossyReply, lossyPostS]
    · obtain ⟨h1, -, h3⟩ := postAncLoop_lossy bad [kids r] [val r] (by simp)
      have e : lossyPostRem bad ⟨some r, [], []⟩ = lossyPostS bad [val r] [kids r] := by
        simp [lossyPostRem, unfold_eq r, Tree.lossyPost, hb, lossyPostS]
      rw [e]
      replace h1 := h1 (by simp)
      rw [List.reverse_singleton] at h1
      rw [h1]
      have ea : postAncAdvance bad ⟨some r, [], []⟩ = ((postAncLoop bad [kids r] [val r]).1,
        ⟨none, (postAncLoop bad [kids r] [val r]).2.1, (postAncLoop bad [kids r] [val r]).2.2⟩) := by
          simp [postAncAdvance, hb]
      rw [postAncNext, streamNext, ea]
      generalize postAncLoop bad [kids r] [val r] = x at *
      obtain ⟨b, it, st⟩ := x
      refine ⟨?_, ?_, ?_⟩
      · rw [List.head?_cons, Option.bind_some, ← lossyReply_entry]
        cases b <;> rfl
      · cases b <;> rfl
      · cases b <;> exact h3
  | none =>
    have hl : items.tail.length ≤ stack.length := h
    obtain ⟨h1, h2, h3⟩ := postAncLoop_lossy bad stack items.tail hl
    have ea : postAncAdvance bad ⟨none, items, stack⟩ = ((postAncLoop bad stack items.tail).1,
        ⟨none, (postAncLoop bad stack items.tail).2.1, (postAncLoop bad stack items.tail).2.2⟩) := rfl
    rw [postAncNext, streamNext, ea]
    have e : lossyPostRem bad ⟨none, items, stack⟩ = lossyPostS bad items.tail.reverse stack := rfl
    rw [e]
    by_cases hs : stack = []
    · subst hs
      rw [h2 rfl]
      exact ⟨rfl, rfl, Nat.le_refl 0⟩
    · rw [h1 hs]
      generalize postAncLoop bad stack items.tail = x at *
      obtain ⟨b, it, st⟩ := x
      refine ⟨?_, ?_, ?_⟩
      · rw [List.head?_cons, Option.bind_some, ← lossyReply_entry]
        cases b <;> rfl
      · cases b <;> rfl
      · cases b <;> exact h3

/-! ## Leaves with ancestors -/

/-- What follows a node with children. -/
def closeLeaves (anc : List V) : List (Option (List V)) := if anc.isEmpty then [some []] else []

/-- The entries still to come. -/
def lossyLvS [TreeNode N V] (bad : N → Bool) (anc : List V) : List (List N) → List (Option (List V))
  | [] => []
  | f :: rest => (Tree.lossyLeavesL bad anc (f.map unfold)).1 ++
      closeLeaves (Tree.lossyLeavesL bad anc (f.map unfold)).2.dropLast ++
        lossyLvS bad (Tree.lossyLeavesL bad anc (f.map unfold)).2.dropLast rest

/-- The entries still to come when the topmost children are those of a node that has just been entered. -/
def lossyLvP [TreeNode N V] (bad : N → Bool) (anc : List V) : List (List N) → List (Option (List V))
  | [] :: rest => some anc :: lossyLvS bad anc.dropLast rest
  | st => lossyLvS bad anc st

theorem lossyLeaves_unfold [TreeNode N V] (bad : N → Bool) (anc : List V) (n : N) :
    (unfold n).lossyLeaves bad anc =
      if bad n then ([none], anc.dropLast)
      else if (kids n).isEmpty then ([some (anc ++ [val n])], anc)
      else
        ((Tree.lossyLeavesL bad (anc ++ [val n]) ((kids n).map unfold)).1 ++
            closeLeaves (Tree.lossyLeavesL bad (anc ++ [val n]) ((kids n).map unfold)).2.dropLast,
          (Tree.lossyLeavesL bad (anc ++ [val n]) ((kids n).map unfold)).2.dropLast) := by
  rw [unfold_eq]
  cases h : kids n with
  | nil => simp [Tree.lossyLeaves]
  | cons c cs => simp [Tree.lossyLeaves, closeLeaves]

theorem lossyLvS_cons [TreeNode N V] (bad : N → Bool) (anc : List V) (n : N) (ns : List N) (rest : List (List N))
    (h : bad n = false) :
    lossyLvS bad anc ((n :: ns) :: rest) = lossyLvP bad (anc ++ [val n]) (kids n :: ns :: rest) := by
  rw [lossyLvS, List.map_cons, Tree.lossyLeavesL, lossyLeaves_unfold, h]
  cases hk : kids n with
  | nil => simp [lossyLvP, lossyLvS]
  | cons c cs => simp [lossyLvP, lossyLvS]

theorem leavesAncLoop_lossy [TreeNode N V] (bad : N → Bool) (old st : List (List N)) (items : List V) (pushed : Bool)
    (ho : old = []) (hl : items.length ≤ st.length) :
    (st ≠ [] → (if pushed then lossyLvP bad items.reverse st else lossyLvS bad items.reverse st) =
        lossyEntry (leavesAncLoop bad old st items pushed).1 (leavesAncLoop bad old st items pushed).2.items ::
          lossyLvS bad (leavesAncLoop bad old st items pushed).2.items.tail.reverse
            (leavesAncLoop bad old st items pushed).2.new) ∧
      (st = [] → leavesAncLoop bad old st items pushed = (false, ⟨none, [], [], []⟩)) ∧
      (leavesAncLoop bad old st items pushed).2.root = none ∧ (leavesAncLoop bad old st items pushed).2.old = [] ∧
      (leavesAncLoop bad old st items pushed).2.items.tail.length ≤ (leavesAncLoop bad old st items pushed).2.new.length := by
  fun_induction leavesAncLoop bad old st items pushed with
  | case1 old items pushed n ns new h =>
    subst ho
    have hp : lossyLvP bad items.reverse ((n :: ns) :: new) = lossyLvS bad items.reverse ((n :: ns) :: new) := rfl
    refine ⟨fun _ => ?_, by simp, rfl, rfl, by simp only [List.length_tail, List.length_cons] at *; omega⟩
    rw [hp, ite_self, lossyLvS, List.map_cons, Tree.lossyLeavesL, lossyLeaves_unfold]
    simp [h, lossyEntry, lossyLvS]
  | case2 old items pushed n ns new h ih =>
    obtain ⟨i1, _, i3⟩ := ih ho (by simp only [List.length_cons] at *; omega)
    have hp : lossyLvP bad items.reverse ((n :: ns) :: new) = lossyLvS bad items.reverse ((n :: ns) :: new) := rfl
    refine ⟨fun _ => ?_, by simp, i3⟩
    rw [← i1 (by simp), hp, ite_self, lossyLvS_cons bad _ _ _ _ (by simpa using h)]
    simp
  | case3 old items st hn =>
    subst ho
    cases st with
    | nil =>
      obtain rfl : items = [] := List.length_eq_zero_iff.1 (by simpa using hl)
      simp
    | cons f rest =>
      cases f with
      | cons n ns => exact absurd rfl (hn n ns rest)
      | nil =>
        simp [lossyLvP, lossyEntry]
        simp only [List.length_cons] at hl; omega
  | case4 => simp at ho
  | case5 => simp at ho
  | case6 items pushed st hn hp old _ hi =>
    subst ho
    cases st with
    | nil => simp
    | cons f rest =>
      cases f with
      | cons n ns => exact absurd rfl (hn n ns rest)
      | nil => simp [hp, lossyLvS, lossyEntry, Tree.lossyLeavesL, closeLeaves, hi]
  | case7 items pushed st hn hp old _ i is hi ih =>
    subst ho
    cases st with
    | nil =>
      obtain rfl : items = [] := List.length_eq_zero_iff.1 (by simpa using hl)
      simp at hi
    | cons f rest =>
      cases f with
      | cons n ns => exact absurd rfl (hn n ns rest)
      | nil =>
        have hlen := congrArg List.length hi
        simp only [List.length_tail, List.length_cons] at hlen hl
        obtain ⟨i1, _, i3⟩ := ih rfl (by simp only [List.tail_cons, List.length_cons] at *; omega)
        refine ⟨fun _ => ?_, by simp, i3⟩
        have hr : rest ≠ [] := by rintro rfl; simp at hl; omega
        rw [← i1 (by simpa using hr), ← hi]
        simp [hp, lossyLvS, Tree.lossyLeavesL, closeLeaves, hi]

/-- The entries still to come in a state. -/
def lossyLvRem [TreeNode N V] (bad : N → Bool) (s : Leaves.AncState N V) : List (Option (List V)) :=
  match s.root with
  | some r => ((unfold r).lossyLeaves bad []).1
  | none => lossyLvS bad s.items.tail.reverse s.new

/-- Reachable states. -/
def LossyLvInv (s : Leaves.AncState N V) : Prop :=
  s.old = [] ∧
    match s.root with
    | some _ => s.items = [] ∧ s.new = []
    | none => s.items.tail.length ≤ s.new.length

theorem lossyReply_entry' (boom : Bool) (items : List V) :
    (match boom with
      | true => some none
      | false => (if items.isEmpty then none else some items.reverse).map some) =
      lossyReply (lossyEntry boom items) := by
  rw [← lossyReply_entry]
  cases boom <;> cases items <;> rfl

theorem leavesAncNext_lossy [TreeNode N V] (bad : N → Bool) (s : Leaves.AncState N V) (h : LossyLvInv s) :
    (leavesAncNext bad s).1 = (lossyLvRem bad s).head?.bind lossyReply ∧
      lossyLvRem bad (leavesAncNext bad s).2 = (lossyLvRem bad s).tail ∧ LossyLvInv (leavesAncNext bad s).2 := by
  obtain ⟨root, items, old, stack⟩ := s
  obtain ⟨rfl, h⟩ : old = [] ∧ _ := h
  cases root with
  | some r =>
    obtain ⟨rfl, rfl⟩ : items = [] ∧ stack = [] := h
    by_cases hb : bad r
    · simp [leavesAncNext, streamNext, leavesAncAdvance, hb, lossyLvRem, LossyLvInv, lossyLeaves_unfold,
        lossyReply, lossyLvS]
    · obtain ⟨h1, -, h2, h3, h4⟩ := leavesAncLoop_lossy bad [] [kids r] [val r] true rfl (by simp)
      have e : lossyLvRem bad ⟨some r, [], [], []⟩ = lossyLvP bad [val r] [kids r] := by
        change ((unfold r).lossyLeaves bad []).1 = _
        rw [lossyLeaves_unfold]
        cases hk : kids r <;> simp [hb, lossyLvS, lossyLvP]
      rw [e]
      replace h1 := h1 (by simp)
      rw [List.reverse_singleton, if_pos rfl] at h1
      rw [h1]
      have ea : leavesAncAdvance bad ⟨some r, [], [], []⟩ = leavesAncLoop bad [] [kids r] [val r] true := by
        simp [leavesAncAdvance, hb]
      rw [leavesAncNext, streamNext, ea]
      generalize leavesAncLoop bad [] [kids r] [val r] true = x at *
      obtain ⟨b, ro, it, od, st⟩ := x
      obtain rfl : ro = none := h2
      obtain rfl : od = [] := h3
      refine ⟨?_, ?_, ?_⟩
      · rw [List.head?_cons, Option.bind_some, ← lossyReply_entry']
        cases b <;> rfl
      · cases b <;> rfl
      · cases b <;> exact ⟨rfl, h4⟩
  | none =>
    have hl : items.tail.length ≤ stack.length := h
    obtain ⟨h1, h5, h2, h3, h4⟩ := leavesAncLoop_lossy bad [] stack items.tail false rfl hl
    have ea : leavesAncAdvance bad ⟨none, items, [], stack⟩ = leavesAncLoop bad [] stack items.tail false := rfl
    rw [leavesAncNext, streamNext, ea]
    have e : lossyLvRem bad ⟨none, items, [], stack⟩ = lossyLvS bad items.tail.reverse stack := rfl
    rw [e]
    by_cases hs : stack = []
    · subst hs
      rw [h5 rfl]
      exact ⟨rfl, rfl, rfl, Nat.le_refl 0⟩
    · replace h1 := h1 hs
      rw [if_neg (by simp)] at h1
      rw [h1]
      generalize leavesAncLoop bad [] stack items.tail false = x at *
      obtain ⟨b, ro, it, od, st⟩ := x
      obtain rfl : ro = none := h2
      obtain rfl : od = [] := h3
      refine ⟨?_, ?_, ?_⟩
      · rw [List.head?_cons, Option.bind_some, ← lossyReply_entry']
        cases b <;> rfl
      · cases b <;> rfl
      · cases b <;> exact ⟨rfl, h4⟩

end Fail

end TreeIter
