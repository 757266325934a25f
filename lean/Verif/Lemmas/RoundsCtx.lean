import Verif.Model.RoundsCtx
import Verif.Lemmas.RoundsUpper

/-!
# The work of a call, with contexts: helper lemmas
-/

universe u v w

namespace TreeIter

variable {N : Type u} {V : Type v}

/-! ## Slots -/

/-- Three times the nodes that wait in slot iterators, and the slots and the iterators. -/
def slotsDebt [BinNode N V] (st : List (List (Option N))) : Nat :=
  (st.map fun ss => Inorder.slotDebt 3 ss + 1).sum

theorem slotsDebt_nil [BinNode N V] : slotsDebt ([] : List (List (Option N))) = 0 := rfl

theorem slotsDebt_cons [BinNode N V] (ss : List (Option N)) (st : List (List (Option N))) :
    slotsDebt (ss :: st) = Inorder.slotDebt 3 ss + 1 + slotsDebt st := by simp [slotsDebt]

theorem slotsDebt_append [BinNode N V] (a b : List (List (Option N))) : slotsDebt (a ++ b) = slotsDebt a + slotsDebt b := by
  simp [slotsDebt]

theorem slotsDebt_empty [BinNode N V] (st : List (List (Option N))) : slotsDebt ([] :: st) = slotsDebt st + 1 := by
  simp [slotsDebt_cons, Inorder.slotDebt]; omega

theorem slotsDebt_none [BinNode N V] (ss : List (Option N)) (st : List (List (Option N))) :
    slotsDebt ((none :: ss) :: st) = slotsDebt (ss :: st) + 1 := by
  simp only [slotsDebt_cons, Inorder.slotDebt, List.map_cons, List.sum_cons, Inorder.slotSize, Option.map_none, Option.getD_none]
  omega

theorem slotsDebt_slots [BinNode N V] (n : N) (st : List (List (Option N))) :
    slotsDebt (slots n :: st) = 3 * (unfold2 n).size + slotsDebt st := by
  have := Inorder.size_unfold2 n
  simp only [slotsDebt_cons, slots, Inorder.slotDebt, List.map_cons, List.map_nil, List.sum_cons, List.sum_nil]
  omega

theorem slotsDebt_some [BinNode N V] (n : N) (ss : List (Option N)) (st : List (List (Option N))) :
    slotsDebt ((some n :: ss) :: st) = slotsDebt (slots n :: ss :: st) + 1 := by
  rw [slotsDebt_slots]
  simp only [slotsDebt_cons, Inorder.slotDebt, List.map_cons, List.sum_cons, Inorder.slotSize, Option.map_some, Option.getD_some]
  omega

/-- The stock for a root not yet taken. -/
def rootSlots [BinNode N V] : Option N → Nat
  | some n => 3 * (unfold2 n).size
  | none => 0

theorem rootSlots_new [BinNode N V] (n : N) : rootSlots (some n) = 3 * (binTreeOf n).size := by
  rw [rootSlots, binTreeOf, Track.bin_size_map]

theorem slotPolls_le [BinNode N V] (st : List (List (Option N))) : slotPolls st ≤ slotsDebt st := by
  fun_induction slotPolls st with
  | case1 => simp
  | case2 rest ih => rw [slotsDebt_empty]; omega
  | case3 n ss rest => rw [slotsDebt_some]; omega
  | case4 ss rest ih => rw [slotsDebt_none]; omega

namespace Preorder

/-- Stock of `Preorder.binCtxNext`. -/
def binCtxStock [BinNode N V] (s : BinCtxState N V) : Nat :=
  rootSlots s.root + slotsDebt s.stack + ((s.children.map fun cs => slotsDebt [[cs.1, cs.2]]).getD 0)

theorem binCtxLoop_paid [BinNode N V] (st : List (List (Option N))) (path : List Nat) (anc : List V) :
    ∀ r, binCtxLoop st path anc = .ok r → slotPolls st + binCtxStock (binCtxFinish r) = slotsDebt st := by
  fun_induction binCtxLoop st path anc with
  | case1 => intro r h; cases h; simp [binCtxFinish, binCtxStock, rootSlots, slotPolls, slotsDebt_nil]
  | case2 rest path anc ih =>
    intro r h
    have := ih r h
    rw [slotPolls, slotsDebt_empty]; omega
  | case3 n ss rest p path anc =>
    intro r h
    cases h
    rw [slotPolls, slotsDebt_some]
    simp only [binCtxFinish, binCtxStock, rootSlots, Option.map_some, Option.getD_some]
    rw [slotsDebt_cons (slots n), slotsDebt_cons [_, _], slotsDebt_nil, slots]
    omega
  | case4 ss rest p path anc ih =>
    intro r h
    have := ih r h
    rw [slotPolls, slotsDebt_none]; omega
  | case5 => intro r h; cases h

theorem binCtxNext_paid [BinNode N V] (s : BinCtxState N V) :
    binCtxPolls s ≤ binCtxStock s ∧ ∀ o s', binCtxNext s = .ok (o, s') → binCtxPolls s + binCtxStock s' ≤ binCtxStock s := by
  obtain ⟨root, st, path, anc, ch⟩ := s
  cases root with
  | some n =>
    refine ⟨by simp [binCtxPolls], fun o s' h => ?_⟩
    simp only [binCtxNext, streamNextE, binCtxAdvance, Except.ok.injEq, Prod.mk.injEq] at h
    obtain ⟨-, rfl⟩ := h
    have := slotsDebt_slots n ([] : List (List (Option N)))
    rw [slots, slotsDebt_nil] at this
    simp only [binCtxPolls, binCtxStock, rootSlots, Option.map_some, Option.getD_some]
    omega
  | none =>
    by_cases ha : anc.isEmpty
    · refine ⟨by simp [binCtxPolls, ha], fun o s' h => ?_⟩
      simp only [binCtxNext, streamNextE, binCtxAdvance, ha, if_true, Except.ok.injEq, Prod.mk.injEq] at h
      obtain ⟨-, rfl⟩ := h
      simp [binCtxPolls, ha]
    · cases ch with
      | some cs =>
        have h1 : slotsDebt ([cs.1, cs.2] :: st) = slotsDebt [[cs.1, cs.2]] + slotsDebt st :=
          slotsDebt_append [[cs.1, cs.2]] st
        have h2 := slotPolls_le ([cs.1, cs.2] :: st)
        refine ⟨by simp [binCtxPolls, ha, binCtxStock, rootSlots]; omega, fun o s' h => ?_⟩
        simp only [binCtxNext, streamNextE, binCtxAdvance, ha] at h
        cases hc : binCtxLoop ([cs.1, cs.2] :: st) (usizeMax :: path) anc with
        | error e => simp [hc] at h
        | ok r =>
          simp only [hc, Except.ok.injEq, Prod.mk.injEq, Bool.false_eq_true, if_false] at h
          obtain ⟨-, rfl⟩ := h
          have := binCtxLoop_paid _ _ _ r hc
          have e : binCtxPolls (⟨none, st, path, anc, some cs⟩ : BinCtxState N V) = slotPolls ([cs.1, cs.2] :: st) := by
            simp [binCtxPolls, ha]
          have e2 : binCtxStock (⟨none, st, path, anc, some cs⟩ : BinCtxState N V) =
              slotsDebt st + slotsDebt [[cs.1, cs.2]] := by simp [binCtxStock, rootSlots]
          rw [e, e2]
          omega
      | none =>
        have h2 := slotPolls_le st
        refine ⟨by simp [binCtxPolls, ha, binCtxStock, rootSlots]; omega, fun o s' h => ?_⟩
        simp only [binCtxNext, streamNextE, binCtxAdvance, ha] at h
        cases hc : binCtxLoop st (if path.head? = some usizeMax then path.tail else path) anc.tail with
        | error e => simp [hc] at h
        | ok r =>
          simp only [hc, Except.ok.injEq, Prod.mk.injEq, Bool.false_eq_true, if_false] at h
          obtain ⟨-, rfl⟩ := h
          have := binCtxLoop_paid _ _ _ r hc
          have e : binCtxPolls (⟨none, st, path, anc, none⟩ : BinCtxState N V) = slotPolls st := by
            simp [binCtxPolls, ha]
          have e2 : binCtxStock (⟨none, st, path, anc, none⟩ : BinCtxState N V) = slotsDebt st := by
            simp [binCtxStock, rootSlots]
          rw [e, e2]
          omega

end Preorder

namespace Postorder

theorem binLoopPolls_le [BinNode N V] (st : List (List (Option N))) : binLoopPolls st ≤ slotsDebt st := by
  fun_induction binLoopPolls st with
  | case1 => simp
  | case2 rest => rw [slotsDebt_empty]; omega
  | case3 n ss rest ih => rw [slotsDebt_some]; omega
  | case4 ss rest ih => rw [slotsDebt_none]; omega

/-- Stock of `Postorder.binCtxNext`. -/
def binCtxStock [BinNode N V] (s : BinCtxState N V) : Nat := rootSlots s.root + slotsDebt s.stack

/-- Stock of `Postorder.ownBinCtxNext`. -/
def ownBinCtxStock [BinNode N V] (s : OwnBinCtxState N V) : Nat := rootSlots s.root + slotsDebt s.stack

theorem binCtxLoop_paid [BinNode N V] (st : List (List (Option N))) (into : List (Option N × Option N)) (path : List Nat)
    (anc : List V) :
    ∀ s', binCtxLoop st into path anc = .ok s' → binLoopPolls st + binCtxStock s' = slotsDebt st := by
  fun_induction binCtxLoop st into path anc with
  | case1 n ss rest into p path anc ih =>
    intro s' h
    have := ih s' h
    rw [binLoopPolls, slotsDebt_some]; omega
  | case2 ss rest into p path anc ih =>
    intro s' h
    have := ih s' h
    rw [binLoopPolls, slotsDebt_none]; omega
  | case3 => intro s' h; cases h
  | case4 rest c into path anc =>
    intro s' h
    cases h
    rw [binLoopPolls, slotsDebt_empty]; simp [binCtxStock, rootSlots]; omega
  | case5 c into path anc => intro s' h; cases h; simp [binLoopPolls, binCtxStock, rootSlots]
  | case6 => intro s' h; cases h
  | case7 => intro s' h; cases h

theorem ownBinCtxLoop_paid [BinNode N V] (st : List (List (Option N))) (path : List Nat) (anc : List V) :
    ∀ s', ownBinCtxLoop st path anc = .ok s' → binLoopPolls st + ownBinCtxStock s' = slotsDebt st := by
  fun_induction ownBinCtxLoop st path anc with
  | case1 n ss rest p path anc ih =>
    intro s' h
    have := ih s' h
    rw [binLoopPolls, slotsDebt_some]; omega
  | case2 ss rest p path anc ih =>
    intro s' h
    have := ih s' h
    rw [binLoopPolls, slotsDebt_none]; omega
  | case3 => intro s' h; cases h
  | case4 rest path anc =>
    intro s' h
    cases h
    rw [binLoopPolls, slotsDebt_empty]; simp [ownBinCtxStock, rootSlots]; omega
  | case5 path anc => intro s' h; cases h; simp [binLoopPolls, ownBinCtxStock, rootSlots]

theorem binCtxAdvance_paid [BinNode N V] (s : BinCtxState N V) :
    binCtxPolls s ≤ binCtxStock s ∧ ∀ s', binCtxAdvance s = .ok s' → binCtxPolls s + binCtxStock s' ≤ binCtxStock s := by
  obtain ⟨root, st, into, path, anc, ch⟩ := s
  cases root with
  | some n =>
    have h1 := binLoopPolls_le (slots n :: st)
    have h2 := slotsDebt_slots n st
    refine ⟨by simp only [binCtxPolls, binCtxStock, rootSlots]; omega, fun s' h => ?_⟩
    have := binCtxLoop_paid _ _ _ _ s' h
    simp only [binCtxPolls] at this ⊢
    have e : binCtxStock (⟨some n, st, into, path, anc, ch⟩ : BinCtxState N V) = 3 * (unfold2 n).size + slotsDebt st := rfl
    omega
  | none =>
    have h1 := binLoopPolls_le st
    have e : binCtxStock (⟨none, st, into, path, anc, ch⟩ : BinCtxState N V) = slotsDebt st := by simp [binCtxStock, rootSlots]
    by_cases ha : anc.tail.isEmpty
    · refine ⟨by simp [binCtxPolls, ha], fun s' h => ?_⟩
      simp only [binCtxAdvance, ha, if_true, Except.ok.injEq] at h
      subst h
      simp [binCtxPolls, ha, binCtxStock]
    · have e2 : binCtxPolls (⟨none, st, into, path, anc, ch⟩ : BinCtxState N V) = binLoopPolls st := by simp [binCtxPolls, ha]
      refine ⟨by omega, fun s' h => ?_⟩
      simp only [binCtxAdvance, ha, Bool.false_eq_true, if_false] at h
      have := binCtxLoop_paid _ _ _ _ s' h
      omega

theorem binCtxNext_paid [BinNode N V] (s : BinCtxState N V) :
    binCtxPolls s ≤ binCtxStock s ∧ ∀ o s', binCtxNext s = .ok (o, s') → binCtxPolls s + binCtxStock s' ≤ binCtxStock s := by
  refine ⟨(binCtxAdvance_paid s).1, fun o s' h => ?_⟩
  simp only [binCtxNext, streamNextE] at h
  cases hc : binCtxAdvance s with
  | error e => simp [hc] at h
  | ok s1 =>
    simp only [hc, Except.ok.injEq, Prod.mk.injEq] at h
    obtain ⟨-, rfl⟩ := h
    exact (binCtxAdvance_paid s).2 s1 hc

theorem mutBinCtxNext_paid [BinNode N V] (s : BinCtxState N V) :
    binCtxPolls s ≤ binCtxStock s ∧
      ∀ o s', mutBinCtxNext s = .ok (o, s') → binCtxPolls s + binCtxStock s' ≤ binCtxStock s := by
  refine ⟨(binCtxAdvance_paid s).1, fun o s' h => ?_⟩
  simp only [mutBinCtxNext, streamNextE, mutBinCtxAdvance] at h
  cases hc : binCtxAdvance { s with children := none } with
  | error e => simp [hc] at h
  | ok s1 =>
    simp only [hc, Except.ok.injEq, Prod.mk.injEq] at h
    obtain ⟨-, rfl⟩ := h
    exact (binCtxAdvance_paid { s with children := none }).2 s1 hc

theorem ownBinCtxNext_paid [BinNode N V] (s : OwnBinCtxState N V) :
    ownBinCtxPolls s ≤ ownBinCtxStock s ∧
      ∀ o s', ownBinCtxNext s = .ok (o, s') → ownBinCtxPolls s + ownBinCtxStock s' ≤ ownBinCtxStock s := by
  obtain ⟨root, st, path, anc⟩ := s
  have key : ∀ (s : OwnBinCtxState N V) o s', ownBinCtxNext s = .ok (o, s') → ownBinCtxAdvance s = .ok s' := by
    intro s o s' h
    simp only [ownBinCtxNext, streamNextE] at h
    cases hc : ownBinCtxAdvance s with
    | error e => simp [hc] at h
    | ok s1 =>
      simp only [hc, Except.ok.injEq, Prod.mk.injEq] at h
      rw [h.2]
  cases root with
  | some n =>
    have h1 := binLoopPolls_le (slots n :: st)
    have h2 := slotsDebt_slots n st
    refine ⟨by simp only [ownBinCtxPolls, ownBinCtxStock, rootSlots]; omega, fun o s' h => ?_⟩
    have := ownBinCtxLoop_paid _ _ _ s' (key _ _ _ h)
    simp only [ownBinCtxPolls] at this ⊢
    have e : ownBinCtxStock (⟨some n, st, path, anc⟩ : OwnBinCtxState N V) = 3 * (unfold2 n).size + slotsDebt st := rfl
    omega
  | none =>
    have h1 := binLoopPolls_le st
    have e : ownBinCtxStock (⟨none, st, path, anc⟩ : OwnBinCtxState N V) = slotsDebt st := by simp [ownBinCtxStock, rootSlots]
    by_cases ha : anc.tail.isEmpty
    · refine ⟨by simp [ownBinCtxPolls, ha], fun o s' h => ?_⟩
      have h := key _ _ _ h
      simp only [ownBinCtxAdvance, ha, if_true, Except.ok.injEq] at h
      subst h
      simp [ownBinCtxPolls, ha, ownBinCtxStock]
    · have e2 : ownBinCtxPolls (⟨none, st, path, anc⟩ : OwnBinCtxState N V) = binLoopPolls st := by simp [ownBinCtxPolls, ha]
      refine ⟨by omega, fun o s' h => ?_⟩
      have h := key _ _ _ h
      simp only [ownBinCtxAdvance, ha, Bool.false_eq_true, if_false] at h
      have := ownBinCtxLoop_paid _ _ _ s' h
      omega

end Postorder

namespace Inorder

/-- Stock of `Inorder.ownNext`. -/
def ownStock [BinNode N V] (s : OwnCtxState N V) : Nat := slotDebt 3 s.right + s.status.length

/-- Stock of `Inorder.ctxNext`. -/
def ctxStock [BinNode N V] (s : CtxState N V) : Nat := slotDebt 3 s.right + s.status.length

theorem ownFind_paid [BinNode N V] (st : List Status) (anc : List V) (path : List Nat) (right : List (Option N)) :
    ancFindPops st right +
      (match ownFind st anc path right with
        | .inl s => ownStock s
        | .inr (n, s) => 3 * slotSize (some n) + ownStock s) = slotDebt 3 right + st.length := by
  fun_induction ownFind st anc path right with
  | case1 anc path right ss ih => rw [ancFindPops, List.length_cons]; omega
  | case2 => simp [ancFindPops, ownStock]
  | case3 => simp [ancFindPops, ownStock]
  | case4 => simp [ancFindPops, slotDebt, ownStock]; omega
  | case5 ss anc path right ih =>
    have : slotDebt 3 (none :: right) = slotDebt 3 right + 1 := by simp [slotDebt, slotSize]; omega
    rw [ancFindPops]
    simp only [List.length_cons] at ih ⊢
    omega
  | case6 => simp [ancFindPops, ownStock]
  | case7 => simp [ancFindPops, slotDebt, ownStock]; omega
  | case8 anc path right ih =>
    have : slotDebt 3 (none :: right) = slotDebt 3 right + 1 := by simp [slotDebt, slotSize]; omega
    rw [ancFindPops]
    omega

theorem ownDescend_paid [BinNode N V] (cur : Option N) (s : OwnCtxState N V) :
    descendSplits cur + ownStock (ownDescend cur s) = 3 * slotSize cur + ownStock s := by
  fun_induction ownDescend cur s with
  | case1 => simp [descendSplits, slotSize]
  | case2 n s ih =>
    rw [descendSplits]
    have h1 : slotSize (some n) = (unfold2 n).size := rfl
    have h2 := size_unfold2 n
    simp only [ownStock, slotDebt, List.map_cons, List.sum_cons, List.length_cons] at ih ⊢
    omega

theorem ownNext_paid [BinNode N V] (s : OwnCtxState N V) :
    ownWork s ≤ ownStock s ∧ ∀ o s', ownNext s = .ok (o, s') → ownWork s + ownStock s' ≤ ownStock s := by
  obtain ⟨right, path, anc, st⟩ := s
  have h := ownFind_paid st anc path right
  have e : ownStock (⟨right, path, anc, st⟩ : OwnCtxState N V) = slotDebt 3 right + st.length := rfl
  cases hf : ownFind st anc path right with
  | inl s1 =>
    rw [hf] at h
    simp only at h
    have hw : ownWork (⟨right, path, anc, st⟩ : OwnCtxState N V) = ancFindPops st right := by simp [ownWork, hf]
    refine ⟨by omega, fun o s' h' => ?_⟩
    simp only [ownNext, streamNextE, ownAdvance, hf, Except.ok.injEq, Prod.mk.injEq] at h'
    obtain ⟨-, rfl⟩ := h'
    omega
  | inr r =>
    obtain ⟨n, s1⟩ := r
    rw [hf] at h
    have hd := ownDescend_paid (some n) s1
    simp only at h
    have hw : ownWork (⟨right, path, anc, st⟩ : OwnCtxState N V) = ancFindPops st right + descendSplits (some n) := by
      simp [ownWork, hf]
    refine ⟨by omega, fun o s' h' => ?_⟩
    simp only [ownNext, streamNextE, ownAdvance, hf] at h'
    cases hs : (ownDescend (some n) s1).status with
    | nil => simp [hs] at h'
    | cons x ss =>
      simp only [hs, Except.ok.injEq, Prod.mk.injEq] at h'
      obtain ⟨-, rfl⟩ := h'
      simp only [ownStock, hs, List.length_cons] at hd h hw ⊢
      omega

theorem ctxFind_paid [BinNode N V] (ch : Option (Option N × Option N)) (st : List Status) (anc : List V) (path : List Nat)
    (right : List (Option N)) (into : List (Option N × Option N)) :
    ancFindPops st right +
      (match ctxFind ch st anc path right into with
        | .error _ => 0
        | .ok (.inl s) => ctxStock s
        | .ok (.inr (n, s)) => 3 * slotSize (some n) + ctxStock s) ≤ slotDebt 3 right + st.length := by
  fun_induction ctxFind ch st anc path right into with
  | case1 ss anc path right into ih => rw [ancFindPops, List.length_cons]; omega
  | case2 => simp [ancFindPops, ctxStock]
  | case3 => simp [ancFindPops]
  | case4 => simp [ancFindPops, ctxStock]
  | case5 => simp [ancFindPops, slotDebt, ctxStock]; omega
  | case6 ss anc path right into ih =>
    have : slotDebt 3 (none :: right) = slotDebt 3 right + 1 := by simp [slotDebt, slotSize]; omega
    rw [ancFindPops]
    simp only [List.length_cons] at ih ⊢
    omega
  | case7 => simp [ancFindPops, ctxStock]
  | case8 => simp [ancFindPops, slotDebt, ctxStock]; omega
  | case9 anc path right into ih =>
    have : slotDebt 3 (none :: right) = slotDebt 3 right + 1 := by simp [slotDebt, slotSize]; omega
    rw [ancFindPops]
    omega

theorem ctxDescend_paid [BinNode N V] (cur : Option N) (s : CtxState N V) :
    descendSplits cur + ctxStock (ctxDescend cur s) = 3 * slotSize cur + ctxStock s := by
  fun_induction ctxDescend cur s with
  | case1 => simp [descendSplits, slotSize]
  | case2 n s ih =>
    rw [descendSplits]
    have h1 : slotSize (some n) = (unfold2 n).size := rfl
    have h2 := size_unfold2 n
    simp only [ctxStock, slotDebt, List.map_cons, List.sum_cons, List.length_cons] at ih ⊢
    omega

theorem ctxNext_paid [BinNode N V] (s : CtxState N V) :
    ctxWork s ≤ ctxStock s ∧ ∀ o s', ctxNext s = .ok (o, s') → ctxWork s + ctxStock s' ≤ ctxStock s := by
  obtain ⟨right, path, anc, ch, into, st⟩ := s
  have h := ctxFind_paid ch st anc path right into
  have e : ctxStock (⟨right, path, anc, ch, into, st⟩ : CtxState N V) = slotDebt 3 right + st.length := rfl
  cases hf : ctxFind ch st anc path right into with
  | error er =>
    rw [hf] at h
    simp only at h
    have hw : ctxWork (⟨right, path, anc, ch, into, st⟩ : CtxState N V) = ancFindPops st right := by simp [ctxWork, hf]
    refine ⟨by omega, fun o s' h' => ?_⟩
    simp [ctxNext, streamNextE, ctxAdvance, hf] at h'
  | ok r =>
    rw [hf] at h
    cases r with
    | inl s1 =>
      simp only at h
      have hw : ctxWork (⟨right, path, anc, ch, into, st⟩ : CtxState N V) = ancFindPops st right := by simp [ctxWork, hf]
      refine ⟨by omega, fun o s' h' => ?_⟩
      simp only [ctxNext, streamNextE, ctxAdvance, hf, Except.ok.injEq, Prod.mk.injEq] at h'
      obtain ⟨-, rfl⟩ := h'
      omega
    | inr r =>
      obtain ⟨n, s1⟩ := r
      have hd := ctxDescend_paid (some n) s1
      simp only at h
      have hw : ctxWork (⟨right, path, anc, ch, into, st⟩ : CtxState N V) = ancFindPops st right + descendSplits (some n) := by
        simp [ctxWork, hf]
      refine ⟨by omega, fun o s' h' => ?_⟩
      simp only [ctxNext, streamNextE, ctxAdvance, hf] at h'
      cases hs : (ctxDescend (some n) s1).status with
      | nil => simp [hs] at h'
      | cons x ss =>
        cases hi : (ctxDescend (some n) s1).into with
        | nil => simp [hs, hi] at h'
        | cons c into' =>
          simp only [hs, hi, Except.ok.injEq, Prod.mk.injEq] at h'
          obtain ⟨-, rfl⟩ := h'
          simp only [ctxStock, hs, List.length_cons] at hd h hw ⊢
          omega

end Inorder

end TreeIter
