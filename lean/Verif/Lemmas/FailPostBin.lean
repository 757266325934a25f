import Verif.Lemmas.FailAfterCtx
import Verif.Lemmas.FailAfterFit
import Verif.Lemmas.Postorder
import Verif.Model.FailPostBin
import Verif.Spec.FailPostBin

/-! # Lemmas for binary postorder contexts after a panic of the user's code -/

universe u v

namespace TreeIter

variable {N : Type u} {V : Type v}

namespace Fail

section
variable [BinNode N V]

/-- The slots from number `i` on of the node at `p`. -/
def lossyPostSlots (bad : N → Bool) (p : List Nat) (i : Nat) (anc : List V) :
    List (Option N) → List (List V × Option (List Nat × (Option N × Option N))) × List V
  | [] => ([], anc)
  | o :: os =>
    ((BinTree.lossyPostCtxO bad (p ++ [i]) anc (o.map unfold2)).1 ++
        (lossyPostSlots bad p (i + 1) (BinTree.lossyPostCtxO bad (p ++ [i]) anc (o.map unfold2)).2 os).1,
      (lossyPostSlots bad p (i + 1) (BinTree.lossyPostCtxO bad (p ++ [i]) anc (o.map unfold2)).2 os).2)

/-- The calls still to come. -/
def lossyPostBinS (bad : N → Bool) (anc : List V) :
    List (List (Option N)) → List (Option N × Option N) → List Nat →
      List (List V × Option (List Nat × (Option N × Option N)))
  | f :: rest, c :: into, p :: path =>
    (lossyPostSlots bad path.reverse (wrapSucc p) anc f).1 ++
      ((lossyPostSlots bad path.reverse (wrapSucc p) anc f).2, some (path.reverse, c)) ::
        lossyPostBinS bad (lossyPostSlots bad path.reverse (wrapSucc p) anc f).2.dropLast rest into path
  | _, _, _ => []

omit [BinNode N V] in
/-- Every level has the slots that are left of two. -/
def LossyPostBinInvS : List (List (Option N)) → List (Option N × Option N) → List Nat → Prop
  | f :: rest, _ :: into, p :: path => wrapSucc p + f.length = 2 ∧ LossyPostBinInvS rest into path
  | [], [], _ => True
  | _, _, _ => False

theorem lossyPostCtx_unfold2 (bad : N → Bool) (p : List Nat) (anc : List V) (n : N) :
    (unfold2 n).lossyPostCtx bad p anc =
      if bad n then ([(anc, none)], anc.dropLast)
      else
        ((lossyPostSlots bad p 0 (anc ++ [val2 n]) (slots n)).1 ++
            [((lossyPostSlots bad p 0 (anc ++ [val2 n]) (slots n)).2, some (p, (split2 n).2))],
          (lossyPostSlots bad p 0 (anc ++ [val2 n]) (slots n)).2.dropLast) := by
  rw [unfold2_eq, BinTree.lossyPostCtx]
  by_cases hb : bad n <;> simp [hb, lossyPostSlots, slots]

theorem postBinCtxLoop_lossy (bad : N → Bool) (ch : Option (Option N × Option N)) (st : List (List (Option N)))
    (into : List (Option N × Option N)) (path : List Nat) (anc : List V) (hi : LossyPostBinInvS st into path)
    (hl : anc.length ≤ st.length) (ha : anc ≠ []) :
    ∃ b s, postBinCtxLoop bad ch st into path anc = .ok (b, s) ∧ s.root = none ∧
      LossyPostBinInvS s.stack s.into s.path ∧ s.ancestors.tail.length ≤ s.stack.length ∧ s.ancestors ≠ [] ∧
      ∃ o, (if b then o = none else ∃ c, s.children = some c ∧ o = some (s.path.reverse, c)) ∧
        lossyPostBinS bad anc.reverse st into path =
          (s.ancestors.reverse, o) :: lossyPostBinS bad s.ancestors.tail.reverse s.stack s.into s.path := by
  fun_induction postBinCtxLoop bad ch st into path anc with
  | case1 n ss rest into p path anc h =>
    cases into with
    | nil => exact hi.elim
    | cons c into =>
      obtain ⟨h1, h3⟩ := hi
      rw [List.length_cons] at h1
      have hw : wrapSucc (wrapSucc p) = wrapSucc p + 1 := wrapSucc_lt (k := ss.length) (by omega)
      refine ⟨_, _, rfl, rfl, ⟨by rw [hw]; omega, h3⟩, ?_, ha, none, by simp, ?_⟩
      · simp only [List.length_tail, List.length_cons] at *; omega
      · rw [lossyPostBinS, lossyPostSlots, Option.map_some, BinTree.lossyPostCtxO, lossyPostCtx_unfold2]
        simp [h, lossyPostBinS, hw]
  | case2 n ss rest into p path anc h ih =>
    cases into with
    | nil => exact hi.elim
    | cons c into =>
      obtain ⟨h1, h3⟩ := hi
      rw [List.length_cons] at h1
      have hw : wrapSucc (wrapSucc p) = wrapSucc p + 1 := wrapSucc_lt (k := ss.length) (by omega)
      obtain ⟨b, s, e1, e2, e3, e4, e5, o, e6, e7⟩ := ih
        ⟨by simp [Preorder.wrapSucc_usizeMax, slots], by rw [hw]; omega, h3⟩
        (by simp only [List.length_cons] at *; omega) (by simp)
      refine ⟨b, s, e1, e2, e3, e4, e5, o, e6, ?_⟩
      rw [← e7, lossyPostBinS, lossyPostSlots, Option.map_some, BinTree.lossyPostCtxO, lossyPostCtx_unfold2]
      simp [h, lossyPostBinS, hw, Preorder.wrapSucc_usizeMax]
  | case3 ss rest into p path anc ih =>
    cases into with
    | nil => exact hi.elim
    | cons c into =>
      obtain ⟨h1, h3⟩ := hi
      rw [List.length_cons] at h1
      have hw : wrapSucc (wrapSucc p) = wrapSucc p + 1 := wrapSucc_lt (k := ss.length) (by omega)
      have e : lossyPostBinS bad anc.reverse ((none :: ss) :: rest) (c :: into) (p :: path) =
          lossyPostBinS bad anc.reverse (ss :: rest) (c :: into) (wrapSucc p :: path) := by
        simp [lossyPostBinS, lossyPostSlots, hw, BinTree.lossyPostCtxO]
      rw [e]
      exact ih ⟨by rw [hw]; omega, h3⟩ hl ha
  | case4 => cases (by assumption : List (Option N × Option N)) <;> exact hi.elim
  | case5 rest c into path anc =>
    cases path with
    | nil => exact hi.elim
    | cons p path =>
      refine ⟨_, _, rfl, rfl, hi.2, ?_, ha, _, ⟨c, rfl, rfl⟩, ?_⟩
      · simp only [List.length_tail, List.length_cons] at *; omega
      · simp [lossyPostBinS, lossyPostSlots]
  | case6 => cases (by assumption : List Nat) <;> exact hi.elim
  | case7 => cases (by assumption : List Nat) <;> exact hi.elim
  | case8 _ anc => exact absurd (List.length_eq_zero_iff.1 (by simpa using hl)) ha

/-- The replies still to come in a state. -/
def lossyPostBinRem (bad : N → Bool) (s : Postorder.BinCtxState N V) : List (Option (Ctx V (Option N × Option N))) :=
  match s.root with
  | some r => upTo (fun anc => anc.length ≤ 1) ((unfold2 r).lossyPostCtx bad s.path.reverse []).1
  | none =>
    if s.ancestors.tail.isEmpty then []
    else upTo (fun anc => anc.length ≤ 1) (lossyPostBinS bad s.ancestors.tail.reverse s.stack s.into s.path)

omit [BinNode N V] in
/-- Reachable states. -/
def LossyPostBinInv (s : Postorder.BinCtxState N V) : Prop :=
  match s.root with
  | some _ => s.ancestors = [] ∧ s.stack = [] ∧ s.into = []
  | none => LossyPostBinInvS s.stack s.into s.path ∧ s.ancestors.tail.length ≤ s.stack.length

theorem postBinCtxNext_lossy (bad : N → Bool) (s : Postorder.BinCtxState N V) (h : LossyPostBinInv s) :
    ∃ s', postBinCtxNext bad s = .ok ((lossyPostBinRem bad s).head?, s') ∧
      lossyPostBinRem bad s' = (lossyPostBinRem bad s).tail ∧ LossyPostBinInv s' := by
  have fin : ∀ (b : Bool) (s' : Postorder.BinCtxState N V) o l, s'.root = none → s'.ancestors ≠ [] →
      (if b then o = none else ∃ c, s'.children = some c ∧ o = some (s'.path.reverse, c)) →
      l = (s'.ancestors.reverse, o) :: lossyPostBinS bad s'.ancestors.tail.reverse s'.stack s'.into s'.path →
      (if b then some none else (Postorder.binCtxGet s').map some) = (upTo (fun anc => anc.length ≤ 1) l).head? ∧
        lossyPostBinRem bad s' = (upTo (fun anc => anc.length ≤ 1) l).tail := by
    rintro b ⟨root, stack, into, path, anc, ch⟩ o l rfl hne ho rfl
    constructor
    · rw [upTo, List.head?_cons]
      cases b with
      | true =>
        obtain rfl : o = none := ho
        rfl
      | false =>
        obtain ⟨c, rfl, rfl⟩ : ∃ c, ch = some c ∧ o = some (path.reverse, c) := ho
        have : anc ≠ [] := hne
        simp [Postorder.binCtxGet, this]
    · rw [upTo, List.tail_cons, lossyPostBinRem]
      cases anc with
      | nil => exact absurd rfl hne
      | cons a as => cases as <;> simp
  obtain ⟨root, stack, into, path, anc, ch⟩ := s
  cases root with
  | some r =>
    obtain ⟨rfl, rfl, rfl⟩ : anc = [] ∧ stack = [] ∧ into = [] := h
    by_cases hb : bad r
    · refine ⟨⟨none, [], [], path, [], ch⟩, ?_, ?_, ?_⟩
      · simp [postBinCtxNext, streamNextE, postBinCtxAdvance, hb, lossyPostBinRem, unfold2_eq r, BinTree.lossyPostCtx, upTo]
      · simp [hb, lossyPostBinRem, unfold2_eq r, BinTree.lossyPostCtx, upTo]
      · simp [LossyPostBinInv, LossyPostBinInvS]
    · obtain ⟨b, s, e1, e2, e3, e4, e5, o, e6, e7⟩ := postBinCtxLoop_lossy bad ch [slots r] [(split2 r).2] (usizeMax :: path)
        [val2 r] ⟨by simp [Preorder.wrapSucc_usizeMax, slots], trivial⟩ (by simp) (by simp)
      have er : lossyPostBinRem bad ⟨some r, [], [], path, [], ch⟩ =
          upTo (fun anc => anc.length ≤ 1) (lossyPostBinS bad [val2 r] [slots r] [(split2 r).2] (usizeMax :: path)) := by
        simp [lossyPostBinRem, lossyPostCtx_unfold2, hb, lossyPostBinS, Preorder.wrapSucc_usizeMax]
      obtain ⟨f1, f2⟩ := fin b s o _ e2 e5 e6 e7
      refine ⟨s, ?_, by rw [er]; exact f2, ?_⟩
      · have ea : postBinCtxAdvance bad ⟨some r, [], [], path, [], ch⟩ = .ok (b, s) := by
          simp only [postBinCtxAdvance, hb]
          exact e1
        rw [postBinCtxNext, streamNextE, ea, er]
        rw [List.reverse_singleton] at f1
        rw [← f1]
        cases b <;> rfl
      · obtain ⟨root, stack, into, path, anc, ch⟩ := s
        obtain rfl : root = none := e2
        exact ⟨e3, e4⟩
  | none =>
    obtain ⟨hi, hl⟩ : LossyPostBinInvS stack into path ∧ anc.tail.length ≤ stack.length := h
    by_cases ht : anc.tail = []
    · refine ⟨⟨none, stack, into, path, anc.tail, ch⟩, ?_, ?_, ?_⟩
      · simp [postBinCtxNext, streamNextE, postBinCtxAdvance, ht, lossyPostBinRem, Postorder.binCtxGet]
      · simp [lossyPostBinRem, ht]
      · exact ⟨hi, by simp only [ht]; simp⟩
    · obtain ⟨b, s, e1, e2, e3, e4, e5, o, e6, e7⟩ := postBinCtxLoop_lossy bad ch stack into path anc.tail hi hl ht
      have er : lossyPostBinRem bad ⟨none, stack, into, path, anc, ch⟩ =
          upTo (fun anc => anc.length ≤ 1) (lossyPostBinS bad anc.tail.reverse stack into path) := by
        simp [lossyPostBinRem, ht]
      obtain ⟨f1, f2⟩ := fin b s o _ e2 e5 e6 e7
      refine ⟨s, ?_, by rw [er]; exact f2, ?_⟩
      · have ea : postBinCtxAdvance bad ⟨none, stack, into, path, anc, ch⟩ = .ok (b, s) := by
          simp only [postBinCtxAdvance, List.isEmpty_iff, ht, if_false]
          exact e1
        rw [postBinCtxNext, streamNextE, ea, er, ← f1]
        cases b <;> rfl
      · obtain ⟨root, stack, into, path, anc, ch⟩ := s
        obtain rfl : root = none := e2
        exact ⟨e3, e4⟩

/-- Clearing the children first changes no answer. -/
theorem postMutBinCtxNext_lossy (bad : N → Bool) (s : Postorder.BinCtxState N V) (h : LossyPostBinInv s) :
    ∃ s', postMutBinCtxNext bad s = .ok ((lossyPostBinRem bad s).head?, s') ∧
      lossyPostBinRem bad s' = (lossyPostBinRem bad s).tail ∧ LossyPostBinInv s' :=
  postBinCtxNext_lossy bad { s with children := none } h

end

/-! ## Owned nodes -/

theorem postOwnCtxLoop_sim [TreeNode N V] (bad : N → Bool) (ch : Option (List N)) (st into : List (List N))
    (path : List Nat) (anc : List V) (b : Bool) (s : Postorder.CtxState N V)
    (h : postCtxLoop bad ch st into path anc = .ok (b, s)) : postOwnCtxLoop bad st path anc = .ok (b, s.own) := by
  fun_induction postCtxLoop bad ch st into path anc with
  | case1 n ns rest into p path anc hb => cases h; rw [postOwnCtxLoop, if_pos hb]; rfl
  | case2 n ns rest into p path anc hb ih => rw [postOwnCtxLoop, if_neg hb]; exact ih h
  | case3 => cases h
  | case4 => cases h; rw [postOwnCtxLoop]; rfl
  | case5 => cases h; rw [postOwnCtxLoop]; rfl
  | case6 => cases h
  | case7 => cases h

theorem postOwnBinCtxLoop_sim [BinNode N V] (bad : N → Bool) (ch : Option (Option N × Option N)) (st : List (List (Option N)))
    (into : List (Option N × Option N)) (path : List Nat) (anc : List V) (b : Bool) (s : Postorder.BinCtxState N V)
    (h : postBinCtxLoop bad ch st into path anc = .ok (b, s)) : postOwnBinCtxLoop bad st path anc = .ok (b, s.own) := by
  fun_induction postBinCtxLoop bad ch st into path anc with
  | case1 n ns rest into p path anc hb => cases h; rw [postOwnBinCtxLoop, if_pos hb]; rfl
  | case2 n ns rest into p path anc hb ih => rw [postOwnBinCtxLoop, if_neg hb]; exact ih h
  | case3 ns rest into p path anc ih => rw [postOwnBinCtxLoop]; exact ih h
  | case4 => cases h
  | case5 => cases h; rw [postOwnBinCtxLoop]; rfl
  | case6 => cases h; rw [postOwnBinCtxLoop]; rfl
  | case7 => cases h
  | case8 => cases h

theorem postOwnCtxNext_sim [TreeNode N V] (bad : N → Bool) (s s' : Postorder.CtxState N V)
    (o : Option (Option (Ctx V (List N)))) (h : postCtxNext bad s = .ok (o, s')) :
    postOwnCtxNext bad s.own = .ok (o.map (Option.map Ctx.noChildren), s'.own) := by
  have key : ∀ (a c : Postorder.CtxState N V) b, postCtxAdvance bad a = .ok (b, c) →
      postOwnCtxAdvance bad a.own = .ok (b, c.own) := by
    rintro ⟨root, stack, into, path, anc, ch⟩ c b hab
    cases root with
    | some r =>
      by_cases hb : bad r
      · simp only [postCtxAdvance, hb, if_true, Except.ok.injEq, Prod.mk.injEq] at hab
        obtain ⟨rfl, rfl⟩ := hab
        simp [postOwnCtxAdvance, Postorder.CtxState.own, hb]
      · simp only [postCtxAdvance, hb] at hab
        have := postOwnCtxLoop_sim _ _ _ _ _ _ _ _ hab
        simpa [postOwnCtxAdvance, Postorder.CtxState.own, hb] using this
    | none =>
      by_cases hc : anc.tail = []
      · simp only [postCtxAdvance, hc, List.isEmpty_nil, if_true, Except.ok.injEq, Prod.mk.injEq] at hab
        obtain ⟨rfl, rfl⟩ := hab
        simp [postOwnCtxAdvance, Postorder.CtxState.own, hc]
      · simp only [postCtxAdvance, List.isEmpty_iff, hc, if_false] at hab
        have := postOwnCtxLoop_sim _ _ _ _ _ _ _ _ hab
        simpa [postOwnCtxAdvance, Postorder.CtxState.own, hc] using this
  simp only [postCtxNext, streamNextE, postOwnCtxNext] at h ⊢
  cases e : postCtxAdvance bad s with
  | error x => rw [e] at h; cases h
  | ok q =>
    obtain ⟨b, c⟩ := q
    rw [e] at h
    rw [key _ _ _ e]
    cases b with
    | true => cases h; rfl
    | false =>
      cases h
      by_cases hc : s'.ancestors = [] <;>
        simp [Postorder.ownCtxGet, Postorder.ctxGet, Postorder.CtxState.own, hc, Ctx.noChildren]

theorem postOwnBinCtxNext_sim [BinNode N V] (bad : N → Bool) (s s' : Postorder.BinCtxState N V)
    (o : Option (Option (Ctx V (Option N × Option N)))) (h : postBinCtxNext bad s = .ok (o, s')) :
    postOwnBinCtxNext bad s.own = .ok (o.map (Option.map Ctx.noChildren), s'.own) := by
  have key : ∀ (a c : Postorder.BinCtxState N V) b, postBinCtxAdvance bad a = .ok (b, c) →
      postOwnBinCtxAdvance bad a.own = .ok (b, c.own) := by
    rintro ⟨root, stack, into, path, anc, ch⟩ c b hab
    cases root with
    | some r =>
      by_cases hb : bad r
      · simp only [postBinCtxAdvance, hb, if_true, Except.ok.injEq, Prod.mk.injEq] at hab
        obtain ⟨rfl, rfl⟩ := hab
        simp [postOwnBinCtxAdvance, Postorder.BinCtxState.own, hb]
      · simp only [postBinCtxAdvance, hb] at hab
        have := postOwnBinCtxLoop_sim _ _ _ _ _ _ _ _ hab
        simpa [postOwnBinCtxAdvance, Postorder.BinCtxState.own, hb] using this
    | none =>
      by_cases hc : anc.tail = []
      · simp only [postBinCtxAdvance, hc, List.isEmpty_nil, if_true, Except.ok.injEq, Prod.mk.injEq] at hab
        obtain ⟨rfl, rfl⟩ := hab
        simp [postOwnBinCtxAdvance, Postorder.BinCtxState.own, hc]
      · simp only [postBinCtxAdvance, List.isEmpty_iff, hc, if_false] at hab
        have := postOwnBinCtxLoop_sim _ _ _ _ _ _ _ _ hab
        simpa [postOwnBinCtxAdvance, Postorder.BinCtxState.own, hc] using this
  simp only [postBinCtxNext, streamNextE, postOwnBinCtxNext] at h ⊢
  cases e : postBinCtxAdvance bad s with
  | error x => rw [e] at h; cases h
  | ok q =>
    obtain ⟨b, c⟩ := q
    rw [e] at h
    rw [key _ _ _ e]
    cases b with
    | true => cases h; rfl
    | false =>
      cases h
      by_cases hc : s'.ancestors = [] <;>
        simp [Postorder.ownBinCtxGet, Postorder.binCtxGet, Postorder.BinCtxState.own, hc, Ctx.noChildren]

/-! ## The nodes in their order -/

section
variable [SplitNode2 N V]

mutual
theorem lossyPostCtx_fits2 (bad : N → Bool) (p : List Nat) (anc : List V) (A : List N) (h : anc.Sublist (A.map val2)) :
    ∀ t : BinTree N, List.Forall₂ (Fits2 bad) (t.lossyPostCtx bad p anc).1 ((t.crop bad).withPos p A).toTree.postorder ∧
      (t.lossyPostCtx bad p anc).2.Sublist (A.map val2)
  | .node n l r => by
    rw [BinTree.lossyPostCtx, BinTree.crop, BinTree.withPos, BinTree.toTree, Tree.postorder_node, List.flatMap_append]
    by_cases hb : bad n
    · simp only [hb, if_true, BinTree.withPosO, BinTree.slotTrees]
      refine ⟨.cons ⟨by simp [replyPos, hb], ?_⟩ .nil, (List.dropLast_sublist _).trans h⟩
      simpa using h.trans (List.sublist_append_left _ _)
    · have h' : (anc ++ [val2 n]).Sublist ((A ++ [n]).map val2) := by simpa using h.append (List.Sublist.refl [val2 n])
      obtain ⟨i1, i2⟩ := lossyPostCtxO_fits2 bad (p ++ [0]) (anc ++ [val2 n]) (A ++ [n]) h' l
      obtain ⟨j1, j2⟩ := lossyPostCtxO_fits2 bad (p ++ [1]) _ (A ++ [n]) i2 r
      simp only [hb]
      refine ⟨List.rel_append (List.rel_append i1 j1) (.cons ⟨by simp [replyPos, hb], j2⟩ .nil), ?_⟩
      have := sublist_dropLast j2
      simpa using this
theorem lossyPostCtxO_fits2 (bad : N → Bool) (p : List Nat) (anc : List V) (A : List N) (h : anc.Sublist (A.map val2)) :
    ∀ o : Option (BinTree N), List.Forall₂ (Fits2 bad) (BinTree.lossyPostCtxO bad p anc o).1
        ((BinTree.slotTrees (BinTree.withPosO p A (BinTree.cropO bad o))).flatMap Tree.postorder) ∧
      (BinTree.lossyPostCtxO bad p anc o).2.Sublist (A.map val2)
  | none => by simpa [BinTree.lossyPostCtxO, BinTree.cropO, BinTree.withPosO, BinTree.slotTrees] using h
  | some t => by
    have := lossyPostCtx_fits2 bad p anc A h t
    simpa [BinTree.lossyPostCtxO, BinTree.cropO, BinTree.withPosO, BinTree.slotTrees] using this
end

end

end Fail

end TreeIter
