import Verif.Lemmas.FailAfter
import Verif.Lemmas.Decor

/-! # Lemmas for the contexts after a panic of the user's code -/

universe u v

namespace TreeIter

variable {N : Type u} {V : Type v}

namespace Fail

/-! ## Postorder -/

/-- The calls still to come. -/
def lossyPostCtxS [TreeNode N V] (bad : N → Bool) (anc : List V) :
    List (List N) → List (List N) → List Nat → List (List V × Option (List Nat × List N))
  | f :: rest, c :: into, p :: path =>
    (Tree.lossyPostCtxL bad path.reverse (wrapSucc p) anc (f.map unfold)).1 ++
      ((Tree.lossyPostCtxL bad path.reverse (wrapSucc p) anc (f.map unfold)).2, some (path.reverse, c)) ::
        lossyPostCtxS bad (Tree.lossyPostCtxL bad path.reverse (wrapSucc p) anc (f.map unfold)).2.dropLast rest into path
  | _, _, _ => []

/-- Nothing wraps on the levels of the stack. -/
def LossyPostCtxInvS [TreeNode N V] : List (List N) → List (List N) → List Nat → Prop
  | f :: rest, _ :: into, p :: path =>
    wrapSucc p + f.length ≤ 2 ^ 64 ∧ (∀ n ∈ f, ArityOk n) ∧ LossyPostCtxInvS rest into path
  | [], [], _ => True
  | _, _, _ => False

theorem postCtxIdx [TreeNode N V] (bad : N → Bool) (q : List Nat) (p : Nat) (anc : List V) (ns : List N)
    (h : wrapSucc p + (ns.length + 1) ≤ 2 ^ 64) :
    Tree.lossyPostCtxL bad q (wrapSucc p + 1) anc (ns.map unfold) =
      Tree.lossyPostCtxL bad q (wrapSucc (wrapSucc p)) anc (ns.map unfold) := by
  cases ns with
  | nil => simp [Tree.lossyPostCtxL]
  | cons n ns => rw [(Preorder.wrapSucc_step h).2 (by simp)]

theorem postCtxLoop_lossy [TreeNode N V] (bad : N → Bool) (ch : Option (List N)) (st into : List (List N))
    (path : List Nat) (anc : List V) (hi : LossyPostCtxInvS (V := V) st into path) (hl : anc.length ≤ st.length)
    (ha : anc ≠ []) :
    ∃ b s, postCtxLoop bad ch st into path anc = .ok (b, s) ∧ s.root = none ∧
      LossyPostCtxInvS (V := V) s.stack s.into s.path ∧ s.ancestors.tail.length ≤ s.stack.length ∧ s.ancestors ≠ [] ∧
      ∃ o, (if b then o = none else ∃ c, s.children = some c ∧ o = some (s.path.reverse, c)) ∧
        lossyPostCtxS bad anc.reverse st into path =
          (s.ancestors.reverse, o) :: lossyPostCtxS bad s.ancestors.tail.reverse s.stack s.into s.path := by
  fun_induction postCtxLoop bad ch st into path anc with
  | case1 n ns rest into p path anc h =>
    cases into with
    | nil => exact hi.elim
    | cons c into =>
      obtain ⟨h1, h2, h3⟩ := hi
      rw [List.length_cons] at h1
      refine ⟨_, _, rfl, rfl, ⟨(Preorder.wrapSucc_step h1).1, fun m hm => h2 m (by simp [hm]), h3⟩, ?_, ha, none, by simp, ?_⟩
      · simp only [List.length_tail, List.length_cons] at *; omega
      · rw [lossyPostCtxS, List.map_cons, Tree.lossyPostCtxL, unfold_eq n, Tree.lossyPostCtx]
        simp only [h, if_true, postCtxIdx bad _ p _ ns h1]
        simp [lossyPostCtxS]
  | case2 n ns rest into p path anc h ih =>
    cases into with
    | nil => exact hi.elim
    | cons c into =>
      obtain ⟨h1, h2, h3⟩ := hi
      rw [List.length_cons] at h1
      have hn := (arityOk_iff n).1 (h2 n (by simp))
      obtain ⟨b, s, e1, e2, e3, e4, e5, o, e6, e7⟩ := ih
        ⟨by rw [Preorder.wrapSucc_usizeMax]; omega, hn.2, (Preorder.wrapSucc_step h1).1, fun m hm => h2 m (by simp [hm]), h3⟩
        (by simp only [List.length_cons] at *; omega) (by simp)
      refine ⟨b, s, e1, e2, e3, e4, e5, o, e6, ?_⟩
      rw [← e7, lossyPostCtxS, List.map_cons, Tree.lossyPostCtxL, unfold_eq n, Tree.lossyPostCtx]
      simp only [h, postCtxIdx bad _ p _ ns h1]
      simp [lossyPostCtxS, Preorder.wrapSucc_usizeMax]
  | case3 => cases (by assumption : List (List N)) <;> exact hi.elim
  | case4 rest c into path anc =>
    cases path with
    | nil => exact hi.elim
    | cons p path =>
      refine ⟨_, _, rfl, rfl, hi.2.2, ?_, ha, _, ⟨c, rfl, rfl⟩, ?_⟩
      · simp only [List.length_tail, List.length_cons] at *; omega
      · simp [lossyPostCtxS, Tree.lossyPostCtxL]
  | case5 => cases (by assumption : List Nat) <;> exact hi.elim
  | case6 => cases (by assumption : List Nat) <;> exact hi.elim
  | case7 _ anc => exact absurd (List.length_eq_zero_iff.1 (by simpa using hl)) ha

/-- The replies still to come in a state. -/
def lossyPostCtxRem [TreeNode N V] (bad : N → Bool) (s : Postorder.CtxState N V) : List (Option (Ctx V (List N))) :=
  match s.root with
  | some r => upTo (fun anc => anc.length ≤ 1) ((unfold r).lossyPostCtx bad s.path.reverse []).1
  | none =>
    if s.ancestors.tail.isEmpty then []
    else upTo (fun anc => anc.length ≤ 1) (lossyPostCtxS bad s.ancestors.tail.reverse s.stack s.into s.path)

/-- Reachable states. -/
def LossyPostCtxInv [TreeNode N V] (s : Postorder.CtxState N V) : Prop :=
  match s.root with
  | some r => s.ancestors = [] ∧ s.stack = [] ∧ s.into = [] ∧ ArityOk r
  | none => LossyPostCtxInvS (V := V) s.stack s.into s.path ∧ s.ancestors.tail.length ≤ s.stack.length

theorem postCtxNext_lossy [TreeNode N V] (bad : N → Bool) (s : Postorder.CtxState N V) (h : LossyPostCtxInv s) :
    ∃ s', postCtxNext bad s = .ok ((lossyPostCtxRem bad s).head?, s') ∧
      lossyPostCtxRem bad s' = (lossyPostCtxRem bad s).tail ∧ LossyPostCtxInv s' := by
  have fin : ∀ (b : Bool) (s' : Postorder.CtxState N V) o l, s'.root = none → s'.ancestors ≠ [] →
      (if b then o = none else ∃ c, s'.children = some c ∧ o = some (s'.path.reverse, c)) →
      l = (s'.ancestors.reverse, o) :: lossyPostCtxS bad s'.ancestors.tail.reverse s'.stack s'.into s'.path →
      (if b then some none else (Postorder.ctxGet s').map some) = (upTo (fun anc => anc.length ≤ 1) l).head? ∧
        lossyPostCtxRem bad s' = (upTo (fun anc => anc.length ≤ 1) l).tail := by
    rintro b ⟨root, stack, into, path, anc, ch⟩ o l rfl hne ho rfl
    constructor
    · rw [upTo, List.head?_cons]
      cases b with
      | true =>
        obtain rfl : o = none := ho
        rfl
      | false =>
        obtain ⟨c, rfl, rfl⟩ : ∃ c, ch = some c ∧ o = some (path.reverse, c) := ho
        have : anc ≠ [] := hne
        simp [Postorder.ctxGet, this]
    · rw [upTo, List.tail_cons, lossyPostCtxRem]
      cases anc with
      | nil => exact absurd rfl hne
      | cons a as => cases as <;> simp
  obtain ⟨root, stack, into, path, anc, ch⟩ := s
  cases root with
  | some r =>
    obtain ⟨rfl, rfl, rfl, hr⟩ : anc = [] ∧ stack = [] ∧ into = [] ∧ ArityOk r := h
    by_cases hb : bad r
    · refine ⟨⟨none, [], [], path, [], ch⟩, ?_, ?_, ?_⟩
      · simp [postCtxNext, streamNextE, postCtxAdvance, hb, lossyPostCtxRem, unfold_eq r, Tree.lossyPostCtx, upTo]
      · simp [hb, lossyPostCtxRem, unfold_eq r, Tree.lossyPostCtx, upTo]
      · simp [LossyPostCtxInv, LossyPostCtxInvS]
    · have hn := (arityOk_iff r).1 hr
      obtain ⟨b, s, e1, e2, e3, e4, e5, o, e6, e7⟩ := postCtxLoop_lossy bad ch [kids r] [kids r] (usizeMax :: path)
        [val r]
        ⟨by rw [Preorder.wrapSucc_usizeMax]; omega, hn.2, trivial⟩ (by simp) (by simp)
      have er : lossyPostCtxRem bad ⟨some r, [], [], path, [], ch⟩ =
          upTo (fun anc => anc.length ≤ 1) (lossyPostCtxS bad [val r] [kids r] [kids r] (usizeMax :: path)) := by
        simp [lossyPostCtxRem, unfold_eq r, Tree.lossyPostCtx, hb, lossyPostCtxS, Preorder.wrapSucc_usizeMax]
      obtain ⟨f1, f2⟩ := fin b s o _ e2 e5 e6 e7
      refine ⟨s, ?_, by rw [er]; exact f2, ?_⟩
      · have ea : postCtxAdvance bad ⟨some r, [], [], path, [], ch⟩ = .ok (b, s) := by
          simp only [postCtxAdvance, hb]
          exact e1
        rw [postCtxNext, streamNextE, ea, er]
        rw [List.reverse_singleton] at f1
        rw [← f1]
        cases b <;> rfl
      · obtain ⟨root, stack, into, path, anc, ch⟩ := s
        obtain rfl : root = none := e2
        exact ⟨e3, e4⟩
  | none =>
    obtain ⟨hi, hl⟩ : LossyPostCtxInvS (V := V) stack into path ∧ anc.tail.length ≤ stack.length := h
    by_cases ht : anc.tail = []
    · refine ⟨⟨none, stack, into, path, anc.tail, ch⟩, ?_, ?_, ?_⟩
      · simp [postCtxNext, streamNextE, postCtxAdvance, ht, lossyPostCtxRem, Postorder.ctxGet]
      · simp [lossyPostCtxRem, ht]
      · exact ⟨hi, by simp only [ht]; simp⟩
    · obtain ⟨b, s, e1, e2, e3, e4, e5, o, e6, e7⟩ := postCtxLoop_lossy bad ch stack into path anc.tail hi hl ht
      have er : lossyPostCtxRem bad ⟨none, stack, into, path, anc, ch⟩ =
          upTo (fun anc => anc.length ≤ 1) (lossyPostCtxS bad anc.tail.reverse stack into path) := by
        simp [lossyPostCtxRem, ht]
      obtain ⟨f1, f2⟩ := fin b s o _ e2 e5 e6 e7
      refine ⟨s, ?_, by rw [er]; exact f2, ?_⟩
      · have ea : postCtxAdvance bad ⟨none, stack, into, path, anc, ch⟩ = .ok (b, s) := by
          simp only [postCtxAdvance, List.isEmpty_iff, ht, if_false]
          exact e1
        rw [postCtxNext, streamNextE, ea, er, ← f1]
        cases b <;> rfl
      · obtain ⟨root, stack, into, path, anc, ch⟩ := s
        obtain rfl : root = none := e2
        exact ⟨e3, e4⟩

/-! ## Preorder -/

/-- The calls still to come. -/
def lossyPreCtxS [TreeNode N V] (bad : N → Bool) (anc : List V) :
    List (List N) → List Nat → List (List V × Option (List Nat × List N))
  | f :: rest, p :: path =>
    (Tree.lossyPreCtxL bad path.reverse (wrapSucc p) anc (f.map unfold)).1 ++
      lossyPreCtxS bad (Tree.lossyPreCtxL bad path.reverse (wrapSucc p) anc (f.map unfold)).2.dropLast rest path
  | _, _ => []

/-- Nothing wraps on the levels of the stack, and the last index is less than `usize::MAX`. -/
def LossyPreCtxInvS [TreeNode N V] : List (List N) → List Nat → Prop
  | f :: rest, p :: path =>
    wrapSucc p + f.length < 2 ^ 64 ∧ (∀ n ∈ f, ArityLt n) ∧ LossyPreCtxInvS rest path
  | [], _ => True
  | _, _ => False

theorem wrapSucc_lt {p k : Nat} (h : wrapSucc p + (k + 1) < 2 ^ 64) : wrapSucc (wrapSucc p) = wrapSucc p + 1 := by
  generalize wrapSucc p = q at *
  unfold wrapSucc
  rw [Nat.mod_eq_of_lt (by omega)]

theorem preCtxLoop_lossy [TreeNode N V] (bad : N → Bool) (st : List (List N)) (path : List Nat) (anc : List V)
    (hi : LossyPreCtxInvS (V := V) st path) :
    ((∃ p a, Preorder.ctxLoop st path anc = .ok (none, [], p, a)) ∧ lossyPreCtxS bad anc.reverse st path = []) ∨
      ∃ n ns rest p path' anc', Preorder.ctxLoop st path anc = .ok (some n, ns :: rest, p :: path', anc') ∧
        p < usizeMax ∧ ArityLt n ∧ LossyPreCtxInvS (V := V) (ns :: rest) (p :: path') ∧
        lossyPreCtxS bad anc.reverse st path =
          ((unfold n).lossyPreCtx bad (p :: path').reverse anc'.reverse).1 ++
            lossyPreCtxS bad ((unfold n).lossyPreCtx bad (p :: path').reverse anc'.reverse).2 (ns :: rest)
              (p :: path') := by
  fun_induction Preorder.ctxLoop st path anc with
  | case1 path anc =>
    exact .inl ⟨⟨path, anc, rfl⟩, by cases path <;> rfl⟩
  | case2 rest path anc ih =>
    cases path with
    | nil => exact hi.elim
    | cons p path =>
      have e : lossyPreCtxS bad anc.reverse ([] :: rest) (p :: path) =
          lossyPreCtxS bad anc.tail.reverse rest path := by
        simp [lossyPreCtxS, Tree.lossyPreCtxL]
      rw [e]
      exact ih hi.2.2
  | case3 n ns rest p path anc =>
    obtain ⟨h1, h2, h3⟩ := hi
    rw [List.length_cons] at h1
    refine .inr ⟨n, ns, rest, wrapSucc p, path, anc, rfl, ?_, h2 n (by simp),
      ⟨by rw [wrapSucc_lt h1]; omega, fun m hm => h2 m (by simp [hm]), h3⟩, ?_⟩
    · simp only [usizeMax]; omega
    · simp [lossyPreCtxS, Tree.lossyPreCtxL, wrapSucc_lt h1]
  | case4 => exact hi.elim

/-- The replies still to come in a state. -/
def lossyPreCtxRem [TreeNode N V] (bad : N → Bool) (s : Preorder.CtxState N V) : List (Option (Ctx V (List N))) :=
  match s.root with
  | some r => upTo List.isEmpty ((unfold r).lossyPreCtx bad s.path.reverse []).1
  | none =>
    if s.ancestors.isEmpty then []
    else
      match s.children with
      | some cs => upTo List.isEmpty (lossyPreCtxS bad s.ancestors.reverse (cs :: s.stack) (usizeMax :: s.path))
      | none => upTo List.isEmpty (lossyPreCtxS bad s.ancestors.tail.reverse s.stack s.path)

/-- Reachable states. -/
def LossyPreCtxInv [TreeNode N V] (s : Preorder.CtxState N V) : Prop :=
  match s.root with
  | some r => s.ancestors = [] ∧ s.stack = [] ∧ s.children = none ∧ ArityLt r
  | none => LossyPreCtxInvS (V := V) s.stack s.path ∧
      match s.children with
      | some cs => cs.length < 2 ^ 64 ∧ ∀ n ∈ cs, ArityLt n
      | none => s.ancestors = [] ∨ s.path.head? ≠ some usizeMax

theorem preCtxStep_lossy [TreeNode N V] (bad : N → Bool) (st : List (List N)) (path : List Nat) (anc : List V)
    (hi : LossyPreCtxInvS (V := V) st path) (s : Preorder.CtxState N V)
    (hs : preCtxAdvance bad s =
      match Preorder.ctxLoop st path anc with
      | .error e => .error e
      | .ok (none, st, path, anc) => .ok (false, Preorder.ctxFinish (none, st, path, anc))
      | .ok (some n, st, path, anc) =>
        if bad n then .ok (true, ⟨none, st, path, anc, none⟩)
        else .ok (false, Preorder.ctxFinish (some n, st, path, anc)))
    (hr : lossyPreCtxRem bad s = upTo List.isEmpty (lossyPreCtxS bad anc.reverse st path)) :
    ∃ s', preCtxNext bad s = .ok ((lossyPreCtxRem bad s).head?, s') ∧
      lossyPreCtxRem bad s' = (lossyPreCtxRem bad s).tail ∧ LossyPreCtxInv s' := by
  rw [hr, preCtxNext, streamNextE, hs]
  rcases preCtxLoop_lossy bad st path anc hi with ⟨⟨p, a, e1⟩, e2⟩ | ⟨n, ns, rest, p, path', anc', e1, hp, hn, hv, e2⟩
  · rw [e1, e2]
    refine ⟨_, rfl, rfl, ?_⟩
    simp [LossyPreCtxInv, Preorder.ctxFinish, LossyPreCtxInvS]
  · rw [e1, e2]
    by_cases hb : bad n
    · refine ⟨⟨none, ns :: rest, p :: path', anc', none⟩, ?_, ?_, hv, ?_⟩
      · simp [hb, unfold_eq n, Tree.lossyPreCtx, upTo]
      · simp only [lossyPreCtxRem, unfold_eq n, Tree.lossyPreCtx, hb, if_true, List.singleton_append, upTo, List.tail_cons]
        cases anc' <;> simp
      · exact .inr (by simp only [List.head?_cons, ne_eq, Option.some.injEq]; omega)
    · refine ⟨⟨none, ns :: rest, p :: path', val n :: anc', some (kids n)⟩, ?_, ?_, hv, (Bfs.arityLt_iff n).1 hn⟩
      · simp [hb, unfold_eq n, Tree.lossyPreCtx, upTo, Preorder.ctxFinish, Preorder.ctxGet]
      · simp [lossyPreCtxRem, unfold_eq n, Tree.lossyPreCtx, hb, upTo, lossyPreCtxS, Preorder.wrapSucc_usizeMax]

theorem preCtxNext_lossy [TreeNode N V] (bad : N → Bool) (s : Preorder.CtxState N V) (h : LossyPreCtxInv s) :
    ∃ s', preCtxNext bad s = .ok ((lossyPreCtxRem bad s).head?, s') ∧
      lossyPreCtxRem bad s' = (lossyPreCtxRem bad s).tail ∧ LossyPreCtxInv s' := by
  obtain ⟨root, stack, path, anc, ch⟩ := s
  cases root with
  | some r =>
    obtain ⟨rfl, rfl, rfl, hr⟩ : anc = [] ∧ stack = [] ∧ ch = none ∧ ArityLt r := h
    by_cases hb : bad r
    · refine ⟨⟨none, [], path, [], none⟩, ?_, ?_, ?_⟩
      · simp [preCtxNext, streamNextE, preCtxAdvance, hb, lossyPreCtxRem, unfold_eq r, Tree.lossyPreCtx, upTo]
      · simp [hb, lossyPreCtxRem, unfold_eq r, Tree.lossyPreCtx, upTo]
      · exact ⟨trivial, by simp⟩
    · refine ⟨⟨none, [], path, [val r], some (kids r)⟩, ?_, ?_, ?_⟩
      · simp [preCtxNext, streamNextE, preCtxAdvance, hb, lossyPreCtxRem, unfold_eq r, Tree.lossyPreCtx, upTo,
          Preorder.ctxGet]
      · simp [hb, lossyPreCtxRem, unfold_eq r, Tree.lossyPreCtx, upTo, lossyPreCtxS, Preorder.wrapSucc_usizeMax]
      · exact ⟨trivial, (Bfs.arityLt_iff r).1 hr⟩
  | none =>
    obtain ⟨hi, hc⟩ := h
    by_cases ha : anc = []
    · subst ha
      exact ⟨⟨none, stack, path, [], ch⟩, by simp [preCtxNext, streamNextE, preCtxAdvance, lossyPreCtxRem, Preorder.ctxGet],
        by simp [lossyPreCtxRem], hi, hc⟩
    · cases ch with
      | none =>
        have hc : path.head? ≠ some usizeMax := Or.resolve_left hc ha
        refine preCtxStep_lossy bad stack path anc.tail hi _ ?_ (by simp [lossyPreCtxRem, ha])
        simp only [preCtxAdvance, List.isEmpty_iff, ha, if_false, hc]
        rfl
      | some cs =>
        have hc : cs.length < 2 ^ 64 ∧ ∀ n ∈ cs, ArityLt n := hc
        refine preCtxStep_lossy bad (cs :: stack) (usizeMax :: path) anc
          ⟨by rw [Preorder.wrapSucc_usizeMax]; omega, hc.2, hi⟩ _ ?_ (by simp [lossyPreCtxRem, ha])
        simp only [preCtxAdvance, List.isEmpty_iff, ha, if_false]
        rfl

/-! ## Preorder, binary nodes -/

section
variable [BinNode N V]

/-- The slots from number `i` on of the node at `p`. -/
def lossySlots (bad : N → Bool) (p : List Nat) (i : Nat) (anc : List V) :
    List (Option N) → List (List V × Option (List Nat × (Option N × Option N))) × List V
  | [] => ([], anc)
  | o :: os =>
    ((BinTree.lossyPreCtxO bad (p ++ [i]) anc (o.map unfold2)).1 ++
        (lossySlots bad p (i + 1) (BinTree.lossyPreCtxO bad (p ++ [i]) anc (o.map unfold2)).2 os).1,
      (lossySlots bad p (i + 1) (BinTree.lossyPreCtxO bad (p ++ [i]) anc (o.map unfold2)).2 os).2)

/-- The calls still to come. -/
def lossyPreBinS (bad : N → Bool) (anc : List V) :
    List (List (Option N)) → List Nat → List (List V × Option (List Nat × (Option N × Option N)))
  | f :: rest, p :: path =>
    (lossySlots bad path.reverse (wrapSucc p) anc f).1 ++
      lossyPreBinS bad (lossySlots bad path.reverse (wrapSucc p) anc f).2.dropLast rest path
  | _, _ => []

omit [BinNode N V] in
/-- Every level has the slots that are left of two. -/
def LossyPreBinInvS : List (List (Option N)) → List Nat → Prop
  | f :: rest, p :: path => wrapSucc p + f.length = 2 ∧ LossyPreBinInvS rest path
  | [], _ => True
  | _, _ => False

theorem lossyPreCtx_unfold2 (bad : N → Bool) (p : List Nat) (anc : List V) (n : N) :
    (unfold2 n).lossyPreCtx bad p anc =
      if bad n then ([(anc, none)], anc.dropLast)
      else
        ((anc ++ [val2 n], some (p, (split2 n).2)) ::
            (lossySlots bad p 0 (anc ++ [val2 n]) [(split2 n).2.1, (split2 n).2.2]).1,
          (lossySlots bad p 0 (anc ++ [val2 n]) [(split2 n).2.1, (split2 n).2.2]).2.dropLast) := by
  rw [unfold2_eq, BinTree.lossyPreCtx]
  by_cases hb : bad n <;> simp [hb, lossySlots]

theorem preBinCtxLoop_lossy (bad : N → Bool) (st : List (List (Option N))) (path : List Nat) (anc : List V)
    (hi : LossyPreBinInvS st path) :
    ((∃ p a, Preorder.binCtxLoop st path anc = .ok (none, [], p, a)) ∧ lossyPreBinS bad anc.reverse st path = []) ∨
      ∃ n ns rest p path' anc', Preorder.binCtxLoop st path anc = .ok (some n, ns :: rest, p :: path', anc') ∧
        p < usizeMax ∧ LossyPreBinInvS (ns :: rest) (p :: path') ∧
        lossyPreBinS bad anc.reverse st path =
          ((unfold2 n).lossyPreCtx bad (p :: path').reverse anc'.reverse).1 ++
            lossyPreBinS bad ((unfold2 n).lossyPreCtx bad (p :: path').reverse anc'.reverse).2 (ns :: rest)
              (p :: path') := by
  fun_induction Preorder.binCtxLoop st path anc with
  | case1 path anc =>
    exact .inl ⟨⟨path, anc, rfl⟩, by cases path <;> rfl⟩
  | case2 rest path anc ih =>
    cases path with
    | nil => exact hi.elim
    | cons p path =>
      have e : lossyPreBinS bad anc.reverse ([] :: rest) (p :: path) =
          lossyPreBinS bad anc.tail.reverse rest path := by
        simp [lossyPreBinS, lossySlots]
      rw [e]
      exact ih hi.2
  | case3 n ss rest p path anc =>
    obtain ⟨h1, h3⟩ := hi
    rw [List.length_cons] at h1
    have hw : wrapSucc (wrapSucc p) = wrapSucc p + 1 := wrapSucc_lt (k := ss.length) (by omega)
    refine .inr ⟨n, ss, rest, wrapSucc p, path, anc, rfl, ?_, ⟨by rw [hw]; omega, h3⟩, ?_⟩
    · simp only [usizeMax]; omega
    · simp [lossyPreBinS, lossySlots, hw, BinTree.lossyPreCtxO]
  | case4 ss rest p path anc ih =>
    obtain ⟨h1, h3⟩ := hi
    rw [List.length_cons] at h1
    have hw : wrapSucc (wrapSucc p) = wrapSucc p + 1 := wrapSucc_lt (k := ss.length) (by omega)
    have e : lossyPreBinS bad anc.reverse ((none :: ss) :: rest) (p :: path) =
        lossyPreBinS bad anc.reverse (ss :: rest) (wrapSucc p :: path) := by
      simp [lossyPreBinS, lossySlots, hw, BinTree.lossyPreCtxO]
    rw [e]
    exact ih ⟨by rw [hw]; omega, h3⟩
  | case5 => exact hi.elim

/-- The replies still to come in a state. -/
def lossyPreBinRem (bad : N → Bool) (s : Preorder.BinCtxState N V) : List (Option (Ctx V (Option N × Option N))) :=
  match s.root with
  | some r => upTo List.isEmpty ((unfold2 r).lossyPreCtx bad s.path.reverse []).1
  | none =>
    if s.ancestors.isEmpty then []
    else
      match s.children with
      | some cs => upTo List.isEmpty (lossyPreBinS bad s.ancestors.reverse ([cs.1, cs.2] :: s.stack) (usizeMax :: s.path))
      | none => upTo List.isEmpty (lossyPreBinS bad s.ancestors.tail.reverse s.stack s.path)

omit [BinNode N V] in
/-- Reachable states. -/
def LossyPreBinInv (s : Preorder.BinCtxState N V) : Prop :=
  match s.root with
  | some _ => s.ancestors = [] ∧ s.stack = [] ∧ s.children = none
  | none => LossyPreBinInvS s.stack s.path ∧
      match s.children with
      | some _ => True
      | none => s.ancestors = [] ∨ s.path.head? ≠ some usizeMax

theorem preBinCtxStep_lossy (bad : N → Bool) (st : List (List (Option N))) (path : List Nat) (anc : List V)
    (hi : LossyPreBinInvS st path) (s : Preorder.BinCtxState N V)
    (hs : preBinCtxAdvance bad s =
      match Preorder.binCtxLoop st path anc with
      | .error e => .error e
      | .ok (none, st, path, anc) => .ok (false, Preorder.binCtxFinish (none, st, path, anc))
      | .ok (some n, st, path, anc) =>
        if bad n then .ok (true, ⟨none, st, path, anc, none⟩)
        else .ok (false, Preorder.binCtxFinish (some n, st, path, anc)))
    (hr : lossyPreBinRem bad s = upTo List.isEmpty (lossyPreBinS bad anc.reverse st path)) :
    ∃ s', preBinCtxNext bad s = .ok ((lossyPreBinRem bad s).head?, s') ∧
      lossyPreBinRem bad s' = (lossyPreBinRem bad s).tail ∧ LossyPreBinInv s' := by
  rw [hr, preBinCtxNext, streamNextE, hs]
  rcases preBinCtxLoop_lossy bad st path anc hi with ⟨⟨p, a, e1⟩, e2⟩ | ⟨n, ns, rest, p, path', anc', e1, hp, hv, e2⟩
  · rw [e1, e2]
    refine ⟨_, rfl, rfl, ?_⟩
    simp [LossyPreBinInv, Preorder.binCtxFinish, LossyPreBinInvS]
  · rw [e1, e2]
    by_cases hb : bad n
    · refine ⟨⟨none, ns :: rest, p :: path', anc', none⟩, ?_, ?_, hv, ?_⟩
      · simp [hb, lossyPreCtx_unfold2, upTo]
      · simp only [lossyPreBinRem, lossyPreCtx_unfold2, hb, if_true, List.singleton_append, upTo, List.tail_cons]
        cases anc' <;> simp
      · exact .inr (by simp only [List.head?_cons, ne_eq, Option.some.injEq]; omega)
    · refine ⟨⟨none, ns :: rest, p :: path', val2 n :: anc', some (split2 n).2⟩, ?_, ?_, hv, trivial⟩
      · simp [hb, lossyPreCtx_unfold2, upTo, Preorder.binCtxFinish, Preorder.binCtxGet]
      · simp [lossyPreBinRem, lossyPreCtx_unfold2, hb, upTo, lossyPreBinS, Preorder.wrapSucc_usizeMax]

theorem preBinCtxNext_lossy (bad : N → Bool) (s : Preorder.BinCtxState N V) (h : LossyPreBinInv s) :
    ∃ s', preBinCtxNext bad s = .ok ((lossyPreBinRem bad s).head?, s') ∧
      lossyPreBinRem bad s' = (lossyPreBinRem bad s).tail ∧ LossyPreBinInv s' := by
  obtain ⟨root, stack, path, anc, ch⟩ := s
  cases root with
  | some r =>
    obtain ⟨rfl, rfl, rfl⟩ : anc = [] ∧ stack = [] ∧ ch = none := h
    by_cases hb : bad r
    · refine ⟨⟨none, [], path, [], none⟩, ?_, ?_, trivial, by simp⟩
      · simp [preBinCtxNext, streamNextE, preBinCtxAdvance, hb, lossyPreBinRem, lossyPreCtx_unfold2, upTo]
      · simp [hb, lossyPreBinRem, lossyPreCtx_unfold2, upTo]
    · refine ⟨⟨none, [], path, [val2 r], some (split2 r).2⟩, ?_, ?_, trivial, trivial⟩
      · simp [preBinCtxNext, streamNextE, preBinCtxAdvance, hb, lossyPreBinRem, lossyPreCtx_unfold2, upTo,
          Preorder.binCtxGet]
      · simp [hb, lossyPreBinRem, lossyPreCtx_unfold2, upTo, lossyPreBinS, Preorder.wrapSucc_usizeMax]
  | none =>
    obtain ⟨hi, hc⟩ := h
    by_cases ha : anc = []
    · subst ha
      exact ⟨⟨none, stack, path, [], ch⟩,
        by simp [preBinCtxNext, streamNextE, preBinCtxAdvance, lossyPreBinRem, Preorder.binCtxGet],
        by simp [lossyPreBinRem], hi, hc⟩
    · cases ch with
      | none =>
        have hc : path.head? ≠ some usizeMax := Or.resolve_left hc ha
        refine preBinCtxStep_lossy bad stack path anc.tail hi _ ?_ (by simp [lossyPreBinRem, ha])
        simp only [preBinCtxAdvance, List.isEmpty_iff, ha, if_false, hc]
        rfl
      | some cs =>
        refine preBinCtxStep_lossy bad ([cs.1, cs.2] :: stack) (usizeMax :: path) anc
          ⟨by rw [Preorder.wrapSucc_usizeMax]; rfl, hi⟩ _ ?_ (by simp [lossyPreBinRem, ha])
        simp only [preBinCtxAdvance, List.isEmpty_iff, ha, if_false]
        rfl

end

end Fail

end TreeIter
