import Verif.Model.Postorder
import Verif.Lemmas.Preorder

/-! # Lemmas about the postorder machines -/

universe u v w x

namespace TreeIter

namespace Postorder

variable {N : Type u} {V : Type v}

/-! ## Plain iterator -/

theorem postorder_treeOf [TreeNode N V] (n : N) :
    (treeOf n).postorder = ((kids n).flatMap fun c => (treeOf c).postorder) ++ [val n] := by
  rw [treeOf_eq, Tree.postorder_node, List.flatMap_map]

/-- Values still to come from the stacks. -/
def remS [TreeNode N V] : List (List N) → List V → List V
  | [], _ => []
  | ns :: rest, items => (ns.flatMap fun n => (treeOf n).postorder) ++ items.head?.toList ++ remS rest items.tail

/-- Values still to come. -/
def rem [TreeNode N V] (s : State N V) : List V :=
  match s.root with
  | some r => (treeOf r).postorder
  | none => remS s.stack s.items

/-- Reachable states: one item per iterator. -/
def Inv (s : State N V) : Prop :=
  s.items.length = s.stack.length ∧ (s.root ≠ none → s.stack = [])

theorem loop_spec [TreeNode N V] (stack : List (List N)) (items : List V)
    (h : items.length = stack.length) :
    (loop stack items).1 = (remS stack items).head? ∧
      remS (loop stack items).2.2 (loop stack items).2.1 = (remS stack items).tail ∧
      (loop stack items).2.1.length = (loop stack items).2.2.length := by
  fun_induction loop stack items with
  | case1 items =>
    obtain rfl : items = [] := by simpa using h
    simp [remS]
  | case2 rest items =>
    cases items with
    | nil => simp at h
    | cons a items => simpa [remS] using h
  | case3 n ns rest items ih =>
    have := ih (by simpa using h)
    simpa [remS, postorder_treeOf n] using this

theorem next_spec [TreeNode N V] (s : State N V) (h : Inv s) :
    (next s).1 = (rem s).head? ∧ rem (next s).2 = (rem s).tail ∧ Inv (next s).2 := by
  obtain ⟨root, items, stack⟩ := s
  obtain ⟨h1, h2⟩ := h
  simp only at h1 h2
  cases root with
  | some r =>
    obtain rfl := h2 (by simp)
    obtain rfl : items = [] := by simpa using h1
    have := loop_spec [kids r] [val r] rfl
    simpa [next, rem, Inv, remS, postorder_treeOf r] using this
  | none =>
    have := loop_spec stack items h1
    simpa [next, rem, Inv] using this

/-! ## Ancestors -/

/-- Ancestor lists still to come from the stacks. -/
def ancRemS [TreeNode N V] : List (List N) → List V → List (List V)
  | [], _ => []
  | ns :: rest, items =>
    (ns.flatMap fun n => (ancT items.reverse (treeOf n)).postorder) ++ [items.reverse] ++
      ancRemS rest items.tail

/-- Ancestor lists still to come. -/
def ancRem [TreeNode N V] (s : AncState N V) : List (List V) :=
  match s.root with
  | some r => (ancT [] (treeOf r)).postorder
  | none => ancRemS s.stack s.items.tail

/-- Reachable states: after popping the current item there is one item per iterator. -/
def AncInv (s : AncState N V) : Prop :=
  match s.root with
  | some _ => s.items = [] ∧ s.stack = []
  | none => s.items.tail.length = s.stack.length

theorem postorder_ancT_treeOf [TreeNode N V] (anc : List V) (n : N) :
    (ancT anc (treeOf n)).postorder =
      ((kids n).flatMap fun c => (ancT (anc ++ [val n]) (treeOf c)).postorder) ++ [anc ++ [val n]] := by
  rw [ancT_treeOf, Tree.postorder_node, List.flatMap_map]

theorem ancLoop_spec [TreeNode N V] (stack : List (List N)) (items : List V)
    (h : items.length = stack.length) :
    ancGet ⟨none, (ancLoop stack items).1, (ancLoop stack items).2⟩ = (ancRemS stack items).head? ∧
      ancRemS (ancLoop stack items).2 (ancLoop stack items).1.tail = (ancRemS stack items).tail ∧
      (ancLoop stack items).1.tail.length = (ancLoop stack items).2.length := by
  fun_induction ancLoop stack items with
  | case1 items =>
    obtain rfl : items = [] := by simpa using h
    simp [ancRemS, ancGet]
  | case2 rest items =>
    cases items with
    | nil => simp at h
    | cons a items => simpa [ancRemS, ancGet] using h
  | case3 n ns rest items ih =>
    have := ih (by simpa using h)
    simpa [ancRemS, postorder_ancT_treeOf _ n] using this

theorem ancNext_spec [TreeNode N V] (s : AncState N V) (h : AncInv s) :
    (ancNext s).1 = (ancRem s).head? ∧ ancRem (ancNext s).2 = (ancRem s).tail ∧ AncInv (ancNext s).2 := by
  obtain ⟨root, items, stack⟩ := s
  cases root with
  | some r =>
    obtain ⟨h1, h2⟩ := h
    simp only at h1 h2
    subst h1 h2
    have := ancLoop_spec [kids r] [val r] rfl
    simpa [ancNext, streamNext, ancAdvance, ancRem, AncInv, ancRemS, postorder_ancT_treeOf _ r] using this
  | none =>
    have := ancLoop_spec stack items.tail h
    simpa [ancNext, streamNext, ancAdvance, ancRem, AncInv] using this

/-! ## Context, borrowed general nodes -/

/-- Contexts still to come from the stacks; `anc` excludes the node just yielded. -/
def ctxRemS [TreeNode N V] :
    List (List N) → List (List N) → List Nat → List V → List (Ctx V (List N))
  | [], _, _, _ => []
  | ns :: rest, into, path, anc =>
    (match path with
      | [] => []
      | p :: ps => Tree.postorderL (ctxTL ps.reverse anc.reverse (wrapSucc p) (ns.map unfold))) ++
    [⟨path.tail.reverse, anc.reverse, into.head?⟩] ++
    ctxRemS rest into.tail path.tail anc.tail

/-- The stacks fit together. -/
def CtxInvS [TreeNode N V] : List (List N) → List (List N) → List Nat → List V → Prop
  | [], into, _, anc => anc = [] ∧ into = []
  | ns :: rest, into, path, anc =>
    (∃ p ps, path = p :: ps ∧ wrapSucc p + ns.length ≤ 2 ^ 64) ∧ (∀ n ∈ ns, ArityOk n) ∧
      anc ≠ [] ∧ into ≠ [] ∧ CtxInvS rest into.tail path.tail anc.tail

/-- Contexts still to come. -/
def ctxRem [TreeNode N V] (s : CtxState N V) : List (Ctx V (List N)) :=
  match s.root with
  | some r => (ctxT s.path.reverse [] (unfold r)).postorder
  | none => ctxRemS s.stack s.into s.path s.ancestors.tail

/-- Reachable states. -/
def CtxInv [TreeNode N V] (s : CtxState N V) : Prop :=
  match s.root with
  | some r => s.ancestors = [] ∧ s.stack = [] ∧ s.into = [] ∧ ArityOk r
  | none => CtxInvS s.stack s.into s.path s.ancestors.tail

open Preorder (wrapSucc_usizeMax wrapSucc_step)

theorem postorder_ctxT_unfold [TreeNode N V] (path : List Nat) (anc : List V) (n : N) :
    (ctxT path anc (unfold n)).postorder =
      Tree.postorderL (ctxTL path (anc ++ [val n]) 0 ((kids n).map unfold)) ++
        [⟨path, anc ++ [val n], some (kids n)⟩] := by
  rw [unfold_eq, ctxT, Tree.postorder]

theorem ctxTL_wrap [TreeNode N V] (path : List Nat) (anc : List V) {p : Nat} (ts : List N)
    (h : wrapSucc p + (ts.length + 1) ≤ 2 ^ 64) :
    ctxTL path anc (wrapSucc (wrapSucc p)) (ts.map unfold) = ctxTL path anc (wrapSucc p + 1) (ts.map unfold) := by
  cases ts with
  | nil => rfl
  | cons s ss => rw [(wrapSucc_step h).2 (by simp)]

theorem ctxLoop_spec [TreeNode N V] (stack into : List (List N)) (path : List Nat) (anc : List V)
    (h : CtxInvS stack into path anc) (hne : stack ≠ []) :
    ∃ s, ctxLoop stack into path anc = .ok s ∧ s.root = none ∧
      ctxGet s = (ctxRemS stack into path anc).head? ∧
      ctxRem s = (ctxRemS stack into path anc).tail ∧ CtxInv s := by
  fun_induction ctxLoop stack into path anc with
  | case1 n ns rest into p path anc ih =>
    obtain ⟨⟨p, ps, e, hlen⟩, har, hanc, hinto, hrest⟩ := h
    obtain ⟨rfl, rfl⟩ := List.cons.inj e
    simp only [List.length_cons] at hlen
    obtain ⟨hb, hs⟩ := wrapSucc_step hlen
    obtain ⟨h1, h2⟩ := (arityOk_iff n).1 (har n (by simp))
    have := ih ⟨⟨_, _, rfl, by rw [wrapSucc_usizeMax]; omega⟩, h2, by simp, by simp,
      ⟨_, _, rfl, hb⟩, fun m hm => har m (by simp [hm]), hanc, hinto, hrest⟩ (by simp)
    simpa only [ctxRemS, List.map_cons, ctxTL, Tree.postorderL, postorder_ctxT_unfold,
      wrapSucc_usizeMax, List.tail_cons, List.reverse_cons, List.head?_cons, List.append_assoc,
      List.cons_append, List.nil_append, ctxTL_wrap _ _ ns hlen] using this
  | case2 => obtain ⟨⟨p, ps, e, hlen⟩, _⟩ := h; simp at e
  | case3 rest c into path anc =>
    obtain ⟨⟨p, ps, rfl, hlen⟩, har, hanc, hinto, hrest⟩ := h
    refine ⟨_, rfl, rfl, ?_⟩
    have : anc.isEmpty = false := by simpa using hanc
    simp only [ctxGet, this, ctxRemS, ctxRem, CtxInv]
    simpa [ctxTL, Tree.postorderL] using hrest
  | case4 => exact absurd rfl hne
  | case5 => obtain ⟨_, _, _, hinto, _⟩ := h; exact absurd rfl hinto
  | case6 => exact absurd rfl hne

theorem ctxNext_spec [TreeNode N V] (s : CtxState N V) (h : CtxInv s) :
    ∃ s', ctxNext s = .ok ((ctxRem s).head?, s') ∧ ctxRem s' = (ctxRem s).tail ∧ CtxInv s' := by
  obtain ⟨root, stack, into, path, anc, children⟩ := s
  cases root with
  | some r =>
    obtain ⟨h1, h2, h3, har⟩ := h
    simp only at h1 h2 h3
    subst h1 h2 h3
    obtain ⟨h1, h2⟩ := (arityOk_iff r).1 har
    obtain ⟨s', e, _, i1, i2, i3⟩ := ctxLoop_spec [kids r] [kids r] (usizeMax :: path) [val r]
      ⟨⟨_, _, rfl, by rw [wrapSucc_usizeMax]; omega⟩, h2, by simp, by simp, by simp [CtxInvS]⟩ (by simp)
    refine ⟨s', ?_, ?_, i3⟩
    · simp only [ctxNext, streamNextE, ctxAdvance, e, i1]
      simp [ctxRemS, ctxRem, wrapSucc_usizeMax, postorder_ctxT_unfold]
    · rw [i2]
      simp [ctxRemS, ctxRem, wrapSucc_usizeMax, postorder_ctxT_unfold]
  | none =>
    cases hanc : anc.tail with
    | nil =>
      refine ⟨⟨none, stack, into, path, [], children⟩, ?_, ?_⟩ <;> cases stack with
      | nil =>
        simp only [CtxInv, CtxInvS] at h
        simp [ctxNext, streamNextE, ctxAdvance, ctxGet, ctxRem, CtxInv, CtxInvS, ctxRemS, h]
      | cons ns rest => obtain ⟨_, _, h, _⟩ := h; exact absurd hanc h
    | cons a as =>
      have hne : stack ≠ [] := by
        rintro rfl
        simp [CtxInv, CtxInvS, hanc] at h
      obtain ⟨s', e, _, i1, i2, i3⟩ := ctxLoop_spec _ _ _ _ h hne
      refine ⟨s', ?_, i2, i3⟩
      simp only [ctxNext, streamNextE, ctxAdvance, hanc, List.isEmpty_cons, Bool.false_eq_true,
        if_false, ctxRem] at e ⊢
      simp only [e, i1, hanc]

/-! ## Context, owned general nodes -/

/-- Forget the saved children. -/
def CtxState.own (s : CtxState N V) : OwnCtxState N V := ⟨s.root, s.stack, s.path, s.ancestors⟩

theorem ownCtxLoop_sim [TreeNode N V] (stack into : List (List N)) (path : List Nat) (anc : List V)
    (s : CtxState N V) (h : ctxLoop stack into path anc = .ok s) :
    ownCtxLoop stack path anc = .ok s.own := by
  fun_induction ctxLoop stack into path anc with
  | case1 n ns rest into p path anc ih => rw [ownCtxLoop]; exact ih h
  | case2 => cases h
  | case3 rest c into path anc => cases h; rw [ownCtxLoop]; rfl
  | case4 c into path anc => cases h; rw [ownCtxLoop]; rfl
  | case5 => cases h
  | case6 => cases h

theorem ownCtxNext_sim [TreeNode N V] (s s' : CtxState N V) (o : Option (Ctx V (List N)))
    (h : ctxNext s = .ok (o, s')) : ownCtxNext s.own = .ok (o.map Ctx.noChildren, s'.own) := by
  have key : ∀ a b : CtxState N V, ctxAdvance a = .ok b → ownCtxAdvance a.own = .ok b.own := by
    intro a b hab
    obtain ⟨root, stack, into, path, anc, children⟩ := a
    cases root with
    | some r => exact ownCtxLoop_sim _ _ _ _ _ hab
    | none =>
      by_cases hc : anc.tail.isEmpty = true
      · simp only [ctxAdvance, hc, if_true] at hab
        cases hab
        simp [ownCtxAdvance, CtxState.own, hc]
      · simp only [ctxAdvance, hc] at hab
        have := ownCtxLoop_sim _ _ _ _ _ hab
        simpa [ownCtxAdvance, CtxState.own, hc] using this
  simp only [ctxNext, streamNextE, ownCtxNext] at h ⊢
  cases hs : ctxAdvance s with
  | error e => rw [hs] at h; cases h
  | ok b =>
    rw [hs] at h
    cases h
    rw [key s s' hs]
    by_cases hc : s'.ancestors.isEmpty = true <;>
      simp [ownCtxGet, ctxGet, CtxState.own, hc, Ctx.noChildren]

/-! ## Context, borrowed binary nodes -/

/-- Postorder of a list of binary trees. -/
def postL {α : Type u} (ts : List (BinTree α)) : List α := ts.flatMap fun t => t.toTree.postorder

/-- Contexts still to come from the stacks. -/
def binCtxRemS [BinNode N V] : List (List (Option N)) → List (Option N × Option N) → List Nat → List V →
    List (Ctx V (Option N × Option N))
  | [], _, _, _ => []
  | ss :: rest, into, path, anc =>
    (match path with
      | [] => []
      | p :: ps => postL (ctxSlots ps.reverse anc.reverse (wrapSucc p) ss)) ++
    [⟨path.tail.reverse, anc.reverse, into.head?⟩] ++
    binCtxRemS rest into.tail path.tail anc.tail

/-- The stacks fit together. -/
def BinCtxInvS : List (List (Option N)) → List (Option N × Option N) → List Nat → List V → Prop
  | [], into, _, anc => anc = [] ∧ into = []
  | ss :: rest, into, path, anc =>
    (∃ p ps, path = p :: ps ∧ wrapSucc p + ss.length ≤ 2 ^ 64) ∧
      anc ≠ [] ∧ into ≠ [] ∧ BinCtxInvS rest into.tail path.tail anc.tail

/-- Contexts still to come. -/
def binCtxRem [BinNode N V] (s : BinCtxState N V) : List (Ctx V (Option N × Option N)) :=
  match s.root with
  | some r => (ctxB s.path.reverse [] (unfold2 r)).toTree.postorder
  | none => binCtxRemS s.stack s.into s.path s.ancestors.tail

/-- Reachable states. -/
def BinCtxInv (s : BinCtxState N V) : Prop :=
  match s.root with
  | some _ => s.ancestors = [] ∧ s.stack = [] ∧ s.into = []
  | none => BinCtxInvS s.stack s.into s.path s.ancestors.tail

theorem postorder_ctxB_unfold2 [BinNode N V] (path : List Nat) (anc : List V) (n : N) :
    (ctxB path anc (unfold2 n)).toTree.postorder =
      postL (ctxSlots path (anc ++ [val2 n]) 0 (slots n)) ++
        [⟨path, anc ++ [val2 n], some (split2 n).2⟩] := by
  rw [unfold2_eq, ctxB, BinTree.toTree, Tree.postorder, Tree.postorderL_eq]
  congr 1
  simp only [slots]
  cases (split2 n).2.1 <;> cases (split2 n).2.2 <;>
    simp [ctxBO, BinTree.slotTrees, ctxSlots, postL]

open Preorder (ctxSlots_wrap)

theorem binCtxLoop_spec [BinNode N V] (stack : List (List (Option N))) (into : List (Option N × Option N))
    (path : List Nat) (anc : List V)
    (h : BinCtxInvS stack into path anc) (hne : stack ≠ []) :
    ∃ s, binCtxLoop stack into path anc = .ok s ∧ s.root = none ∧
      binCtxGet s = (binCtxRemS stack into path anc).head? ∧
      binCtxRem s = (binCtxRemS stack into path anc).tail ∧ BinCtxInv s := by
  fun_induction binCtxLoop stack into path anc with
  | case1 n ss rest into p path anc ih =>
    obtain ⟨⟨p, ps, e, hlen⟩, hanc, hinto, hrest⟩ := h
    obtain ⟨rfl, rfl⟩ := List.cons.inj e
    simp only [List.length_cons] at hlen
    obtain ⟨hb, hs⟩ := wrapSucc_step hlen
    have := ih ⟨⟨_, _, rfl, by rw [wrapSucc_usizeMax]; simp [slots]⟩, by simp, by simp,
      ⟨_, _, rfl, hb⟩, hanc, hinto, hrest⟩ (by simp)
    simpa only [binCtxRemS, ctxSlots, postL, List.flatMap_cons, postorder_ctxB_unfold2,
      wrapSucc_usizeMax, List.tail_cons, List.reverse_cons, List.head?_cons, List.append_assoc,
      List.cons_append, List.nil_append, ctxSlots_wrap _ _ ss hlen] using this
  | case2 ss rest into p path anc ih =>
    obtain ⟨⟨p, ps, e, hlen⟩, hanc, hinto, hrest⟩ := h
    obtain ⟨rfl, rfl⟩ := List.cons.inj e
    simp only [List.length_cons] at hlen
    obtain ⟨hb, hs⟩ := wrapSucc_step hlen
    have := ih ⟨⟨_, _, rfl, hb⟩, hanc, hinto, hrest⟩ (by simp)
    simpa only [binCtxRemS, ctxSlots, List.tail_cons, ctxSlots_wrap _ _ ss hlen] using this
  | case3 => obtain ⟨⟨p, ps, e, hlen⟩, _⟩ := h; simp at e
  | case4 rest c into path anc =>
    obtain ⟨⟨p, ps, rfl, hlen⟩, hanc, hinto, hrest⟩ := h
    refine ⟨_, rfl, rfl, ?_⟩
    have : anc.isEmpty = false := by simpa using hanc
    simp only [binCtxGet, this, binCtxRemS, binCtxRem, BinCtxInv]
    simpa [ctxSlots, postL] using hrest
  | case5 => exact absurd rfl hne
  | case6 => obtain ⟨_, _, hinto, _⟩ := h; exact absurd rfl hinto
  | case7 => exact absurd rfl hne

theorem binCtxNext_spec [BinNode N V] (s : BinCtxState N V) (h : BinCtxInv s) :
    ∃ s', binCtxNext s = .ok ((binCtxRem s).head?, s') ∧ binCtxRem s' = (binCtxRem s).tail ∧
      BinCtxInv s' := by
  obtain ⟨root, stack, into, path, anc, children⟩ := s
  cases root with
  | some r =>
    obtain ⟨h1, h2, h3⟩ := h
    simp only at h1 h2 h3
    subst h1 h2 h3
    obtain ⟨s', e, _, i1, i2, i3⟩ := binCtxLoop_spec [slots r] [(split2 r).2] (usizeMax :: path) [val2 r]
      ⟨⟨_, _, rfl, by rw [wrapSucc_usizeMax]; simp [slots]⟩, by simp, by simp, by simp [BinCtxInvS]⟩ (by simp)
    refine ⟨s', ?_, ?_, i3⟩
    · simp only [binCtxNext, streamNextE, binCtxAdvance, e, i1]
      simp [binCtxRemS, binCtxRem, wrapSucc_usizeMax, postorder_ctxB_unfold2]
    · rw [i2]
      simp [binCtxRemS, binCtxRem, wrapSucc_usizeMax, postorder_ctxB_unfold2]
  | none =>
    cases hanc : anc.tail with
    | nil =>
      refine ⟨⟨none, stack, into, path, [], children⟩, ?_, ?_⟩ <;> cases stack with
      | nil =>
        simp only [BinCtxInv, BinCtxInvS] at h
        simp [binCtxNext, streamNextE, binCtxAdvance, binCtxGet, binCtxRem, BinCtxInv, BinCtxInvS, binCtxRemS, h]
      | cons ns rest => obtain ⟨_, h, _⟩ := h; exact absurd hanc h
    | cons a as =>
      have hne : stack ≠ [] := by
        rintro rfl
        simp [BinCtxInv, BinCtxInvS, hanc] at h
      obtain ⟨s', e, _, i1, i2, i3⟩ := binCtxLoop_spec _ _ _ _ h hne
      refine ⟨s', ?_, i2, i3⟩
      simp only [binCtxNext, streamNextE, binCtxAdvance, hanc, List.isEmpty_cons, Bool.false_eq_true,
        if_false, binCtxRem] at e ⊢
      simp only [e, i1, hanc]

theorem mutBinCtxNext_spec [BinNode N V] (s : BinCtxState N V) (h : BinCtxInv s) :
    ∃ s', mutBinCtxNext s = .ok ((binCtxRem s).head?, s') ∧ binCtxRem s' = (binCtxRem s).tail ∧
      BinCtxInv s' :=
  binCtxNext_spec { s with children := none } h

/-! ## Context, owned binary nodes -/

/-- Forget the saved children. -/
def BinCtxState.own (s : BinCtxState N V) : OwnBinCtxState N V := ⟨s.root, s.stack, s.path, s.ancestors⟩

theorem ownBinCtxLoop_sim [BinNode N V] (stack : List (List (Option N)))
    (into : List (Option N × Option N)) (path : List Nat) (anc : List V)
    (s : BinCtxState N V) (h : binCtxLoop stack into path anc = .ok s) :
    ownBinCtxLoop stack path anc = .ok s.own := by
  fun_induction binCtxLoop stack into path anc with
  | case1 n ns rest into p path anc ih => rw [ownBinCtxLoop]; exact ih h
  | case2 ns rest into p path anc ih => rw [ownBinCtxLoop]; exact ih h
  | case3 => cases h
  | case4 rest c into path anc => cases h; rw [ownBinCtxLoop]; rfl
  | case5 c into path anc => cases h; rw [ownBinCtxLoop]; rfl
  | case6 => cases h
  | case7 => cases h

theorem ownBinCtxNext_sim [BinNode N V] (s s' : BinCtxState N V) (o : Option (Ctx V (Option N × Option N)))
    (h : binCtxNext s = .ok (o, s')) : ownBinCtxNext s.own = .ok (o.map Ctx.noChildren, s'.own) := by
  have key : ∀ a b : BinCtxState N V, binCtxAdvance a = .ok b → ownBinCtxAdvance a.own = .ok b.own := by
    intro a b hab
    obtain ⟨root, stack, into, path, anc, children⟩ := a
    cases root with
    | some r => exact ownBinCtxLoop_sim _ _ _ _ _ hab
    | none =>
      by_cases hc : anc.tail.isEmpty = true
      · simp only [binCtxAdvance, hc, if_true] at hab
        cases hab
        simp [ownBinCtxAdvance, BinCtxState.own, hc]
      · simp only [binCtxAdvance, hc] at hab
        have := ownBinCtxLoop_sim _ _ _ _ _ hab
        simpa [ownBinCtxAdvance, BinCtxState.own, hc] using this
  simp only [binCtxNext, streamNextE, ownBinCtxNext] at h ⊢
  cases hs : binCtxAdvance s with
  | error e => rw [hs] at h; cases h
  | ok b =>
    rw [hs] at h
    cases h
    rw [key s s' hs]
    by_cases hc : s'.ancestors.isEmpty = true <;>
      simp [ownBinCtxGet, binCtxGet, BinCtxState.own, hc, Ctx.noChildren]

end Postorder

/-- If every step of one machine is matched by a step of another with transformed output, so is every call. -/
theorem nthCallE_sim {S : Type u} {S' : Type v} {O : Type w} {O' : Type x}
    {next : S → Except Panic (Option O × S)} {next' : S' → Except Panic (Option O' × S')}
    (f : S → S') (g : O → O')
    (hsim : ∀ s o s1, next s = .ok (o, s1) → next' (f s) = .ok (o.map g, f s1))
    (n : Nat) (s : S) (o : Option O) (h : nthCallE next n s = .ok o) :
    nthCallE next' n (f s) = .ok (o.map g) := by
  induction n generalizing s with
  | zero =>
    simp only [nthCallE, stateAfterE] at h ⊢
    cases hs : next s with
    | error e => rw [hs] at h; cases h
    | ok r =>
      rw [hs] at h
      cases h
      rw [hsim s r.1 r.2 hs]
  | succ n ih =>
    simp only [nthCallE, stateAfterE] at h ⊢
    cases hs : next s with
    | error e => rw [hs] at h; cases h
    | ok r =>
      rw [hs] at h
      rw [hsim s r.1 r.2 hs]
      exact ih r.2 h

end TreeIter
