import Verif.Lemmas.Decor

/-! # Lemmas about the preorder machines -/

universe u v w

namespace TreeIter

namespace Preorder

variable {N : Type u} {V : Type v}

/-! ## Plain iterator -/

/-- Values still to come. -/
def rem [TreeNode N V] (s : State N) : List V :=
  (match s.root with | some r => (treeOf r).preorder | none => []) ++
    s.stack.flatMap fun ns => ns.flatMap fun n => (treeOf n).preorder

theorem preorder_treeOf [TreeNode N V] (n : N) :
    (treeOf n).preorder = val n :: (kids n).flatMap fun c => (treeOf c).preorder := by
  rw [treeOf_eq, Tree.preorder_node, List.flatMap_map]

theorem next_spec [TreeNode N V] (s : State N) :
    (next s).1 = (rem s).head? ∧ rem (next s).2 = (rem s).tail := by
  obtain ⟨root, stack⟩ := s
  cases root with
  | some r => simp [next, rem, preorder_treeOf r]
  | none =>
    induction stack with
    | nil => simp [next, rem, loop]
    | cons ns rest ih =>
      cases ns with
      | nil => simpa [next, rem, loop] using ih
      | cons n ns => simp [next, rem, loop, preorder_treeOf n]

/-! ## Ancestors -/

/-- Ancestor lists still to come from the stack. -/
def ancRemS [TreeNode N V] : List (List N) → List V → List (List V)
  | [], _ => []
  | ns :: rest, it => (ns.flatMap fun n => (ancT it.reverse (treeOf n)).preorder) ++ ancRemS rest it.tail

/-- Ancestor lists still to come. -/
def ancRem [TreeNode N V] (s : AncState N V) : List (List V) :=
  (match s.root with | some r => (ancT s.items.reverse (treeOf r)).preorder | none => []) ++
    ancRemS s.stack s.items

/-- Reachable states: one item per iterator. -/
def AncInv (s : AncState N V) : Prop :=
  s.items.length = s.stack.length ∧ (s.root ≠ none → s.stack = [])

theorem preorder_ancT_treeOf [TreeNode N V] (anc : List V) (n : N) :
    (ancT anc (treeOf n)).preorder =
      (anc ++ [val n]) :: (kids n).flatMap fun c => (ancT (anc ++ [val n]) (treeOf c)).preorder := by
  rw [ancT_treeOf, Tree.preorder_node, List.flatMap_map]

theorem ancNext_spec [TreeNode N V] (s : AncState N V) (h : AncInv s) :
    (ancNext s).1 = (ancRem s).head? ∧ ancRem (ancNext s).2 = (ancRem s).tail ∧ AncInv (ancNext s).2 := by
  obtain ⟨root, stack, items⟩ := s
  obtain ⟨h1, h2⟩ := h
  simp only at h1 h2
  cases root with
  | some r =>
    obtain rfl := h2 (by simp)
    obtain rfl : items = [] := by simpa using h1
    simp [ancNext, streamNext, ancAdvance, ancGet, ancRem, ancRemS, preorder_ancT_treeOf [] r, AncInv]
  | none =>
    induction stack generalizing items with
    | nil =>
      obtain rfl : items = [] := by simpa using h1
      simp [ancNext, streamNext, ancAdvance, ancGet, ancRem, ancRemS, ancLoop, AncInv]
    | cons ns rest ih =>
      cases items with
      | nil => simp at h1
      | cons a items =>
      cases ns with
      | nil =>
        have := ih items (by simpa using h1) (by simp)
        simpa [ancNext, streamNext, ancAdvance, ancGet, ancRem, ancRemS, ancLoop] using this
      | cons n ns =>
        simp [ancNext, streamNext, ancAdvance, ancGet, ancRem, ancRemS, ancLoop,
          preorder_ancT_treeOf _ n, AncInv]
        simpa using h1

/-! ## Context, general nodes -/

/-- Contexts still to come from the stack.  The head of `path` belongs to the top iterator: its
successor is the index of the next child. -/
def ctxRemS [TreeNode N V] : List (List N) → List Nat → List V → List (Ctx V (List N))
  | [], _, _ => []
  | ns :: rest, path, anc =>
    (match path with
      | [] => []
      | p :: ps => Tree.preorderL (ctxTL ps.reverse anc.reverse (wrapSucc p) (ns.map unfold))) ++
    ctxRemS rest path.tail anc.tail

/-- Iterators, path segments and ancestors fit together. -/
def CtxInvS [TreeNode N V] : List (List N) → List Nat → List V → Prop
  | [], _, anc => anc = []
  | ns :: rest, path, anc =>
    (∃ p ps, path = p :: ps ∧ wrapSucc p + ns.length ≤ 2 ^ 64) ∧ (∀ n ∈ ns, ArityOk n) ∧
      anc ≠ [] ∧ CtxInvS rest path.tail anc.tail

/-- Contexts still to come. -/
def ctxRem [TreeNode N V] (s : CtxState N V) : List (Ctx V (List N)) :=
  match s.root, s.ancestors, s.children with
  | some r, _, _ => (ctxT s.path.reverse [] (unfold r)).preorder
  | none, [], _ => []
  | none, _ :: anc, some cs =>
    Tree.preorderL (ctxTL s.path.reverse s.ancestors.reverse 0 (cs.map unfold)) ++
      ctxRemS s.stack s.path anc
  | none, _ :: _, none => []

/-- Reachable states. -/
def CtxInv [TreeNode N V] (s : CtxState N V) : Prop :=
  match s.root, s.ancestors with
  | some r, anc => anc = [] ∧ s.stack = [] ∧ ArityOk r
  | none, [] => s.stack = []
  | none, _ :: anc =>
    ∃ cs, s.children = some cs ∧ cs.length ≤ 2 ^ 64 ∧ (∀ n ∈ cs, ArityOk n) ∧
      CtxInvS s.stack s.path anc

theorem wrapSucc_usizeMax : wrapSucc usizeMax = 0 := by decide

theorem wrapSucc_step {p k : Nat} (h : wrapSucc p + (k + 1) ≤ 2 ^ 64) :
    wrapSucc (wrapSucc p) + k ≤ 2 ^ 64 ∧ (0 < k → wrapSucc (wrapSucc p) = wrapSucc p + 1) := by
  generalize wrapSucc p = q at *
  unfold wrapSucc
  by_cases hq : q + 1 = 2 ^ 64
  · rw [hq, Nat.mod_self]; omega
  · rw [Nat.mod_eq_of_lt (by omega)]; omega

theorem preorder_ctxT_unfold [TreeNode N V] (path : List Nat) (anc : List V) (n : N) :
    (ctxT path anc (unfold n)).preorder =
      ⟨path, anc ++ [val n], some (kids n)⟩ ::
        Tree.preorderL (ctxTL path (anc ++ [val n]) 0 ((kids n).map unfold)) := by
  rw [unfold_eq, ctxT, Tree.preorder]

theorem ctxLoop_spec [TreeNode N V] (stack : List (List N)) (path : List Nat) (anc : List V)
    (h : CtxInvS stack path anc) :
    ∃ r, ctxLoop stack path anc = .ok r ∧
      ctxGet (ctxFinish r) = (ctxRemS stack path anc).head? ∧
      ctxRem (ctxFinish r) = (ctxRemS stack path anc).tail ∧ CtxInv (ctxFinish r) := by
  induction stack generalizing path anc with
  | nil => exact ⟨_, rfl, by simp [ctxFinish, ctxGet, ctxRemS, ctxRem, CtxInv]⟩
  | cons ns rest ih =>
    obtain ⟨⟨p, ps, rfl, hlen⟩, har, hanc, hrest⟩ := h
    simp only [List.tail_cons] at hrest
    obtain ⟨a, as, rfl⟩ := List.exists_cons_of_ne_nil hanc
    cases ns with
    | nil =>
      simpa [ctxLoop, ctxRemS, ctxTL, Tree.preorderL] using ih ps as hrest
    | cons n ns =>
      simp only [List.length_cons] at hlen
      obtain ⟨hb, hs⟩ := wrapSucc_step hlen
      refine ⟨_, rfl, ?_⟩
      simp only [ctxFinish, ctxGet, ctxRemS, ctxRem, CtxInv, List.map_cons, ctxTL, Tree.preorderL,
        preorder_ctxT_unfold, List.tail_cons, List.reverse_cons, List.append_assoc,
        List.cons_append, List.isEmpty_cons, Bool.false_eq_true, if_false, List.head?_cons,
        List.nil_append, true_and, List.append_cancel_left_eq, List.append_cancel_right_eq]
      refine ⟨?_, kids n, rfl, ((arityOk_iff n).1 (har n (by simp))).1,
        ((arityOk_iff n).1 (har n (by simp))).2, ⟨_, _, rfl, hb⟩, ?_, by simp, hrest⟩
      · cases ns with
        | nil => rfl
        | cons m ms => rw [hs (by simp)]
      · intro m hm
        exact har m (by simp [hm])

theorem ctxNext_spec [TreeNode N V] (s : CtxState N V) (h : CtxInv s) :
    ∃ s', ctxNext s = .ok ((ctxRem s).head?, s') ∧ ctxRem s' = (ctxRem s).tail ∧ CtxInv s' := by
  obtain ⟨root, stack, path, anc, children⟩ := s
  cases root with
  | some r =>
    obtain ⟨rfl, rfl, har⟩ := h
    obtain ⟨h1, h2⟩ := (arityOk_iff r).1 har
    refine ⟨⟨none, [], path, [val r], some (kids r)⟩, ?_, ?_⟩
    · simp [ctxNext, streamNextE, ctxAdvance, ctxGet, ctxRem, preorder_ctxT_unfold]
    · simp [ctxRem, preorder_ctxT_unfold, ctxRemS, CtxInv, CtxInvS, h1]
      exact h2
  | none =>
    cases anc with
    | nil =>
      refine ⟨_, rfl, ?_⟩
      simpa [ctxRem, CtxInv] using h
    | cons a anc =>
      obtain ⟨cs, rfl, hlen, har, hS⟩ := h
      have hS' : CtxInvS (cs :: stack) (usizeMax :: path) (a :: anc) := by
        refine ⟨⟨_, _, rfl, ?_⟩, har, by simp, hS⟩
        rw [wrapSucc_usizeMax]
        omega
      obtain ⟨r, e, h1, h2, h3⟩ := ctxLoop_spec _ _ _ hS'
      simp only [ctxRemS, wrapSucc_usizeMax, List.tail_cons] at h1 h2
      refine ⟨ctxFinish r, ?_, ?_, h3⟩
      · simp only [ctxNext, streamNextE, ctxAdvance, List.isEmpty_cons, Bool.false_eq_true, if_false, e, h1]
        rfl
      · exact h2

/-! ## Context, binary nodes -/

/-- Preorder of a list of binary trees. -/
def preL {α : Type u} (ts : List (BinTree α)) : List α := ts.flatMap fun t => t.toTree.preorder

/-- Contexts still to come from the stack. -/
def binCtxRemS [BinNode N V] :
    List (List (Option N)) → List Nat → List V → List (Ctx V (Option N × Option N))
  | [], _, _ => []
  | ss :: rest, path, anc =>
    (match path with
      | [] => []
      | p :: ps => preL (ctxSlots ps.reverse anc.reverse (wrapSucc p) ss)) ++
    binCtxRemS rest path.tail anc.tail

/-- Iterators, path segments and ancestors fit together. -/
def BinCtxInvS : List (List (Option N)) → List Nat → List V → Prop
  | [], _, anc => anc = []
  | ss :: rest, path, anc =>
    (∃ p ps, path = p :: ps ∧ wrapSucc p + ss.length ≤ 2 ^ 64) ∧ anc ≠ [] ∧
      BinCtxInvS rest path.tail anc.tail

/-- Contexts still to come. -/
def binCtxRem [BinNode N V] (s : BinCtxState N V) : List (Ctx V (Option N × Option N)) :=
  match s.root, s.ancestors, s.children with
  | some r, _, _ => (ctxB s.path.reverse [] (unfold2 r)).toTree.preorder
  | none, [], _ => []
  | none, _ :: anc, some cs =>
    preL (ctxSlots s.path.reverse s.ancestors.reverse 0 [cs.1, cs.2]) ++ binCtxRemS s.stack s.path anc
  | none, _ :: _, none => []

/-- Reachable states. -/
def BinCtxInv (s : BinCtxState N V) : Prop :=
  match s.root, s.ancestors with
  | some _, anc => anc = [] ∧ s.stack = []
  | none, [] => s.stack = []
  | none, _ :: anc => (∃ cs, s.children = some cs) ∧ BinCtxInvS s.stack s.path anc

theorem preorder_ctxB_unfold2 [BinNode N V] (path : List Nat) (anc : List V) (n : N) :
    (ctxB path anc (unfold2 n)).toTree.preorder =
      ⟨path, anc ++ [val2 n], some (split2 n).2⟩ ::
        preL (ctxSlots path (anc ++ [val2 n]) 0 [(split2 n).2.1, (split2 n).2.2]) := by
  rw [unfold2_eq, ctxB, BinTree.toTree, Tree.preorder, Tree.preorderL_eq]
  congr 1
  cases (split2 n).2.1 <;> cases (split2 n).2.2 <;>
    simp [ctxBO, BinTree.slotTrees, ctxSlots, preL]

theorem ctxSlots_wrap [BinNode N V] (path : List Nat) (anc : List V) {p : Nat} (ss : List (Option N))
    (h : wrapSucc p + (ss.length + 1) ≤ 2 ^ 64) :
    ctxSlots path anc (wrapSucc (wrapSucc p)) ss = ctxSlots path anc (wrapSucc p + 1) ss := by
  cases ss with
  | nil => rfl
  | cons s ss => rw [(wrapSucc_step h).2 (by simp)]

theorem binCtxLoop_spec [BinNode N V] (stack : List (List (Option N))) (path : List Nat) (anc : List V)
    (h : BinCtxInvS stack path anc) :
    ∃ r, binCtxLoop stack path anc = .ok r ∧
      binCtxGet (binCtxFinish r) = (binCtxRemS stack path anc).head? ∧
      binCtxRem (binCtxFinish r) = (binCtxRemS stack path anc).tail ∧ BinCtxInv (binCtxFinish r) := by
  induction stack generalizing path anc with
  | nil => exact ⟨_, by rw [binCtxLoop], by simp [binCtxFinish, binCtxGet, binCtxRemS, binCtxRem, BinCtxInv]⟩
  | cons ss rest ih =>
    obtain ⟨⟨p, ps, rfl, hlen⟩, hanc, hrest⟩ := h
    simp only [List.tail_cons] at hrest
    obtain ⟨a, as, rfl⟩ := List.exists_cons_of_ne_nil hanc
    induction ss generalizing p with
    | nil =>
      simpa [binCtxLoop, binCtxRemS, ctxSlots, preL] using ih ps as hrest
    | cons s ss ih' =>
      simp only [List.length_cons] at hlen
      obtain ⟨hb, hs⟩ := wrapSucc_step hlen
      cases s with
      | none =>
        rw [binCtxLoop]
        have := ih' (wrapSucc p) hb
        simpa only [binCtxRemS, ctxSlots, ctxSlots_wrap _ _ ss hlen, List.tail_cons] using this
      | some n =>
        refine ⟨_, by rw [binCtxLoop], ?_⟩
        simp only [binCtxFinish, binCtxGet, binCtxRemS, binCtxRem, BinCtxInv, ctxSlots, preL,
          List.flatMap_cons, preorder_ctxB_unfold2, List.tail_cons, List.reverse_cons,
          List.append_assoc, List.cons_append, List.isEmpty_cons, Bool.false_eq_true, if_false,
          List.head?_cons, List.nil_append, true_and, ctxSlots_wrap _ _ ss hlen]
        exact ⟨⟨_, rfl⟩, ⟨_, _, rfl, hb⟩, by simp, hrest⟩

theorem binCtxNext_spec [BinNode N V] (s : BinCtxState N V) (h : BinCtxInv s) :
    ∃ s', binCtxNext s = .ok ((binCtxRem s).head?, s') ∧ binCtxRem s' = (binCtxRem s).tail ∧
      BinCtxInv s' := by
  obtain ⟨root, stack, path, anc, children⟩ := s
  cases root with
  | some r =>
    obtain ⟨rfl, rfl⟩ := h
    refine ⟨⟨none, [], path, [val2 r], some (split2 r).2⟩, ?_, ?_⟩
    · simp [binCtxNext, streamNextE, binCtxAdvance, binCtxGet, binCtxRem, preorder_ctxB_unfold2]
    · simp [binCtxRem, preorder_ctxB_unfold2, binCtxRemS, BinCtxInv, BinCtxInvS]
  | none =>
    cases anc with
    | nil =>
      refine ⟨_, rfl, ?_⟩
      simpa [binCtxRem, BinCtxInv] using h
    | cons a anc =>
      obtain ⟨⟨cs, rfl⟩, hS⟩ := h
      have hS' : BinCtxInvS ([cs.1, cs.2] :: stack) (usizeMax :: path) (a :: anc) := by
        refine ⟨⟨_, _, rfl, ?_⟩, by simp, hS⟩
        rw [wrapSucc_usizeMax]
        simp
      obtain ⟨r, e, h1, h2, h3⟩ := binCtxLoop_spec _ _ _ hS'
      simp only [binCtxRemS, wrapSucc_usizeMax, List.tail_cons] at h1 h2
      refine ⟨binCtxFinish r, ?_, ?_, h3⟩
      · simp only [binCtxNext, streamNextE, binCtxAdvance, List.isEmpty_cons, Bool.false_eq_true, if_false,
          e, h1]
        rfl
      · exact h2

end Preorder

end TreeIter
