import Verif.Model.Rounds
import Verif.Spec.Rounds
import Verif.Lemmas.Postorder
import Verif.Lemmas.LazyPipe
import Verif.Lemmas.PollLeaves

/-!
# The work of a call: helper lemmas
-/

universe u v w

namespace TreeIter

variable {N : Type u} {V : Type v}

/-- If each call is paid for out of a stock, the calls made and the stock left add up to the stock at the start. -/
theorem totalOver_paid {S : Type u} {O : Type v} {next : S → Option O × S} {cost φ : S → Nat}
    (h : ∀ s, cost s + φ (next s).2 = φ s) (k : Nat) :
    ∀ s, totalOver next cost k s + φ (stateAfter next k s) = φ s := by
  induction k with
  | zero => intro s; simp [totalOver, stateAfter]
  | succ k ih =>
    intro s
    have h1 := ih (next s).2
    have h2 := h s
    simp only [totalOver, stateAfter]
    omega

/-- When the stock is used up, all of it was spent. -/
theorem totalOver_all {S : Type u} {O : Type v} {next : S → Option O × S} {cost φ : S → Nat}
    (h : ∀ s, cost s + φ (next s).2 = φ s) {k : Nat} {s : S} (h0 : φ (stateAfter next k s) = 0) :
    totalOver next cost k s = φ s := by
  have := totalOver_paid h k s
  omega

theorem stateAfter_onward {S : Type u} {O : Type v} (next : S → Option O × S) (k : Nat) (s : S) :
    stateAfter next (k + 1) s = (next (stateAfter next k s)).2 := by
  induction k generalizing s with
  | zero => rfl
  | succ k ih => exact ih _

/-- The same for calls that may panic, when no more than the stock is used. -/
theorem totalOverE_paid {S : Type u} {O : Type v} {next : S → Except Panic (Option O × S)} {cost φ : S → Nat}
    (h : ∀ s, cost s ≤ φ s) (h' : ∀ s o s', next s = .ok (o, s') → cost s + φ s' ≤ φ s) (k : Nat) :
    ∀ s, totalOverE next cost k s ≤ φ s := by
  induction k with
  | zero => intro s; simp [totalOverE]
  | succ k ih =>
    intro s
    simp only [totalOverE]
    cases hn : next s with
    | error e => simpa using h s
    | ok r =>
      obtain ⟨o, s'⟩ := r
      have h1 := ih s'
      have h2 := h' s o s' hn
      simp only
      omega

/-- Twice the nodes that wait in a stack, and the iterators in it. -/
def debt [TreeNode N V] (st : List (List N)) : Nat := 2 * stackNodes st + st.length

theorem debt_nil [TreeNode N V] : debt ([] : List (List N)) = 0 := rfl

theorem debt_empty [TreeNode N V] (st : List (List N)) : debt ([] :: st) = debt st + 1 := by
  simp [debt, stackNodes]; omega

theorem debt_take [TreeNode N V] (n : N) (ns : List N) (st : List (List N)) :
    debt ((n :: ns) :: st) = debt (kids n :: ns :: st) + 1 := by
  have := size_unfold n
  simp only [debt, stackNodes, List.map_cons, List.sum_cons, List.length_cons]
  omega

theorem debt_kids [TreeNode N V] (n : N) (st : List (List N)) :
    debt (kids n :: st) + 1 = 2 * (unfold n).size + debt st := by
  have := size_unfold n
  simp only [debt, stackNodes, List.map_cons, List.sum_cons, List.length_cons]
  omega

theorem debt_append [TreeNode N V] (a b : List (List N)) : debt (a ++ b) = debt a + debt b := by
  simp only [debt, stackNodes, List.map_append, List.sum_append, List.length_append]
  omega

/-- The stock for a root not yet taken. -/
def rootDebt [TreeNode N V] : Option N → Nat
  | some n => 2 * (unfold n).size - 1
  | none => 0

theorem debt_root [TreeNode N V] (n : N) (st : List (List N)) : debt (kids n :: st) = rootDebt (some n) + debt st := by
  have := debt_kids n st
  have := size_unfold n
  simp only [rootDebt]
  omega

theorem rootDebt_new [TreeNode N V] (n : N) : rootDebt (some n) = 2 * (treeOf n).size - 1 := by
  rw [rootDebt, treeOf, size_map]

theorem length_preorder {α : Type u} (t : Tree α) : t.preorder.length = t.size := by
  induction t using Tree.ind with
  | h a cs ih =>
    rw [Tree.preorder, Tree.preorderL_eq, Tree.size, Tree.sizeL_eq, List.length_cons, List.length_flatMap]
    have : cs.map (fun t => t.preorder.length) = cs.map Tree.size := List.map_congr_left ih
    rw [this]
    omega

theorem length_postorder {α : Type u} (t : Tree α) : t.postorder.length = t.size := by
  induction t using Tree.ind with
  | h a cs ih =>
    rw [Tree.postorder, Tree.postorderL_eq, Tree.size, Tree.sizeL_eq, List.length_append, List.length_flatMap]
    have : cs.map (fun t => t.postorder.length) = cs.map Tree.size := List.map_congr_left ih
    rw [this]
    simp
    omega

namespace Preorder

theorem next_none [TreeNode N V] {s : State N} (h : (next s).1 = none) :
    rootDebt (next s).2.root + debt (next s).2.stack = 0 := by
  obtain ⟨root, st⟩ := s
  cases root with
  | some n => simp [next] at h
  | none =>
    have key : ∀ st : List (List N), (loop st).1 = none → (loop st).2 = [] := by
      intro st
      fun_induction loop st with
      | case1 => intro _; rfl
      | case2 rest ih => exact ih
      | case3 => intro h; cases h
    simp only [next] at h ⊢
    cases hl : loop st with
    | mk o st' =>
      rw [hl] at h
      cases o with
      | some n => simp at h
      | none =>
        have := key st (by rw [hl])
        rw [hl] at this
        simp only at this
        subst this
        rfl

theorem loop_paid [TreeNode N V] (st : List (List N)) :
    loopPolls st + (match loop st with | (some n, st') => debt (kids n :: st') | (none, st') => debt st') = debt st := by
  fun_induction loop st with
  | case1 => rfl
  | case2 rest ih => rw [loopPolls, debt_empty]; omega
  | case3 n ns rest => simp only [loopPolls, debt_take]; omega

theorem next_paid [TreeNode N V] (s : State N) :
    polls s + (fun s : State N => rootDebt s.root + debt s.stack) (next s).2 = rootDebt s.root + debt s.stack := by
  obtain ⟨root, st⟩ := s
  cases root with
  | some n => simp [polls, next, debt_root, rootDebt]
  | none =>
    have h := loop_paid st
    simp only [polls, next]
    split <;> rename_i h1 <;> simp only [h1] at h <;> simpa [rootDebt] using h

theorem ancLoop_paid [TreeNode N V] (st : List (List N)) (it : List V) :
    loopPolls st +
      (match ancLoop st it with | (some n, st', _) => debt (kids n :: st') | (none, st', _) => debt st') = debt st := by
  fun_induction ancLoop st it with
  | case1 => rfl
  | case2 it rest ih => rw [loopPolls, debt_empty]; omega
  | case3 n ns rest it => simp only [loopPolls, debt_take]; omega

theorem ancNext_paid [TreeNode N V] (s : AncState N V) :
    ancPolls s + (fun s : AncState N V => rootDebt s.root + debt s.stack) (ancNext s).2 =
      rootDebt s.root + debt s.stack := by
  obtain ⟨root, st, it⟩ := s
  cases root with
  | some n => simp [ancPolls, ancNext, streamNext, ancAdvance, debt_root, rootDebt]
  | none =>
    have h := ancLoop_paid st it
    simp only [ancPolls, ancNext, streamNext, ancAdvance]
    split <;> rename_i h1 <;> simp only [h1] at h <;> simpa [rootDebt] using h

/-- The stock of a context state: the children shown are an iterator that is pushed by the next call. -/
def ctxStock [TreeNode N V] (s : CtxState N V) : Nat :=
  rootDebt s.root + debt s.stack + ((s.children.map fun cs => debt [cs]).getD 0)

theorem ctxLoop_paid [TreeNode N V] (st : List (List N)) (path : List Nat) (anc : List V) :
    loopPolls st ≤ debt st ∧ ∀ r, ctxLoop st path anc = .ok r → loopPolls st + ctxStock (ctxFinish r) = debt st := by
  fun_induction ctxLoop st path anc with
  | case1 => exact ⟨Nat.le_refl _, fun r h => by cases h; simp [ctxFinish, ctxStock, rootDebt, loopPolls, debt_nil]⟩
  | case2 rest path anc ih =>
    refine ⟨by rw [loopPolls, debt_empty]; omega, fun r h => ?_⟩
    have := ih.2 r h
    rw [loopPolls, debt_empty]; omega
  | case3 n ns rest p path anc =>
    refine ⟨by rw [loopPolls, debt_take]; omega, fun r h => ?_⟩
    cases h
    have h1 := debt_append [kids n] (ns :: rest)
    simp only [List.cons_append, List.nil_append] at h1
    rw [loopPolls, debt_take, h1]
    simp [ctxFinish, ctxStock, rootDebt]
    omega
  | case4 n ns rest anc => exact ⟨by rw [loopPolls, debt_take]; omega, fun r h => by cases h⟩

theorem ctxNext_paid [TreeNode N V] (s : CtxState N V) :
    ctxPolls s ≤ ctxStock s ∧ ∀ o s', ctxNext s = .ok (o, s') → ctxPolls s + ctxStock s' ≤ ctxStock s := by
  obtain ⟨root, st, path, anc, ch⟩ := s
  cases root with
  | some n =>
    refine ⟨by simp [ctxPolls], fun o s' h => ?_⟩
    simp only [ctxNext, streamNextE, ctxAdvance, Except.ok.injEq, Prod.mk.injEq] at h
    obtain ⟨-, rfl⟩ := h
    have := debt_root n ([] : List (List N))
    simp [ctxPolls, ctxStock, rootDebt, debt_nil] at this ⊢
    omega
  | none =>
    by_cases ha : anc.isEmpty
    · refine ⟨by simp [ctxPolls, ha], fun o s' h => ?_⟩
      simp only [ctxNext, streamNextE, ctxAdvance, ha, if_true, Except.ok.injEq, Prod.mk.injEq] at h
      obtain ⟨-, rfl⟩ := h
      simp [ctxPolls, ha]
    · cases ch with
      | some cs =>
        have h1 := debt_append [cs] st
        simp only [List.cons_append, List.nil_append] at h1
        have hl := ctxLoop_paid (cs :: st) (usizeMax :: path) anc
        refine ⟨by simp [ctxPolls, ha, ctxStock, rootDebt]; omega, fun o s' h => ?_⟩
        simp only [ctxNext, streamNextE, ctxAdvance, ha] at h
        cases hc : ctxLoop (cs :: st) (usizeMax :: path) anc with
        | error e => simp [hc] at h
        | ok r =>
          simp only [hc, Except.ok.injEq, Prod.mk.injEq, Bool.false_eq_true, if_false] at h
          obtain ⟨-, rfl⟩ := h
          have := hl.2 r hc
          simp [ctxPolls, ha, ctxStock, rootDebt] at this ⊢
          omega
      | none =>
        have hl := ctxLoop_paid st (if path.head? = some usizeMax then path.tail else path) anc.tail
        refine ⟨by simp [ctxPolls, ha, ctxStock, rootDebt]; omega, fun o s' h => ?_⟩
        simp only [ctxNext, streamNextE, ctxAdvance, ha] at h
        cases hc : ctxLoop st (if path.head? = some usizeMax then path.tail else path) anc.tail with
        | error e => simp [hc] at h
        | ok r =>
          simp only [hc, Except.ok.injEq, Prod.mk.injEq, Bool.false_eq_true, if_false] at h
          obtain ⟨-, rfl⟩ := h
          have := hl.2 r hc
          simp [ctxPolls, ha, ctxStock, rootDebt] at this ⊢
          omega

end Preorder

namespace Postorder

theorem loop_paid [TreeNode N V] (st : List (List N)) (items : List V) :
    loopPolls st + debt (loop st items).2.2 = debt st := by
  fun_induction loop st items with
  | case1 => simp [loopPolls, debt_nil]
  | case2 rest items => simp only [loopPolls, debt_empty]; omega
  | case3 n ns rest items ih => rw [loopPolls, debt_take]; omega

theorem next_paid [TreeNode N V] (s : State N V) :
    polls s + (fun s : State N V => rootDebt s.root + debt s.stack) (next s).2 = rootDebt s.root + debt s.stack := by
  obtain ⟨root, items, st⟩ := s
  cases root with
  | some n =>
    have h := loop_paid (kids n :: st) (val n :: items)
    rw [debt_root] at h
    change loopPolls (kids n :: st) + (0 + debt (loop (kids n :: st) (val n :: items)).2.2) = _
    simp only
    omega
  | none =>
    have h := loop_paid st items
    change loopPolls st + (0 + debt (loop st items).2.2) = 0 + debt st
    omega

theorem ancLoop_paid [TreeNode N V] (st : List (List N)) (items : List V) :
    loopPolls st + debt (ancLoop st items).2 = debt st := by
  fun_induction ancLoop st items with
  | case1 => simp [loopPolls, debt_nil]
  | case2 rest items => simp only [loopPolls, debt_empty]; omega
  | case3 n ns rest items ih => rw [loopPolls, debt_take]; omega

theorem ancNext_paid [TreeNode N V] (s : AncState N V) :
    ancPolls s + (fun s : AncState N V => rootDebt s.root + debt s.stack) (ancNext s).2 =
      rootDebt s.root + debt s.stack := by
  obtain ⟨root, items, st⟩ := s
  cases root with
  | some n =>
    have h := ancLoop_paid (kids n :: st) (val n :: items)
    simp only [ancPolls, ancNext, streamNext, ancAdvance, rootDebt, debt_root] at h ⊢
    omega
  | none =>
    have h := ancLoop_paid st items.tail
    simp only [ancPolls, ancNext, streamNext, ancAdvance, rootDebt] at h ⊢
    omega

theorem loopPolls_le [TreeNode N V] (st : List (List N)) : loopPolls st ≤ debt st := by
  have := loop_paid st ([] : List V)
  omega

theorem ctxLoop_paid [TreeNode N V] (st into : List (List N)) (path : List Nat) (anc : List V) :
    ∀ s', ctxLoop st into path anc = .ok s' → loopPolls st + (rootDebt s'.root + debt s'.stack) = debt st := by
  fun_induction ctxLoop st into path anc with
  | case1 n ns rest into p path anc ih =>
    intro s' h
    have := ih s' h
    rw [loopPolls, debt_take]; omega
  | case2 => intro s' h; cases h
  | case3 rest c into path anc =>
    intro s' h
    cases h
    rw [loopPolls, debt_empty]; simp [rootDebt]; omega
  | case4 c into path anc => intro s' h; cases h; simp [loopPolls, rootDebt]
  | case5 => intro s' h; cases h
  | case6 => intro s' h; cases h

theorem ctxNext_paid [TreeNode N V] (s : CtxState N V) :
    ctxPolls s ≤ rootDebt s.root + debt s.stack ∧
      ∀ o s', ctxNext s = .ok (o, s') →
        ctxPolls s + (rootDebt s'.root + debt s'.stack) ≤ rootDebt s.root + debt s.stack := by
  obtain ⟨root, st, into, path, anc, ch⟩ := s
  cases root with
  | some n =>
    have h1 := loopPolls_le (kids n :: st)
    rw [debt_root] at h1
    refine ⟨h1, fun o s' h => ?_⟩
    simp only [ctxNext, streamNextE, ctxAdvance] at h
    cases hc : ctxLoop (kids n :: st) (kids n :: into) (usizeMax :: path) (val n :: anc) with
    | error e => simp [hc] at h
    | ok r =>
      simp only [hc, Except.ok.injEq, Prod.mk.injEq] at h
      obtain ⟨-, rfl⟩ := h
      have := ctxLoop_paid _ _ _ _ _ hc
      rw [debt_root] at this
      simp only [ctxPolls]
      omega
  | none =>
    by_cases ha : anc.tail.isEmpty
    · refine ⟨by simp [ctxPolls, ha], fun o s' h => ?_⟩
      simp only [ctxNext, streamNextE, ctxAdvance, ha, if_true, Except.ok.injEq, Prod.mk.injEq] at h
      obtain ⟨-, rfl⟩ := h
      simp [ctxPolls, ha]
    · have h1 := loopPolls_le st
      refine ⟨by simp only [ctxPolls, ha, rootDebt]; simpa using h1, fun o s' h => ?_⟩
      simp only [ctxNext, streamNextE, ctxAdvance, ha] at h
      cases hc : ctxLoop st into path anc.tail with
      | error e => simp [hc] at h
      | ok r =>
        simp only [hc, Except.ok.injEq, Prod.mk.injEq, Bool.false_eq_true, if_false] at h
        obtain ⟨-, rfl⟩ := h
        have := ctxLoop_paid _ _ _ _ _ hc
        simp only [ctxPolls, ha, rootDebt] at this ⊢
        simp
        omega

theorem ownCtxLoop_paid [TreeNode N V] (st : List (List N)) (path : List Nat) (anc : List V) :
    ∀ s', ownCtxLoop st path anc = .ok s' → loopPolls st + (rootDebt s'.root + debt s'.stack) = debt st := by
  fun_induction ownCtxLoop st path anc with
  | case1 n ns rest p path anc ih =>
    intro s' h
    have := ih s' h
    rw [loopPolls, debt_take]; omega
  | case2 => intro s' h; cases h
  | case3 rest path anc =>
    intro s' h
    cases h
    rw [loopPolls, debt_empty]; simp [rootDebt]; omega
  | case4 path anc => intro s' h; cases h; simp [loopPolls, rootDebt]

theorem ownCtxNext_paid [TreeNode N V] (s : OwnCtxState N V) :
    ownCtxPolls s ≤ rootDebt s.root + debt s.stack ∧
      ∀ o s', ownCtxNext s = .ok (o, s') →
        ownCtxPolls s + (rootDebt s'.root + debt s'.stack) ≤ rootDebt s.root + debt s.stack := by
  obtain ⟨root, st, path, anc⟩ := s
  cases root with
  | some n =>
    have h1 := loopPolls_le (kids n :: st)
    rw [debt_root] at h1
    refine ⟨h1, fun o s' h => ?_⟩
    simp only [ownCtxNext, streamNextE, ownCtxAdvance] at h
    cases hc : ownCtxLoop (kids n :: st) (usizeMax :: path) (val n :: anc) with
    | error e => simp [hc] at h
    | ok r =>
      simp only [hc, Except.ok.injEq, Prod.mk.injEq] at h
      obtain ⟨-, rfl⟩ := h
      have := ownCtxLoop_paid _ _ _ _ hc
      rw [debt_root] at this
      simp only [ownCtxPolls]
      omega
  | none =>
    by_cases ha : anc.tail.isEmpty
    · refine ⟨by simp [ownCtxPolls, ha], fun o s' h => ?_⟩
      simp only [ownCtxNext, streamNextE, ownCtxAdvance, ha, if_true, Except.ok.injEq, Prod.mk.injEq] at h
      obtain ⟨-, rfl⟩ := h
      simp [ownCtxPolls, ha]
    · have h1 := loopPolls_le st
      refine ⟨by simp only [ownCtxPolls, ha, rootDebt]; simpa using h1, fun o s' h => ?_⟩
      simp only [ownCtxNext, streamNextE, ownCtxAdvance, ha] at h
      cases hc : ownCtxLoop st path anc.tail with
      | error e => simp [hc] at h
      | ok r =>
        simp only [hc, Except.ok.injEq, Prod.mk.injEq, Bool.false_eq_true, if_false] at h
        obtain ⟨-, rfl⟩ := h
        have := ownCtxLoop_paid _ _ _ _ hc
        simp only [ownCtxPolls, ha, rootDebt] at this ⊢
        simp
        omega

theorem spent [TreeNode N V] {s : State N V} (hi : Inv s) (h : rem s = []) : rootDebt s.root + debt s.stack = 0 := by
  obtain ⟨root, items, st⟩ := s
  cases root with
  | some n =>
    have := congrArg List.length h
    have h2 := length_postorder (treeOf n)
    have h3 : 0 < (treeOf n).size := by cases treeOf n; simp [Tree.size]; omega
    simp only [rem, List.length_nil] at this
    omega
  | none =>
    cases st with
    | nil => rfl
    | cons ns st =>
      simp only [rem, remS, List.append_eq_nil_iff] at h
      cases items with
      | nil => simp [Inv] at hi
      | cons i is => simp at h

end Postorder

namespace Bfs

theorem next_none [TreeNode N V] {s : State N} (h : (next s).1 = none) :
    rootDebt (next s).2.root + debt (next s).2.queue = 0 := by
  obtain ⟨root, q⟩ := s
  cases root with
  | some n => simp [next] at h
  | none =>
    simp only [next] at h ⊢
    fun_induction loop q with
    | case1 => rfl
    | case2 rest ih => exact ih h
    | case3 => cases h

theorem loop_paid [TreeNode N V] (q : List (List N)) :
    loopPolls q + (rootDebt (loop q).2.root + debt (loop q).2.queue) = debt q := by
  fun_induction loop q with
  | case1 => rfl
  | case2 rest ih => rw [loopPolls, debt_empty]; omega
  | case3 n ns rest =>
    have h1 := debt_append (ns :: rest) [kids n]
    have h2 := debt_append [kids n] (ns :: rest)
    simp only [List.cons_append, List.nil_append] at h1 h2
    simp only [loopPolls, debt_take, rootDebt, h1, h2, List.cons_append]
    omega

theorem next_paid [TreeNode N V] (s : State N) :
    polls s + (fun s : State N => rootDebt s.root + debt s.queue) (next s).2 = rootDebt s.root + debt s.queue := by
  obtain ⟨root, q⟩ := s
  cases root with
  | some n =>
    have h1 := debt_append q [kids n]
    have h2 := debt_root n ([] : List (List N))
    rw [debt_nil] at h2
    simp only [polls, next, rootDebt] at h2 ⊢
    omega
  | none => simpa [polls, next, rootDebt] using loop_paid q

theorem leavesLoopNew_paid [TreeNode N V] (q : List (List N)) :
    loopPolls q + (rootDebt (leavesLoopNew q).2.root + debt ((leavesLoopNew q).2.old ++ (leavesLoopNew q).2.new)) =
      debt q := by
  fun_induction leavesLoopNew q with
  | case1 => rfl
  | case2 rest ih => rw [loopPolls, debt_empty]; omega
  | case3 n ns rest =>
    have h1 := debt_append (ns :: rest) [kids n]
    have h2 := debt_append [kids n] (ns :: rest)
    simp only [List.cons_append, List.nil_append] at h1 h2
    simp only [loopPolls, debt_take, rootDebt, h1, h2, List.cons_append, List.nil_append]
    omega

theorem leavesLoop_paid [TreeNode N V] (new q : List (List N)) :
    loopPolls (q ++ new) +
      (rootDebt (leavesLoop new q).2.root + debt ((leavesLoop new q).2.old ++ (leavesLoop new q).2.new)) =
        debt (q ++ new) := by
  fun_induction leavesLoop new q with
  | case1 => exact leavesLoopNew_paid new
  | case2 rest ih => rw [List.cons_append, loopPolls, debt_empty]; omega
  | case3 n ns rest =>
    have h1 := debt_append (ns :: rest ++ new) [kids n]
    have h2 := debt_append [kids n] (ns :: rest ++ new)
    simp only [List.cons_append, List.nil_append, List.append_assoc] at h1 h2
    simp only [loopPolls, debt_take, rootDebt, List.cons_append, h1, h2]
    omega

theorem leavesBfsNext_paid [TreeNode N V] (s : LeavesState N) :
    leavesBfsPolls s + (rootDebt (leavesBfsNext s).2.root + debt ((leavesBfsNext s).2.old ++ (leavesBfsNext s).2.new)) =
      rootDebt s.root + debt (s.old ++ s.new) := by
  obtain ⟨root, old, new⟩ := s
  cases root with
  | some n =>
    have h1 := debt_append (old ++ new) [kids n]
    have h2 := debt_root n ([] : List (List N))
    rw [debt_nil] at h2
    simp only [leavesBfsPolls, leavesBfsNext, rootDebt, List.append_assoc] at h1 h2 ⊢
    omega
  | none => simpa [leavesBfsPolls, leavesBfsNext, rootDebt] using leavesLoop_paid new old

theorem leavesNext_paid [TreeNode N V] (s : LeavesState N) :
    leavesPolls s + (fun s : LeavesState N => rootDebt s.root + debt (s.old ++ s.new)) (leavesNext s).2 =
      rootDebt s.root + debt (s.old ++ s.new) := by
  fun_induction leavesNext s with
  | case1 s s' h =>
    have := leavesBfsNext_paid s
    rw [h] at this
    rw [leavesPolls]
    split <;> rename_i h' <;> rw [h] at h' <;> cases h'
    simpa using this
  | case2 s v s' h ih =>
    have := leavesBfsNext_paid s
    rw [h] at this
    rw [leavesPolls]
    split <;> rename_i h' <;> rw [h] at h' <;> cases h'
    simp only at this ih ⊢
    omega
  | case3 s v s' h =>
    have := leavesBfsNext_paid s
    rw [h] at this
    rw [leavesPolls]
    split <;> rename_i h' <;> rw [h] at h' <;> cases h'
    simpa using this

theorem ancLoop_paid [TreeNode N V] (q : List (List N)) (cs : CacheState V) :
    ∀ s', ancLoop q cs = .ok s' → loopPolls q + debt s'.queue = debt q := by
  induction q generalizing cs with
  | nil =>
    intro s' h
    rw [ancLoop] at h
    split at h <;> cases h
  | cons ns q ih =>
    intro s' h
    rw [ancLoop] at h
    split at h
    · cases h
    · cases ns with
      | cons n ns =>
        simp only [Except.ok.injEq] at h
        subst h
        have h1 := debt_append (ns :: q) [kids n]
        have h2 := debt_append [kids n] (ns :: q)
        simp only [List.cons_append, List.nil_append] at h1 h2
        simp only [loopPolls, debt_take, h1, h2, List.cons_append]
        omega
      | nil =>
        simp only at h
        split at h
        · cases h
        · split at h
          · rename_i hq
            cases h
            rw [List.isEmpty_iff.1 hq]
            simp [loopPolls, debt_empty, debt_nil]
          · have := ih _ s' h
            rw [loopPolls, debt_empty]
            omega

theorem loopPolls_le [TreeNode N V] (q : List (List N)) : loopPolls q ≤ debt q := by
  have := loop_paid (V := V) q
  omega

theorem ancNext_paid [TreeNode N V] (s : AncState N V) :
    ancPolls s ≤ debt s.queue ∧ ∀ o s', ancNext s = .ok (o, s') → ancPolls s + debt s'.queue ≤ debt s.queue := by
  obtain ⟨r, cs, q⟩ := s
  cases r with
  | true =>
    refine ⟨by simp [ancPolls], fun o s' h => ?_⟩
    simp only [ancNext, streamNextE, ancAdvance, if_true, Except.ok.injEq, Prod.mk.injEq] at h
    obtain ⟨-, rfl⟩ := h
    simp [ancPolls]
  | false =>
    refine ⟨by simpa [ancPolls] using loopPolls_le q, fun o s' h => ?_⟩
    simp only [ancNext, streamNextE, ancAdvance, Bool.false_eq_true, if_false] at h
    cases hc : ancLoop q cs with
    | error e => simp [hc] at h
    | ok r =>
      simp only [hc, Except.ok.injEq, Prod.mk.injEq] at h
      obtain ⟨-, rfl⟩ := h
      have := ancLoop_paid _ _ _ hc
      simp only [ancPolls, Bool.false_eq_true, if_false]
      omega

end Bfs

namespace Leaves

theorem loop_paid [TreeNode N V] (bottom top : List (List N)) (items : List V) (just : Bool) :
    loopPolls bottom top just +
      (rootDebt (loop bottom top items just).2.root + debt (loop bottom top items just).2.bottom +
        debt (loop bottom top items just).2.top) = debt bottom + debt top := by
  fun_induction loop bottom top items just with
  | case1 bottom n ns top items just ih => rw [loopPolls, debt_take]; omega
  | case2 bottom top items => rw [loopPolls, debt_empty]; simp [rootDebt]; omega
  | case3 bottom top items ih => rw [loopPolls, debt_empty]; omega
  | case4 n ns bottom items just ih =>
    have h2 := debt_append [kids n] (ns :: bottom)
    simp only [List.cons_append, List.nil_append] at h2
    rw [loopPolls, debt_take, debt_nil]; omega
  | case5 bottom items just ih => rw [loopPolls, debt_empty]; omega
  | case6 => simp [loopPolls, rootDebt]

theorem next_paid [TreeNode N V] (s : State N V) :
    polls s + (fun s : State N V => rootDebt s.root + debt s.bottom + debt s.top) (next s).2 =
      rootDebt s.root + debt s.bottom + debt s.top := by
  obtain ⟨root, bottom, top, items⟩ := s
  cases root with
  | some n =>
    have h := loop_paid bottom (kids n :: top) (val n :: items) true
    simp only [polls, next, debt_root] at h ⊢
    omega
  | none =>
    have h := loop_paid bottom top items false
    simp only [polls, next, rootDebt] at h ⊢
    omega

theorem debt_tail [TreeNode N V] (st : List (List N)) (h : ∀ n ns rest, st ≠ (n :: ns) :: rest) :
    debt st = debt st.tail + min st.length 1 := by
  match st, h with
  | [], _ => rfl
  | [] :: rest, _ => rw [debt_empty]; simp
  | (n :: ns) :: rest, h => exact absurd rfl (h n ns rest)

theorem ancLoop_paid [TreeNode N V] (old new : List (List N)) (items : List V) (pushed : Bool) :
    ancLoopPolls old new items pushed +
      (rootDebt (ancLoop old new items pushed).root + debt (ancLoop old new items pushed).old +
        debt (ancLoop old new items pushed).new) = debt old + debt new := by
  fun_induction ancLoop old new items pushed with
  | case1 old items pushed n ns new ih => rw [ancLoopPolls, debt_take]; omega
  | case2 old items new hn =>
    have h1 := debt_tail new fun n ns rest h => hn n ns rest h
    unfold ancLoopPolls
    split
    · exact absurd rfl (hn _ _ _)
    · simp only [rootDebt, if_true]; omega
  | case3 items pushed new hn hp n ns old ih =>
    have h1 := debt_tail new fun n ns rest h => hn n ns rest h
    have h2 := debt_append [kids n] (ns :: old)
    have h3 := debt_append [kids n] new.tail
    simp only [List.cons_append, List.nil_append] at h2 h3
    unfold ancLoopPolls
    split
    · exact absurd rfl (hn _ _ _)
    · simp only [hp, debt_take, Bool.false_eq_true, if_false]; omega
  | case4 items pushed new hn hp old ho hi =>
    have h1 := debt_tail new fun n ns rest h => hn n ns rest h
    have h2 := debt_tail old fun n ns rest h => ho n ns rest h
    unfold ancLoopPolls
    split
    · exact absurd rfl (hn _ _ _)
    · rw [if_neg hp]
      split
      · exact absurd rfl (ho _ _ _)
      · split
        · simp only [rootDebt]; omega
        · rename_i h; rw [hi] at h; cases h
  | case5 items pushed new hn hp old ho i is hi ih =>
    have h1 := debt_tail new fun n ns rest h => hn n ns rest h
    have h2 := debt_tail old fun n ns rest h => ho n ns rest h
    unfold ancLoopPolls
    split
    · exact absurd rfl (hn _ _ _)
    · rw [if_neg hp]
      split
      · exact absurd rfl (ho _ _ _)
      · split
        · rename_i h; rw [hi] at h; cases h
        · rename_i i' is' h
          rw [hi] at h
          cases h
          omega

theorem ancNext_paid [TreeNode N V] (s : AncState N V) :
    ancPolls s + (fun s : AncState N V => rootDebt s.root + debt s.old + debt s.new) (ancNext s).2 =
      rootDebt s.root + debt s.old + debt s.new := by
  obtain ⟨root, items, old, new⟩ := s
  cases root with
  | some n =>
    have h := ancLoop_paid old (kids n :: new) (val n :: items) true
    simp only [ancPolls, ancNext, streamNext, ancAdvance, debt_root] at h ⊢
    omega
  | none =>
    have h := ancLoop_paid old new items.tail false
    simp only [ancPolls, ancNext, streamNext, ancAdvance, rootDebt] at h ⊢
    omega

end Leaves

namespace Inorder

/-- Nodes below a slot. -/
def slotSize [BinNode N V] (o : Option N) : Nat := (o.map fun n => (unfold2 n).size).getD 0

theorem size_unfold2 [BinNode N V] (n : N) :
    (unfold2 n).size = 1 + slotSize (split2 n).2.1 + slotSize (split2 n).2.2 := by
  rw [unfold2_eq, BinTree.size, BinTree.sizeO_eq, BinTree.sizeO_eq]
  simp [slotSize, Function.comp_def]

/-- `c` times the nodes that wait in a stack of slots, and the slots in it. -/
def slotDebt [BinNode N V] (c : Nat) (right : List (Option N)) : Nat := (right.map fun o => c * slotSize o + 1).sum

theorem find_paid [BinNode N V] (items : List V) (right : List (Option N)) :
    findPops items right +
      (match find items right with
        | (.ret, right') => slotDebt 2 right'
        | (.cur cur, right') => 2 * slotSize cur + slotDebt 2 right') = slotDebt 2 right := by
  fun_induction find items right with
  | case1 h => simp [findPops]
  | case2 h => simp [findPops, slotSize]
  | case3 popped rest h => simp [findPops, h]
  | case4 popped rest h h' =>
    rw [findPops.eq_def]
    simp only [if_neg h, if_pos h']
    simp only [slotDebt, List.map_cons, List.sum_cons]
    omega
  | case5 rest h' n h =>
    rw [findPops, if_neg h, if_neg h']
    simp only [slotDebt, List.map_cons, List.sum_cons]
    omega
  | case6 rest h h' ih =>
    have : slotDebt 2 (none :: rest) = slotDebt 2 rest + 1 := by simp [slotDebt, slotSize]; omega
    rw [findPops, if_neg h', if_neg h]
    omega

theorem descend_paid [BinNode N V] (cur : Option N) (right : List (Option N)) (items : List V) :
    descendSplits cur + slotDebt 2 (descend cur right items).1 = 2 * slotSize cur + slotDebt 2 right := by
  fun_induction descend cur right items with
  | case1 => simp [descendSplits, slotSize]
  | case2 n right items ih =>
    rw [descendSplits]
    have h1 : slotSize (some n) = (unfold2 n).size := rfl
    have h2 := size_unfold2 n
    simp only [slotDebt, List.map_cons, List.sum_cons] at ih ⊢
    omega

theorem next_paid [BinNode N V] (s : State N V) :
    work s + (fun s : State N V => slotDebt 2 s.right) (next s).2 = slotDebt 2 s.right := by
  obtain ⟨right, items, moved⟩ := s
  have h := find_paid items right
  simp only [work, next]
  cases hf : find items right with
  | mk f right' =>
    rw [hf] at h
    cases f with
    | ret => simpa using h
    | cur cur =>
      have h2 := descend_paid cur right' items
      simp only at h ⊢
      omega

theorem ancFind_paid [BinNode N V] (st : List Status) (items : List V) (right : List (Option N)) :
    ancFindPops st right +
      (match ancFind st items right with
        | .inl s => slotDebt 3 s.right + s.status.length
        | .inr (n, s) => 3 * slotSize (some n) + slotDebt 3 s.right + s.status.length) = slotDebt 3 right + st.length := by
  fun_induction ancFind st items right with
  | case1 items right ss ih => rw [ancFindPops, List.length_cons]; omega
  | case2 => simp [ancFindPops]
  | case3 => simp [ancFindPops]
  | case4 ss items n right => simp [ancFindPops, slotDebt]; omega
  | case5 ss items right ih =>
    have : slotDebt 3 (none :: right) = slotDebt 3 right + 1 := by simp [slotDebt, slotSize]; omega
    rw [ancFindPops]
    simp only [List.length_cons] at ih ⊢
    omega
  | case6 => simp [ancFindPops]
  | case7 items n right => simp [ancFindPops, slotDebt]; omega
  | case8 items right ih =>
    have : slotDebt 3 (none :: right) = slotDebt 3 right + 1 := by simp [slotDebt, slotSize]; omega
    rw [ancFindPops]
    omega

theorem ancDescend_paid [BinNode N V] (cur : Option N) (s : AncState N V) :
    descendSplits cur + (slotDebt 3 (ancDescend cur s).right + (ancDescend cur s).status.length) =
      3 * slotSize cur + (slotDebt 3 s.right + s.status.length) := by
  fun_induction ancDescend cur s with
  | case1 => simp [descendSplits, slotSize]
  | case2 n s ih =>
    rw [descendSplits]
    have h1 : slotSize (some n) = (unfold2 n).size := rfl
    have h2 := size_unfold2 n
    simp only [slotDebt, List.map_cons, List.sum_cons, List.length_cons] at ih ⊢
    omega

theorem ancNext_paid [BinNode N V] (s : AncState N V) :
    ancWork s ≤ slotDebt 3 s.right + s.status.length ∧
      ∀ o s', ancNext s = .ok (o, s') →
        ancWork s + (slotDebt 3 s'.right + s'.status.length) ≤ slotDebt 3 s.right + s.status.length := by
  obtain ⟨right, items, st⟩ := s
  have h := ancFind_paid st items right
  cases hf : ancFind st items right with
  | inl s1 =>
    rw [hf] at h
    simp only at h
    have hw : ancWork (⟨right, items, st⟩ : AncState N V) = ancFindPops st right := by simp [ancWork, hf]
    refine ⟨by rw [hw]; simp only; omega, fun o s' h' => ?_⟩
    simp only [ancNext, streamNextE, ancAdvance, hf, Except.ok.injEq, Prod.mk.injEq] at h'
    obtain ⟨-, rfl⟩ := h'
    rw [hw]
    simp only
    omega
  | inr r =>
    obtain ⟨n, s1⟩ := r
    rw [hf] at h
    have hd := ancDescend_paid (some n) s1
    simp only at h
    have hw : ancWork (⟨right, items, st⟩ : AncState N V) = ancFindPops st right + descendSplits (some n) := by
      simp [ancWork, hf]
    refine ⟨by rw [hw]; simp only; omega, fun o s' h' => ?_⟩
    simp only [ancNext, streamNextE, ancAdvance, hf] at h'
    cases hs : (ancDescend (some n) s1).status with
    | nil => simp [hs] at h'
    | cons x ss =>
      simp only [hs, Except.ok.injEq, Prod.mk.injEq] at h'
      obtain ⟨-, rfl⟩ := h'
      rw [hs] at hd
      simp only [List.length_cons] at hd ⊢
      omega

theorem slotDebt_new [BinNode N V] (c : Nat) (n : N) : slotDebt c [some n] = c * (binTreeOf n).size + 1 := by
  simp [slotDebt, slotSize, binTreeOf, Track.bin_size_map]

/-- The slots seen as child iterators. -/
theorem slotDebt_eq [BinNode N V] (right : List (Option N)) : slotDebt 2 right = debt (right.map Option.toList) := by
  induction right with
  | nil => rfl
  | cons o right ih =>
    have : debt [o.toList] = 2 * slotSize o + 1 := by
      cases o with
      | none => rfl
      | some n =>
        have h : (unfold n).size = (unfold2 n).size := by rw [unfold_eq_toTree, Track.size_toTree]
        simp [debt, stackNodes, slotSize, h]
    have h2 := debt_append [o.toList] (right.map Option.toList)
    simp only [List.singleton_append] at h2
    rw [List.map_cons, h2, ← ih, this]
    simp only [slotDebt, List.map_cons, List.sum_cons]

end Inorder

/-! ## The stocks, by name -/

/-- Stock of `Preorder.next`. -/
def Preorder.stock [TreeNode N V] (s : Preorder.State N) : Nat := open Preorder in rootDebt s.root + debt s.stack

theorem Preorder.stock_paid [TreeNode N V] (s : Preorder.State N) :
    Preorder.polls s + Preorder.stock (Preorder.next s).2 = Preorder.stock s := Preorder.next_paid s

/-- Stock of `Preorder.ancNext`. -/
def Preorder.ancStock [TreeNode N V] (s : Preorder.AncState N V) : Nat := open Preorder in rootDebt s.root + debt s.stack

theorem Preorder.ancStock_paid [TreeNode N V] (s : Preorder.AncState N V) :
    Preorder.ancPolls s + Preorder.ancStock (Preorder.ancNext s).2 = Preorder.ancStock s := Preorder.ancNext_paid s

/-- Stock of `Postorder.next`. -/
def Postorder.stock [TreeNode N V] (s : Postorder.State N V) : Nat := open Postorder in rootDebt s.root + debt s.stack

theorem Postorder.stock_paid [TreeNode N V] (s : Postorder.State N V) :
    Postorder.polls s + Postorder.stock (Postorder.next s).2 = Postorder.stock s := Postorder.next_paid s

/-- Stock of `Postorder.ancNext`. -/
def Postorder.ancStock [TreeNode N V] (s : Postorder.AncState N V) : Nat := open Postorder in rootDebt s.root + debt s.stack

theorem Postorder.ancStock_paid [TreeNode N V] (s : Postorder.AncState N V) :
    Postorder.ancPolls s + Postorder.ancStock (Postorder.ancNext s).2 = Postorder.ancStock s := Postorder.ancNext_paid s

/-- Stock of `Postorder.ctxNext`. -/
def Postorder.ctxStock [TreeNode N V] (s : Postorder.CtxState N V) : Nat := open Postorder in rootDebt s.root + debt s.stack

theorem Postorder.ctxStock_total [TreeNode N V] (k : Nat) (s : Postorder.CtxState N V) :
    totalOverE Postorder.ctxNext Postorder.ctxPolls k s ≤ Postorder.ctxStock s :=
  totalOverE_paid (φ := Postorder.ctxStock) (fun s => (Postorder.ctxNext_paid s).1) (fun s => (Postorder.ctxNext_paid s).2) k s

/-- Stock of `Postorder.ownCtxNext`. -/
def Postorder.ownCtxStock [TreeNode N V] (s : Postorder.OwnCtxState N V) : Nat := open Postorder in rootDebt s.root + debt s.stack

theorem Postorder.ownCtxStock_total [TreeNode N V] (k : Nat) (s : Postorder.OwnCtxState N V) :
    totalOverE Postorder.ownCtxNext Postorder.ownCtxPolls k s ≤ Postorder.ownCtxStock s :=
  totalOverE_paid (φ := Postorder.ownCtxStock) (fun s => (Postorder.ownCtxNext_paid s).1) (fun s => (Postorder.ownCtxNext_paid s).2) k s

/-- Stock of `Bfs.next`. -/
def Bfs.stock [TreeNode N V] (s : Bfs.State N) : Nat := open Bfs in rootDebt s.root + debt s.queue

theorem Bfs.stock_paid [TreeNode N V] (s : Bfs.State N) :
    Bfs.polls s + Bfs.stock (Bfs.next s).2 = Bfs.stock s := Bfs.next_paid s

/-- Stock of `Bfs.leavesNext`. -/
def Bfs.leavesStock [TreeNode N V] (s : Bfs.LeavesState N) : Nat := open Bfs in rootDebt s.root + debt (s.old ++ s.new)

theorem Bfs.leavesStock_paid [TreeNode N V] (s : Bfs.LeavesState N) :
    Bfs.leavesPolls s + Bfs.leavesStock (Bfs.leavesNext s).2 = Bfs.leavesStock s := Bfs.leavesNext_paid s

/-- Stock of `Bfs.ancNext`. -/
def Bfs.ancStock [TreeNode N V] (s : Bfs.AncState N V) : Nat := open Bfs in debt s.queue

theorem Bfs.ancStock_total [TreeNode N V] (k : Nat) (s : Bfs.AncState N V) :
    totalOverE Bfs.ancNext Bfs.ancPolls k s ≤ Bfs.ancStock s :=
  totalOverE_paid (φ := Bfs.ancStock) (fun s => (Bfs.ancNext_paid s).1) (fun s => (Bfs.ancNext_paid s).2) k s

/-- Stock of `Leaves.next`. -/
def Leaves.stock [TreeNode N V] (s : Leaves.State N V) : Nat := open Leaves in rootDebt s.root + debt s.bottom + debt s.top

theorem Leaves.stock_paid [TreeNode N V] (s : Leaves.State N V) :
    Leaves.polls s + Leaves.stock (Leaves.next s).2 = Leaves.stock s := Leaves.next_paid s

/-- Stock of `Leaves.ancNext`. -/
def Leaves.ancStock [TreeNode N V] (s : Leaves.AncState N V) : Nat := open Leaves in rootDebt s.root + debt s.old + debt s.new

theorem Leaves.ancStock_paid [TreeNode N V] (s : Leaves.AncState N V) :
    Leaves.ancPolls s + Leaves.ancStock (Leaves.ancNext s).2 = Leaves.ancStock s := Leaves.ancNext_paid s

/-- Stock of `Inorder.next`. -/
def Inorder.stock [BinNode N V] (s : Inorder.State N V) : Nat := open Inorder in slotDebt 2 s.right

theorem Inorder.stock_paid [BinNode N V] (s : Inorder.State N V) :
    Inorder.work s + Inorder.stock (Inorder.next s).2 = Inorder.stock s := Inorder.next_paid s

/-- Stock of `Inorder.ancNext`. -/
def Inorder.ancStock [BinNode N V] (s : Inorder.AncState N V) : Nat := open Inorder in slotDebt 3 s.right + s.status.length

theorem Inorder.ancStock_total [BinNode N V] (k : Nat) (s : Inorder.AncState N V) :
    totalOverE Inorder.ancNext Inorder.ancWork k s ≤ Inorder.ancStock s :=
  totalOverE_paid (φ := Inorder.ancStock) (fun s => (Inorder.ancNext_paid s).1) (fun s => (Inorder.ancNext_paid s).2) k s

end TreeIter
