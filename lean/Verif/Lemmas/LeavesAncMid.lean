import Verif.Lemmas.LeavesMid

/-! # `attach_ancestors().leaves()` in the middle of a depth-first traversal -/

universe u v w

namespace TreeIter

namespace Leaves

variable {N : Type u} {V : Type v}

/-! ## The stacks of the ancestor iterators are those of the plain ones -/

theorem preAnc_stack [TreeNode N V] (k : Nat) (a : Preorder.AncState N V) :
    (stateAfter Preorder.ancNext k a).root = (stateAfter Preorder.next k ⟨a.root, a.stack⟩).root ∧
      (stateAfter Preorder.ancNext k a).stack = (stateAfter Preorder.next k ⟨a.root, a.stack⟩).stack := by
  induction k generalizing a with
  | zero => exact ⟨rfl, rfl⟩
  | succ k ih =>
    rw [stateAfter, stateAfter]
    have e : (⟨(Preorder.ancNext a).2.root, (Preorder.ancNext a).2.stack⟩ : Preorder.State N) =
        (Preorder.next ⟨a.root, a.stack⟩).2 := by
      obtain ⟨_ | r, st, items⟩ := a
      · have hl : ∀ (st : List (List N)) (items : List V),
            Preorder.loop st = ((Preorder.ancLoop st items).1, (Preorder.ancLoop st items).2.1) := by
          intro st items
          fun_induction Preorder.ancLoop st items <;> simp_all [Preorder.loop]
        simp only [Preorder.ancNext, streamNext, Preorder.ancAdvance, Preorder.next, hl st items]
        rcases Preorder.ancLoop st items with ⟨_ | n, st', items'⟩ <;> rfl
      · rfl
    rw [← e]
    exact ih _

theorem postAnc_stack [TreeNode N V] (k : Nat) (a : Postorder.AncState N V) (items : List V) :
    (stateAfter Postorder.ancNext k a).root = (stateAfter Postorder.next k ⟨a.root, items, a.stack⟩).root ∧
      (stateAfter Postorder.ancNext k a).stack = (stateAfter Postorder.next k ⟨a.root, items, a.stack⟩).stack := by
  induction k generalizing a items with
  | zero => exact ⟨rfl, rfl⟩
  | succ k ih =>
    rw [stateAfter, stateAfter]
    have hl : ∀ (st : List (List N)) (items items' : List V),
        (Postorder.ancLoop st items).2 = (Postorder.loop st items').2.2 := by
      intro st items items'
      fun_induction Postorder.ancLoop st items generalizing items' with
      | case1 | case2 => simp [Postorder.loop]
      | case3 n ns rest items ih =>
        rw [Postorder.loop]
        exact ih _
    have e : (Postorder.next ⟨a.root, items, a.stack⟩).2 = (⟨(Postorder.ancNext a).2.root,
        (Postorder.next ⟨a.root, items, a.stack⟩).2.items, (Postorder.ancNext a).2.stack⟩ : Postorder.State N V) := by
      obtain ⟨_ | r, items', st⟩ := a
      · simp only [Postorder.ancNext, streamNext, Postorder.ancAdvance, Postorder.next, hl _ _ items]
      · simp only [Postorder.ancNext, streamNext, Postorder.ancAdvance, Postorder.next, hl _ _ (val r :: items)]
    rw [e]
    exact ih _ _

open Inorder (Status)

/-- The items whose left subtree is being visited. -/
def opens : List Status → List V → List V
  | [], _ => []
  | .wentLeft :: ss, v :: items => v :: opens ss items
  | .wentLeft :: _, [] => []
  | _ :: ss, items => opens ss items.tail

/-- The in-order ancestor iterator and the plain iterator between calls. -/
def InSim (a : Inorder.AncState N V) (p : Inorder.State N V) : Prop :=
  a.right = p.right ∧
    ((∃ ss, a.status = .returnedSelf :: ss ∧ (∀ s ∈ ss, s ≠ .returnedSelf) ∧ ss.length + 1 = a.items.length ∧
        p.items = opens ss a.items.tail ∧ a.right.length = p.items.length + 1) ∨
      (a.status = [] ∧ a.items = [] ∧ p.items = [] ∧ (a.right = [] ∨ ∃ r, a.right = [some r])))

theorem ancFind_pop (ss : List Status) (items : List V) (right : List (Option N))
    (hs : ∀ s ∈ ss, s ≠ .returnedSelf) (hi : ss.length = items.length) (hl : right.length = (opens ss items).length) :
    ∃ a, Inorder.ancFind ss items right = .inl a ∧ InSim a ⟨right, (opens ss items).tail, true⟩ := by
  induction ss generalizing items with
  | nil =>
    obtain rfl : items = [] := by simpa using hi.symm
    obtain rfl : right = [] := by simpa [opens] using hl
    exact ⟨_, by rw [Inorder.ancFind], by simp [InSim, opens]⟩
  | cons s ss ih =>
    cases items with
    | nil => simp at hi
    | cons v items =>
      cases s with
      | returnedSelf => exact absurd rfl (hs _ (by simp))
      | wentRight =>
        obtain ⟨a, h1, h2⟩ := ih items (fun s h => hs s (by simp [h])) (by simpa using hi) (by simpa [opens] using hl)
        exact ⟨a, by rw [Inorder.ancFind]; exact h1, by simpa [opens] using h2⟩
      | wentLeft =>
        refine ⟨_, by rw [Inorder.ancFind], rfl, .inl ⟨ss, rfl, fun s h => hs s (by simp [h]), by simpa using hi, ?_, ?_⟩⟩
        · simp [opens]
        · simpa [opens] using hl

theorem ancDescend_sim [BinNode N V] (cur : Option N) (a : Inorder.AncState N V) :
    (Inorder.ancDescend cur a).right = (Inorder.descend cur a.right (opens a.status a.items)).1 ∧
      opens (Inorder.ancDescend cur a).status (Inorder.ancDescend cur a).items =
        (Inorder.descend cur a.right (opens a.status a.items)).2 ∧
      ((∀ s ∈ a.status, s ≠ .returnedSelf) → ∀ s ∈ (Inorder.ancDescend cur a).status, s ≠ .returnedSelf) ∧
      (a.status.length = a.items.length →
        (Inorder.ancDescend cur a).status.length = (Inorder.ancDescend cur a).items.length) ∧
      ((cur ≠ none ∨ ∃ ss, a.status = .wentLeft :: ss) → ∃ ss, (Inorder.ancDescend cur a).status = .wentLeft :: ss) := by
  fun_induction Inorder.ancDescend cur a with
  | case1 a => simp [Inorder.descend]
  | case2 n a ih =>
    rw [Inorder.descend]
    simp only [opens] at ih
    obtain ⟨i1, i2, i3, i4, i5⟩ := ih
    refine ⟨i1, i2, fun h => i3 ?_, fun h => i4 ?_, fun _ => i5 (by simp)⟩
    · simpa using h
    · simpa using h

theorem ancNext_of [BinNode N V] {a a' : Inorder.AncState N V} (h : Inorder.ancAdvance a = .ok a') :
    Inorder.ancNext a = .ok (Inorder.ancGet a', a') := by
  simp only [Inorder.ancNext, streamNextE, h]

theorem inSim_next [BinNode N V] (a : Inorder.AncState N V) (p : Inorder.State N V) (h : InSim a p) :
    ∃ o a', Inorder.ancNext a = .ok (o, a') ∧ InSim a' (Inorder.next p).2 := by
  have key : ∀ (n : N) (s : Inorder.AncState N V) (right : List (Option N)), s.right = right →
      right.length = (opens s.status s.items).length → (∀ x ∈ s.status, x ≠ .returnedSelf) →
      s.status.length = s.items.length →
      let d := Inorder.descend (some n) right (opens s.status s.items)
      ∃ ss, (Inorder.ancDescend (some n) s).status = .wentLeft :: ss ∧
        InSim { Inorder.ancDescend (some n) s with status := .returnedSelf :: ss } ⟨d.1, d.2.tail, true⟩ := by
    intro n s right hr hl hs hi d
    obtain ⟨i1, i2, i3, i4, i5⟩ := ancDescend_sim (some n) s
    obtain ⟨ss, h⟩ := i5 (by simp)
    have hd := (Inorder.descend_spec (some n) right (opens s.status s.items) hl).2
    rw [hr] at i1 i2
    refine ⟨ss, h, i1, .inl ⟨ss, rfl, fun x hx => i3 hs x (by simp [h, hx]), ?_, ?_, ?_⟩⟩
    · have := i4 hi
      simpa [h] using this
    · show d.2.tail = _
      rw [← i2, h]
      cases (Inorder.ancDescend (some n) s).items with
      | nil =>
        simp only [opens, List.tail_nil]
        have := i4 hi
        have h3 : ∀ ss : List Status, opens ss ([] : List V) = [] := by
          intro ss
          induction ss with
          | nil => rfl
          | cons x ss ih => cases x <;> simp [opens, ih]
        rw [h3]
      | cons v vs => simp [opens]
    · show (Inorder.ancDescend (some n) s).right.length = d.2.tail.length + 1
      rw [i1]
      show d.1.length = _
      rw [hd]
      have : d.2 ≠ [] := by
        show (Inorder.descend (some n) right (opens s.status s.items)).2 ≠ []
        rw [← i2, h]
        have := i4 hi
        rw [h] at this
        cases hh : (Inorder.ancDescend (some n) s).items with
        | nil => simp [hh] at this
        | cons v vs => simp [opens]
      cases hd2 : d.2 with
      | nil => exact absurd hd2 this
      | cons v vs => simp
  have fin : ∀ (n : N) (s : Inorder.AncState N V) (right : List (Option N)),
      Inorder.ancFind a.status a.items a.right = .inr (n, s) → s.right = right →
      right.length = (opens s.status s.items).length → (∀ x ∈ s.status, x ≠ .returnedSelf) →
      s.status.length = s.items.length →
      let d := Inorder.descend (some n) right (opens s.status s.items)
      ∃ o a', Inorder.ancNext a = .ok (o, a') ∧ InSim a' ⟨d.1, d.2.tail, true⟩ := by
    intro n s right hf hr hl hs hi d
    obtain ⟨ss, h1, h2⟩ := key n s right hr hl hs hi
    exact ⟨_, _, ancNext_of (by simp only [Inorder.ancAdvance, hf, h1]), h2⟩
  obtain ⟨right, pitems, moved⟩ := p
  obtain ⟨aright, items, status⟩ := a
  obtain ⟨rfl, h⟩ := h
  simp only at h fin
  rcases h with ⟨ss, rfl, h1, h2, rfl, h4⟩ | ⟨rfl, rfl, rfl, h⟩
  · cases items with
    | nil => simp at h2
    | cons v items =>
    simp only [List.tail_cons] at h4 fin ⊢
    cases aright with
    | nil => simp at h4
    | cons r rs =>
      have h4' : rs.length = (opens ss items).length := by simpa using h4
      have hne : ¬ rs.length + 1 = (opens ss items).length := by omega
      cases r with
      | some n =>
        have := fin n ⟨rs, v :: items, .wentRight :: ss⟩ rs (by rw [Inorder.ancFind]) rfl (by simpa [opens] using h4')
          (by simpa using h1) (by simpa using h2)
        simpa [Inorder.next, Inorder.find, hne, opens] using this
      | none =>
        obtain ⟨a', i1, i2⟩ := ancFind_pop ss items rs h1 (by simpa using h2) h4'
        have e : Inorder.ancFind (.returnedSelf :: ss) (v :: items) (none :: rs) = .inl a' := by
          rw [Inorder.ancFind, Inorder.ancFind]
          exact i1
        refine ⟨_, a', ancNext_of (by simp only [Inorder.ancAdvance, e]), ?_⟩
        cases rs with
        | nil =>
          have : opens ss items = [] := List.length_eq_zero_iff.1 h4'.symm
          rw [this] at i2 hne
          simpa [Inorder.next, Inorder.find, hne, this, Inorder.descend] using i2
        | cons r rs =>
          simp only [List.length_cons] at h4' hne
          simpa [Inorder.next, Inorder.find, hne, h4'] using i2
  · rcases h with rfl | ⟨r, rfl⟩
    · refine ⟨_, ⟨[], [], []⟩, ancNext_of (by simp only [Inorder.ancAdvance, Inorder.ancFind]), ?_⟩
      simp [Inorder.next, Inorder.find, InSim]
    · have := fin r ⟨[], [], []⟩ [] (by rw [Inorder.ancFind]) rfl (by simp [opens]) (by simp) rfl
      simpa [Inorder.next, Inorder.find, opens] using this

theorem inAnc_stack [BinNode N V] (k : Nat) (a : Inorder.AncState N V) (p : Inorder.State N V) (h : InSim a p) :
    ∃ a', stateAfterE Inorder.ancNext k a = .ok a' ∧ a'.right = (stateAfter Inorder.next k p).right := by
  induction k generalizing a p with
  | zero => exact ⟨a, rfl, h.1⟩
  | succ k ih =>
    obtain ⟨o, a', h1, h2⟩ := inSim_next a p h
    obtain ⟨a'', i1, i2⟩ := ih a' _ h2
    exact ⟨a'', by rw [stateAfterE, h1]; exact i1, i2⟩

/-! ## The leaves machine started from any state -/

/-- Leaves below the pending nodes. -/
def ancPend [TreeNode N V] (s : AncState N V) : List V :=
  (match s.root with | some r => (treeOf r).leaves | none => []) ++ topRem s.new ++ topRem s.old

theorem topRem_cons [TreeNode N V] (ns : List N) (st : List (List N)) :
    topRem (ns :: st) = (ns.flatMap fun n => (treeOf n).leaves) ++ topRem st := by
  simp [topRem]

/-- What a call that has just entered a node does. -/
theorem ancLoop_true [TreeNode N V] (old new : List (List N)) (ns : List N) (v : V) (items : List V) :
    ∃ x l, ancGet (ancLoop old (ns :: new) (v :: items) true) = some l ∧ l.getLast? = some x ∧
      (ancLoop old (ns :: new) (v :: items) true).root = none ∧
      (x :: ancPend (ancLoop old (ns :: new) (v :: items) true)).Perm
        ((if ns = [] then [v] else ns.flatMap fun n => (treeOf n).leaves) ++ topRem new ++ topRem old) := by
  cases ns with
  | nil =>
    have e : ancLoop old ([] :: new) (v :: items) true = ⟨none, v :: items, old, new⟩ := by
      rcases old with _ | ⟨_ | ⟨m, ms⟩, old⟩ <;> rw [ancLoop] <;> simp
    rw [e]
    exact ⟨v, (v :: items).reverse, by simp [ancGet], by simp, rfl, by simp [ancPend]⟩
  | cons n ns =>
    have e : ancLoop old ((n :: ns) :: new) (v :: items) true =
        ancLoop old (kids n :: ns :: new) (val n :: v :: items) true := by
      rw [ancLoop]
    have := ancLoop_true old (ns :: new) (kids n) (val n) (v :: items)
    rw [← e] at this
    obtain ⟨x, l, h1, h2, h3, h4⟩ := this
    refine ⟨x, l, h1, h2, h3, ?_⟩
    refine h4.trans ?_
    have := leaves_treeOf n
    cases hk : kids n <;> simp_all [topRem_cons]
termination_by stackNodes (ns :: new)
decreasing_by
  have hs := size_unfold n
  simp only [stackNodes, List.map_cons, List.sum_cons]
  omega

/-- What one call does: it hands out a pending leaf, or nothing, and then pending iterators have been dropped
unless nothing is pending. -/
def Progress [TreeNode N V] (pend : List V) (len : Nat) (s : AncState N V) : Prop :=
  s.root = none ∧
  ((∃ x l, ancGet s = some l ∧ l.getLast? = some x ∧ (x :: ancPend s).Perm pend) ∨
    (ancGet s = none ∧ (ancPend s).Perm pend ∧ (pend = [] ∨ s.old.length + s.new.length < len)))

theorem progress_true [TreeNode N V] (old new : List (List N)) (n : N) (items : List V) (len : Nat) (pend : List V)
    (h : ((treeOf n).leaves ++ topRem new ++ topRem old).Perm pend) :
    Progress pend len (ancLoop old (kids n :: new) (val n :: items) true) := by
  obtain ⟨x, l, h1, h2, h3, h4⟩ := ancLoop_true old new (kids n) (val n) items
  rw [← leaves_treeOf] at h4
  exact ⟨h3, .inl ⟨x, l, h1, h2, h4.trans h⟩⟩

theorem Progress.mono [TreeNode N V] {pend : List V} {len len' : Nat} {s : AncState N V} (h : Progress pend len s)
    (hl : len ≤ len') : Progress pend len' s := by
  obtain ⟨h0, h | ⟨h1, h2, h3⟩⟩ := h
  · exact ⟨h0, .inl h⟩
  · refine ⟨h0, .inr ⟨h1, h2, ?_⟩⟩
    rcases h3 with h3 | h3
    · exact .inl h3
    · exact .inr (by omega)

theorem ancLoop_false [TreeNode N V] (items : List V) (old new : List (List N)) :
    Progress (topRem new ++ topRem old) (old.length + new.length) (ancLoop old new items false) := by
  by_cases hnew : ∃ n ns st, new = (n :: ns) :: st
  · obtain ⟨n, ns, st, rfl⟩ := hnew
    rw [ancLoop]
    refine progress_true _ _ _ _ _ _ ?_
    simp [topRem_cons]
  · have hn : topRem new = topRem new.tail := by
      cases new with
      | nil => rfl
      | cons a st =>
        cases a with
        | nil => simp [topRem]
        | cons n ns => exact absurd ⟨n, ns, st, rfl⟩ hnew
    by_cases hold : ∃ n ns st, old = (n :: ns) :: st
    · obtain ⟨n, ns, st, rfl⟩ := hold
      rw [ancLoop]
      · simp only [Bool.false_eq_true, ↓reduceIte]
        refine progress_true _ _ _ _ _ _ ?_
        rw [hn, topRem_cons, topRem_cons, List.flatMap_cons]
        have : ∀ a b c d : List V, (a ++ b ++ (c ++ d)).Perm (b ++ (a ++ c ++ d)) := by
          intro a b c d
          simp only [List.append_assoc]
          exact (List.perm_append_comm_assoc a b (c ++ d))
        exact this _ _ _ _
      · intro a b c h
        exact hnew ⟨a, b, c, h⟩
    · have ho : topRem old = topRem old.tail := by
        cases old with
        | nil => rfl
        | cons a st =>
          cases a with
          | nil => simp [topRem]
          | cons n ns => exact absurd ⟨n, ns, st, rfl⟩ hold
      rw [ancLoop]
      · simp only [Bool.false_eq_true, ↓reduceIte]
        have hcase : (topRem new ++ topRem old : List V) = [] ∨
            old.tail.length + new.tail.length < old.length + new.length := by
          cases old <;> cases new <;> (simp [topRem]; try omega)
        rw [hn, ho] at hcase ⊢
        split
        · refine ⟨rfl, .inr ⟨rfl, by simp [ancPend], hcase⟩⟩
        · next i is hi =>
          refine (ancLoop_false (i :: is) old.tail new.tail).mono ?_
          simp only [List.length_tail]
          omega
      · intro a b c h
        exact hnew ⟨a, b, c, h⟩
      · intro a b c h
        exact hold ⟨a, b, c, h⟩
termination_by items.length
decreasing_by
  rename_i hi
  have := congrArg List.length hi
  simp only [List.length_tail, List.length_cons] at this ⊢
  omega

theorem ancNext_progress [TreeNode N V] (s : AncState N V) (h : s.root ≠ none → s.old = [] ∧ s.new = []) :
    Progress (ancPend s) (s.old.length + s.new.length) (ancNext s).2 := by
  obtain ⟨root, items, old, new⟩ := s
  cases root with
  | some r =>
    obtain ⟨h1, h2⟩ := h (by simp)
    simp only at h1 h2
    subst h1 h2
    exact progress_true [] [] r items _ _ (by simp [ancPend])
  | none =>
    have := ancLoop_false items.tail old new
    simpa [ancPend, ancNext, streamNext, ancAdvance] using this

/-- With enough calls, also after `None`, the leaves handed out are the pending leaves, in some order. -/
theorem ancOuts_perm [TreeNode N V] (s : AncState N V) (h : s.root ≠ none → s.old = [] ∧ s.new = []) :
    ∃ m, ∀ j, m ≤ j → ((outs ancNext j s).filterMap List.getLast?).Perm (ancPend s) := by
  have step : ∀ s : AncState N V, Progress (ancPend s) (s.old.length + s.new.length) (ancNext s).2 →
      (∀ s' : AncState N V, s'.root = none →
        ((ancPend s').length < (ancPend s).length ∨
          ((ancPend s').length = (ancPend s).length ∧ s'.old.length + s'.new.length < s.old.length + s.new.length) ∨
          ancPend s = []) →
        ancPend s ≠ [] →
        ∃ m, ∀ j, m ≤ j → ((outs ancNext j s').filterMap List.getLast?).Perm (ancPend s')) →
      ancPend s ≠ [] →
      ∃ m, ∀ j, m ≤ j → ((outs ancNext j s).filterMap List.getLast?).Perm (ancPend s) := by
    intro s hp ih hne
    obtain ⟨h0, ⟨x, l, h1, h2, h3⟩ | ⟨h1, h2, h3⟩⟩ := hp
    · obtain ⟨m, hm⟩ := ih _ h0 (.inl (by have := h3.length_eq; simp at this; omega)) hne
      refine ⟨m + 1, fun j hj => ?_⟩
      obtain ⟨j, rfl⟩ : ∃ i, j = i + 1 := ⟨j - 1, by omega⟩
      have := hm j (by omega)
      have e : (ancNext s).1 = some l := h1
      rw [outs, e]
      simp only [Option.toList_some, List.singleton_append, List.filterMap_cons, h2]
      exact (this.cons x).trans h3
    · rcases h3 with h3 | h3
      · exact absurd h3 hne
      · obtain ⟨m, hm⟩ := ih _ h0 (.inr (.inl ⟨h2.length_eq, h3⟩)) hne
        refine ⟨m + 1, fun j hj => ?_⟩
        obtain ⟨j, rfl⟩ : ∃ i, j = i + 1 := ⟨j - 1, by omega⟩
        have := hm j (by omega)
        have e : (ancNext s).1 = none := h1
        rw [outs, e]
        simpa using this.trans h2
  have empty : ∀ (j : Nat) (s : AncState N V), (s.root ≠ none → s.old = [] ∧ s.new = []) → ancPend s = [] →
      outs ancNext j s = [] := by
    intro j
    induction j with
    | zero => intros; rfl
    | succ j ih =>
      intro s hs h
      obtain ⟨h0, ⟨x, l, h1, h2, h3⟩ | ⟨h1, h2, h3⟩⟩ := ancNext_progress s hs
      · rw [h] at h3
        exact absurd h3.length_eq (by simp)
      · rw [h] at h2
        have e : (ancNext s).1 = none := h1
        rw [outs, e, ih _ (fun hh => absurd h0 hh) (List.perm_nil.1 h2)]
        rfl
  have main : ∀ (p : Nat) (len : Nat) (s : AncState N V), (s.root ≠ none → s.old = [] ∧ s.new = []) →
      (ancPend s).length = p → s.old.length + s.new.length = len →
      ∃ m, ∀ j, m ≤ j → ((outs ancNext j s).filterMap List.getLast?).Perm (ancPend s) := by
    intro p
    induction p using Nat.strongRecOn with
    | ind p ihp =>
      intro len
      induction len using Nat.strongRecOn with
      | ind len ihl =>
        intro s hs h1 h2
        by_cases hne : ancPend s = []
        · exact ⟨0, fun j _ => by rw [empty j s hs hne, hne]; exact List.Perm.refl _⟩
        · refine step s (ancNext_progress s hs) ?_ hne
          intro s' hr hc _
          rcases hc with hc | ⟨hc1, hc2⟩ | hc
          · exact ihp _ (h1 ▸ hc) _ s' (fun hh => absurd hr hh) rfl rfl
          · exact ihl _ (h2 ▸ hc2) s' (fun hh => absurd hr hh) (hc1.trans h1) rfl
          · exact absurd hc hne
  exact main _ _ s h rfl rfl

end Leaves

end TreeIter
