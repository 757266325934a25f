import Verif.Lemmas.LeavesAncMid

/-! # The first answer of `attach_ancestors().leaves()` in the middle of a traversal -/

universe u v w

namespace TreeIter

variable {N : Type u} {V : Type v}

theorem onlyLeaves_append {α : Type u} (a b : List (Bool × α)) :
    Tree.onlyLeaves (a ++ b) = Tree.onlyLeaves a ++ Tree.onlyLeaves b := by
  simp [Tree.onlyLeaves]

theorem onlyLeaves_flatMap {α : Type u} {β : Type v} (f : β → List (Bool × α)) (l : List β) :
    Tree.onlyLeaves (l.flatMap f) = l.flatMap fun x => Tree.onlyLeaves (f x) := by
  induction l with
  | nil => rfl
  | cons x l ih => rw [List.flatMap_cons, onlyLeaves_append, ih, List.flatMap_cons]

theorem onlyLeaves_preorder {α : Type u} (t : Tree α) : Tree.onlyLeaves t.markLeaves.preorder = t.leaves := by
  induction t using Tree.ind with
  | h a cs ih =>
    rw [Tree.markLeaves_node, Tree.preorder_node, Tree.leaves_node, List.flatMap_map]
    cases cs with
    | nil => rfl
    | cons c cs =>
      have : ∀ l : List (Bool × α), Tree.onlyLeaves ((false, a) :: l) = Tree.onlyLeaves l := fun l => rfl
      simp only [List.isEmpty_cons, this, onlyLeaves_flatMap, reduceCtorEq, ↓reduceIte]
      exact List.flatMap_congr ih

theorem onlyLeaves_postorder {α : Type u} (t : Tree α) : Tree.onlyLeaves t.markLeaves.postorder = t.leaves := by
  induction t using Tree.ind with
  | h a cs ih =>
    rw [Tree.markLeaves_node, Tree.postorder_node, Tree.leaves_node, List.flatMap_map]
    cases cs with
    | nil => rfl
    | cons c cs =>
      have : Tree.onlyLeaves [(false, a)] = [] := rfl
      simp only [List.isEmpty_cons, onlyLeaves_append, this, onlyLeaves_flatMap, reduceCtorEq, ↓reduceIte,
        List.append_nil]
      exact List.flatMap_congr ih

theorem markLeaves_map {α : Type u} {β : Type v} (f : α → β) (t : Tree α) :
    (t.map f).markLeaves = t.markLeaves.map fun x => (x.1, f x.2) := by
  induction t using Tree.ind with
  | h a cs ih =>
    rw [Tree.map_node, Tree.markLeaves_node, Tree.markLeaves_node, Tree.map_node, List.map_map, List.map_map]
    congr 1
    · simp
    · exact List.map_congr_left ih

theorem map_snd_markLeaves {α : Type u} (t : Tree α) : t.markLeaves.map Prod.snd = t := by
  induction t using Tree.ind with
  | h a cs ih =>
    rw [Tree.markLeaves_node, Tree.map_node, List.map_map]
    congr 1
    conv => rhs; rw [← List.map_id cs]
    exact List.map_congr_left ih

/-- Of a list without repetitions, what is not among the first `k` comes after them. -/
theorem filter_unseen {α : Type u} {β : Type v} [BEq β] [LawfulBEq β] (key : α → β) (l : List α)
    (h : (l.map key).Nodup) (k : Nat) :
    l.filter (fun x => !(l.take k).any fun y => key x == key y) = l.drop k := by
  conv => lhs; rw [← List.take_append_drop k l]
  rw [List.filter_append]
  rw [← List.take_append_drop k l, List.map_append, List.nodup_append] at h
  rw [List.filter_eq_nil_iff.2, List.nil_append, List.filter_eq_self.2]
  · intro x hx
    simp only [Bool.not_eq_eq_eq_not, Bool.not_true, List.any_eq_false, beq_iff_eq]
    intro y hy e
    rw [List.take_append_drop] at hy
    exact h.2.2 _ (List.mem_map_of_mem hy) _ (List.mem_map_of_mem hx) e.symm
  · intro x hx
    simp only [Bool.not_eq_eq_eq_not, Bool.not_true, List.any_eq_false, beq_iff_eq, Classical.not_forall]
    exact ⟨x, by rwa [List.take_append_drop], by simp⟩

/-- The slices of the leaves not among the first `k` positions of a listing. -/
theorem unseen_slices (t : Tree V) (L : List (Bool × Pos V)) (k : Nat) (hn : ((L.map Prod.snd).map Pos.path).Nodup)
    (hl : Tree.onlyLeaves L = t.located.leaves) :
    (t.located.leaves.filter fun x => !((L.map Prod.snd).take k).any fun y => x.path == y.path).map Pos.ancestors =
      Tree.onlyLeaves ((L.map fun x => (x.1, x.2.ancestors)).drop k) := by
  have := filter_unseen (fun x : Bool × Pos V => x.2.path) L (by rwa [List.map_map] at hn) k
  rw [← List.map_drop, ← this, ← hl]
  simp only [Tree.onlyLeaves, List.filter_map, List.map_map, ← List.map_take, List.any_map]
  rw [List.filter_filter, List.filter_filter]
  rw [show (fun a : Bool × Pos V => ((fun x : Pos V => !(List.take k L).any ((fun y => x.path == y.path) ∘ Prod.snd)) ∘
      Prod.snd) a && a.1) = fun a => (((fun x : Bool × List V => x.1) ∘ fun x : Bool × Pos V =>
      (x.1, x.2.ancestors)) a && !(List.take k L).any fun y => a.2.path == y.2.path) from funext fun a => Bool.and_comm _ _]
  rfl

theorem unseen_slices_preorder (t : Tree V) (k : Nat) :
    (t.located.leaves.filter fun x => !(t.located.preorder.take k).any fun y => x.path == y.path).map Pos.ancestors =
      Tree.onlyLeaves ((ancT [] t).markLeaves.preorder.drop k) := by
  have e : t.located.markLeaves.preorder.map Prod.snd = t.located.preorder := by
    rw [← Tree.preorder_map, map_snd_markLeaves]
  have := unseen_slices t t.located.markLeaves.preorder k (by rw [e]; exact located_nodup t) (onlyLeaves_preorder _)
  rw [e] at this
  rw [this, ← map_ancestors_withPos t [], markLeaves_map, Tree.preorder_map]
  rfl

theorem unseen_slices_postorder (t : Tree V) (k : Nat) :
    (t.located.leaves.filter fun x => !(t.located.postorder.take k).any fun y => x.path == y.path).map Pos.ancestors =
      Tree.onlyLeaves ((ancT [] t).markLeaves.postorder.drop k) := by
  have e : t.located.markLeaves.postorder.map Prod.snd = t.located.postorder := by
    rw [← Tree.postorder_map, map_snd_markLeaves]
  have := unseen_slices t t.located.markLeaves.postorder k (by
    rw [e]
    exact (((postorder_perm_preorder t.located).map Pos.path).nodup_iff).2 (located_nodup t)) (onlyLeaves_postorder _)
  rw [e] at this
  rw [this, ← map_ancestors_withPos t [], markLeaves_map, Tree.postorder_map]
  rfl

namespace Leaves

/-- Slices of the leaves below the pending nodes; `items` are the ancestors of the nodes of the top iterator. -/
def slices [TreeNode N V] : List (List N) → List V → List (List V)
  | [], _ => []
  | ns :: rest, items => (ns.flatMap fun n => (ancT items.reverse (treeOf n)).leaves) ++ slices rest items.tail

/-! ## Preorder -/

/-- As `Preorder.ancRemS`, with marks. -/
def preMarks [TreeNode N V] : List (List N) → List V → List (Bool × List V)
  | [], _ => []
  | ns :: rest, it => (ns.flatMap fun n => (ancT it.reverse (treeOf n)).markLeaves.preorder) ++ preMarks rest it.tail

theorem preMarks_leaves [TreeNode N V] (st : List (List N)) (it : List V) :
    Tree.onlyLeaves (preMarks st it) = slices st it := by
  induction st generalizing it with
  | nil => rfl
  | cons ns st ih =>
    rw [preMarks, onlyLeaves_append, ih, onlyLeaves_flatMap, slices]
    simp only [onlyLeaves_preorder]

theorem preorder_marks [TreeNode N V] (anc : List V) (n : N) :
    (ancT anc (treeOf n)).markLeaves.preorder = ((kids n).isEmpty, anc ++ [val n]) ::
      (kids n).flatMap fun c => (ancT (anc ++ [val n]) (treeOf c)).markLeaves.preorder := by
  rw [ancT_treeOf, Tree.markLeaves_node, Tree.preorder_node, List.flatMap_map, List.flatMap_map]
  simp

theorem preMarks_next [TreeNode N V] (s : Preorder.AncState N V) (h : Preorder.AncInv s) (hr : s.root = none) :
    (Preorder.ancNext s).2.root = none ∧
      preMarks (Preorder.ancNext s).2.stack (Preorder.ancNext s).2.items = (preMarks s.stack s.items).tail := by
  obtain ⟨root, stack, items⟩ := s
  obtain ⟨h1, h2⟩ := h
  simp only at h1 h2 hr
  subst hr
  induction stack generalizing items with
  | nil =>
    obtain rfl : items = [] := by simpa using h1
    simp [Preorder.ancNext, streamNext, Preorder.ancAdvance, preMarks, Preorder.ancLoop]
  | cons ns rest ih =>
    cases items with
    | nil => simp at h1
    | cons a items =>
    cases ns with
    | nil =>
      have := ih items (by simpa using h1) (by simp)
      simpa [Preorder.ancNext, streamNext, Preorder.ancAdvance, preMarks, Preorder.ancLoop] using this
    | cons n ns =>
      simp [Preorder.ancNext, streamNext, Preorder.ancAdvance, preMarks, Preorder.ancLoop, preorder_marks _ n]

theorem preMarks_calls [TreeNode N V] (n : N) (k : Nat) :
    let s := stateAfter Preorder.ancNext (k + 1) (Preorder.AncState.new n)
    s.root = none ∧ s.items.length = s.stack.length ∧
      preMarks s.stack s.items = (ancT [] (treeOf n)).markLeaves.preorder.drop (k + 1) := by
  suffices ∀ (k : Nat) (s : Preorder.AncState N V), Preorder.AncInv s → s.root = none →
      (stateAfter Preorder.ancNext k s).root = none ∧
      (stateAfter Preorder.ancNext k s).items.length = (stateAfter Preorder.ancNext k s).stack.length ∧
      preMarks (stateAfter Preorder.ancNext k s).stack (stateAfter Preorder.ancNext k s).items =
        (preMarks s.stack s.items).drop k by
    have := this k (Preorder.ancNext (Preorder.AncState.new n)).2 (by
      simp [Preorder.AncInv, Preorder.ancNext, streamNext, Preorder.ancAdvance, Preorder.AncState.new]) rfl
    refine ⟨this.1, this.2.1, ?_⟩
    rw [preorder_marks, List.drop_succ_cons]
    refine this.2.2.trans ?_
    simp [Preorder.ancNext, streamNext, Preorder.ancAdvance, Preorder.AncState.new, preMarks]
  intro k
  induction k with
  | zero => exact fun s h hr => ⟨hr, h.1, by simp [stateAfter]⟩
  | succ k ih =>
    intro s h hr
    obtain ⟨h1, h2⟩ := preMarks_next s h hr
    obtain ⟨i1, i2, i3⟩ := ih _ (Preorder.ancNext_spec s h).2.2 h1
    exact ⟨i1, i2, by rw [stateAfter, i3, h2, List.drop_tail]⟩

/-! ## Postorder -/

/-- As `Postorder.ancRemS`, with marks. -/
def postMarks [TreeNode N V] : List (List N) → List V → List (Bool × List V)
  | [], _ => []
  | ns :: rest, items =>
    (ns.flatMap fun n => (ancT items.reverse (treeOf n)).markLeaves.postorder) ++ [(false, items.reverse)] ++
      postMarks rest items.tail

theorem postMarks_leaves [TreeNode N V] (st : List (List N)) (it : List V) :
    Tree.onlyLeaves (postMarks st it) = slices st it := by
  induction st generalizing it with
  | nil => rfl
  | cons ns st ih =>
    rw [postMarks, onlyLeaves_append, onlyLeaves_append, ih, onlyLeaves_flatMap, slices]
    simp only [onlyLeaves_postorder]
    rw [show Tree.onlyLeaves [(false, it.reverse)] = [] from rfl, List.append_nil]

theorem postorder_marks [TreeNode N V] (anc : List V) (n : N) :
    (ancT anc (treeOf n)).markLeaves.postorder =
      ((kids n).flatMap fun c => (ancT (anc ++ [val n]) (treeOf c)).markLeaves.postorder) ++
        [((kids n).isEmpty, anc ++ [val n])] := by
  rw [ancT_treeOf, Tree.markLeaves_node, Tree.postorder_node, List.flatMap_map, List.flatMap_map]
  simp

/-- Marks matter only after the first entry. -/
theorem postMarks_enter [TreeNode N V] (n : N) (ns : List N) (rest : List (List N)) (items : List V) :
    (postMarks (kids n :: ns :: rest) (val n :: items)).tail = (postMarks ((n :: ns) :: rest) items).tail := by
  rw [postMarks, postMarks, postMarks, List.flatMap_cons, postorder_marks]
  cases hk : kids n with
  | nil => simp
  | cons c cs => simp [List.append_assoc]

theorem postMarks_loop [TreeNode N V] (stack : List (List N)) (items : List V) (h : items.length = stack.length) :
    postMarks (Postorder.ancLoop stack items).2 (Postorder.ancLoop stack items).1.tail =
      (postMarks stack items).tail := by
  fun_induction Postorder.ancLoop stack items with
  | case1 items => simp [postMarks]
  | case2 rest items => simp [postMarks]
  | case3 n ns rest items ih => rw [ih (by simpa using h), postMarks_enter]

theorem postMarks_calls [TreeNode N V] (n : N) (k : Nat) :
    let s := stateAfter Postorder.ancNext (k + 1) (Postorder.AncState.new n)
    s.root = none ∧ s.items.tail.length = s.stack.length ∧
      postMarks s.stack s.items.tail = (ancT [] (treeOf n)).markLeaves.postorder.drop (k + 1) := by
  suffices ∀ (k : Nat) (s : Postorder.AncState N V), Postorder.AncInv s → s.root = none →
      (stateAfter Postorder.ancNext k s).root = none ∧
      (stateAfter Postorder.ancNext k s).items.tail.length = (stateAfter Postorder.ancNext k s).stack.length ∧
      postMarks (stateAfter Postorder.ancNext k s).stack (stateAfter Postorder.ancNext k s).items.tail =
        (postMarks s.stack s.items.tail).drop k by
    have := this k (Postorder.ancNext (Postorder.AncState.new n)).2
      (Postorder.ancNext_spec _ (by simp [Postorder.AncInv, Postorder.AncState.new])).2.2 rfl
    refine ⟨this.1, this.2.1, this.2.2.trans ?_⟩
    have e : postMarks (Postorder.ancNext (Postorder.AncState.new n)).2.stack
        (Postorder.ancNext (Postorder.AncState.new n)).2.items.tail =
        ((ancT [] (treeOf n)).markLeaves.postorder).tail := by
      simp only [Postorder.ancNext, streamNext, Postorder.ancAdvance, Postorder.AncState.new]
      rw [postMarks_loop [kids n] [val n] rfl, postorder_marks]
      cases hk : kids n <;> simp [postMarks]
    rw [e, List.drop_tail]
  intro k
  induction k with
  | zero =>
    intro s h hr
    rw [Postorder.AncInv, hr] at h
    exact ⟨hr, h, by simp [stateAfter]⟩
  | succ k ih =>
    intro s h hr
    have h' := (Postorder.ancNext_spec s h).2.2
    rw [Postorder.AncInv, hr] at h
    have h1 : (Postorder.ancNext s).2.root = none := by
      simp only [Postorder.ancNext, streamNext, Postorder.ancAdvance, hr]
    have h2 : postMarks (Postorder.ancNext s).2.stack (Postorder.ancNext s).2.items.tail =
        (postMarks s.stack s.items.tail).tail := by
      simp only [Postorder.ancNext, streamNext, Postorder.ancAdvance, hr]
      exact postMarks_loop _ _ h
    obtain ⟨i1, i2, i3⟩ := ih _ h' h1
    exact ⟨i1, i2, by rw [stateAfter, i3, h2, List.drop_tail]⟩

/-! ## One call -/

/-- The path from a node to its first leaf. -/
theorem first_leaf [TreeNode N V] (n : N) :
    ∃ w, w ≠ [] ∧ (∀ anc, (ancT anc (treeOf n)).leaves.head? = some (anc ++ w)) ∧
      ∀ (old new : List (List N)) (items : List V),
        ancGet (ancLoop old (kids n :: new) (val n :: items) true) = some (items.reverse ++ w) := by
  induction n using node_ind with
  | h n ih =>
    cases hk : kids n with
    | nil =>
      refine ⟨[val n], by simp, fun anc => by rw [leaves_ancT, if_pos hk]; rfl, fun old new items => ?_⟩
      have e : ancLoop old ([] :: new) (val n :: items) true = ⟨none, val n :: items, old, new⟩ := by
        rcases old with _ | ⟨_ | ⟨m, ms⟩, old⟩ <;> rw [ancLoop] <;> simp
      simp [e, ancGet]
    | cons c cs =>
      obtain ⟨w, hw, h1, h2⟩ := ih c (by simp [hk])
      refine ⟨val n :: w, by simp, fun anc => ?_, fun old new items => ?_⟩
      · rw [leaves_ancT, if_neg (by simp [hk]), hk, List.flatMap_cons, List.head?_append, h1]
        simp
      · rw [ancLoop, h2]
        simp

/-- Aligned stacks: the first answer is right. -/
theorem first_aligned [TreeNode N V] (old : List (List N)) (items : List V) (h : items.length = old.length) :
    ancGet (ancLoop old [] items false) = (slices old items).head? := by
  induction old generalizing items with
  | nil =>
    obtain rfl : items = [] := by simpa using h
    rw [ancLoop] <;> simp [slices, ancGet]
  | cons ns old ih =>
    cases ns with
    | nil =>
      cases items with
      | nil => simp at h
      | cons a items =>
        have e := ih items (by simpa using h)
        rw [ancLoop]
        · simp only [Bool.false_eq_true, ↓reduceIte, List.tail_cons, List.tail_nil]
          split
          · obtain rfl : old = [] := by simpa using h
            simp [ancGet, slices]
          · rw [e]
            simp [slices]
        · simp
        · simp
    | cons n ns =>
      obtain ⟨w, -, h1, h2⟩ := first_leaf n
      rw [ancLoop]
      · simp only [Bool.false_eq_true, ↓reduceIte]
        rw [h2, slices, List.flatMap_cons, List.append_assoc, List.head?_append, h1]
        rfl
      · simp

/-- One item too few: the first answer lacks an ancestor, or there is none. -/
theorem first_shifted [TreeNode N V] (old : List (List N)) (x : V) (items : List V) (e : List V)
    (h : (slices old (x :: items)).head? = some e) :
    ancGet (ancLoop old [] items false) = none ∨
      ∃ j, j + 1 < e.length ∧ ancGet (ancLoop old [] items false) = some (e.eraseIdx j) := by
  induction old generalizing x items with
  | nil => simp [slices] at h
  | cons ns old ih =>
    cases ns with
    | nil =>
      rw [ancLoop]
      · simp only [Bool.false_eq_true, ↓reduceIte, List.tail_cons, List.tail_nil]
        split
        · exact .inl rfl
        · next i is hi =>
          cases items with
          | nil => simp at hi
          | cons y items =>
            simp only [List.tail_cons] at hi
            rw [← hi]
            exact ih y items (by simpa [slices] using h)
      · simp
      · simp
    | cons n ns =>
      obtain ⟨w, hw, h1, h2⟩ := first_leaf n
      rw [slices, List.flatMap_cons, List.append_assoc, List.head?_append, h1] at h
      obtain rfl : (x :: items).reverse ++ w = e := by simpa using h
      refine .inr ⟨items.length, ?_, ?_⟩
      · have := List.length_pos_iff.2 hw
        simp
        omega
      · rw [ancLoop]
        · simp only [Bool.false_eq_true, ↓reduceIte]
          rw [h2, List.reverse_cons, List.append_assoc, List.eraseIdx_append_of_length_le (by simp)]
          simp
        · simp

end Leaves

end TreeIter
