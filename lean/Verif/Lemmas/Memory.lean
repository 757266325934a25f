import Verif.Lemmas.Inorder
import Verif.Lemmas.Preorder
import Verif.Lemmas.LevelOrder
import Verif.Lemmas.LeavesAncMid

/-! # Lemmas about the size of the stacks -/

universe u v w

namespace TreeIter

variable {N : Type u} {V : Type v}

theorem stateAfter_snoc {S : Type u} {O : Type v} {next : S → Option O × S} (k : Nat) (s : S) :
    stateAfter next (k + 1) s = (next (stateAfter next k s)).2 := by
  induction k generalizing s with
  | zero => rfl
  | succ k ih => exact ih _

theorem nthCall_get {S : Type u} {O : Type v} {advance : S → S} {get : S → Option O} (k : Nat) (s : S) :
    nthCall (streamNext advance get) k s = get (stateAfter (streamNext advance get) (k + 1) s) := by
  rw [stateAfter_snoc]
  rfl

/-- Levels below and including a node. -/
def lev [TreeNode N V] (n : N) : Nat := (treeOf n).height

theorem lev_pos [TreeNode N V] (n : N) : 0 < lev n := height_pos _

theorem lev_kids [TreeNode N V] {n c : N} (h : c ∈ kids n) : lev c + 1 ≤ lev n := by
  obtain ⟨m, hm⟩ : ∃ m, (treeOf n).height = m + 1 := ⟨(treeOf n).height - 1, by have := height_pos (treeOf n); omega⟩
  have := height_children (treeOf n) m (by omega) (treeOf c) (by
    rw [treeOf, unfold_eq, Tree.map_node, Tree.children]
    simp only [List.map_map, List.mem_map, Function.comp]
    exact ⟨c, h, rfl⟩)
  simp only [lev]
  omega

/-- Every node waiting at some place of the stack fits, with everything below it, above what is in the stack. -/
def Fits [TreeNode N V] (H : Nat) : List (List N) → Prop
  | [] => True
  | it :: rest => (∀ c ∈ it, lev c + rest.length + 1 ≤ H) ∧ rest.length + 1 ≤ H ∧ Fits H rest

theorem Fits.length [TreeNode N V] {H : Nat} {st : List (List N)} (h : Fits H st) : st.length ≤ H := by
  cases st with
  | nil => simp
  | cons it rest => exact h.2.1

theorem Fits.push [TreeNode N V] {H : Nat} {n : N} {ns : List N} {rest : List (List N)} (h : Fits H ((n :: ns) :: rest)) :
    Fits H (kids n :: ns :: rest) := by
  obtain ⟨h1, h2, h3⟩ := h
  have := h1 n (by simp)
  have := lev_pos n
  refine ⟨fun c hc => ?_, by simp only [List.length_cons]; omega, fun c hc => h1 c (by simp [hc]), h2, h3⟩
  have := lev_kids hc
  simp only [List.length_cons]
  omega

theorem Fits.root [TreeNode N V] (n : N) : Fits (lev n) [kids n] :=
  ⟨fun c hc => by simpa using lev_kids hc, lev_pos n, trivial⟩

theorem pre_fits [TreeNode N V] {H : Nat} (st : List (List N)) (h : Fits H st) :
    Fits H (Preorder.next ⟨none, st⟩).2.stack ∧ (Preorder.next (N := N) ⟨none, st⟩).2.root = none := by
  induction st with
  | nil => exact ⟨trivial, rfl⟩
  | cons it rest ih =>
    cases it with
    | nil => simpa [Preorder.next, Preorder.loop] using ih h.2.2
    | cons n ns =>
      refine ⟨?_, rfl⟩
      simpa [Preorder.next, Preorder.loop] using h.push

theorem pre_stateAfter [TreeNode N V] (n : N) (k : Nat) :
    Fits (lev n) (stateAfter Preorder.next (k + 1) (Preorder.new n)).stack ∧
      (stateAfter Preorder.next (k + 1) (Preorder.new n)).root = none := by
  have key : ∀ k (st : List (List N)), Fits (lev n) st → Fits (lev n) (stateAfter Preorder.next k ⟨none, st⟩).stack ∧
      (stateAfter Preorder.next k ⟨none, st⟩).root = none := by
    intro k
    induction k with
    | zero => exact fun st h => ⟨h, rfl⟩
    | succ k ih =>
      intro st h
      obtain ⟨h1, h2⟩ := pre_fits st h
      rw [stateAfter]
      generalize (Preorder.next (N := N) ⟨none, st⟩).2 = s at h1 h2
      obtain ⟨r, st'⟩ := s
      obtain rfl : r = none := h2
      exact ih _ h1
  exact key k _ (Fits.root n)

theorem postLoop_fits [TreeNode N V] {H : Nat} (st : List (List N)) (items : List V) (h : Fits H st)
    (hl : items.length = st.length) :
    Fits H (Postorder.loop st items).2.2 ∧ (Postorder.loop st items).2.1.length = (Postorder.loop st items).2.2.length := by
  fun_induction Postorder.loop st items with
  | case1 items => exact ⟨trivial, by simp [List.eq_nil_of_length_eq_zero hl]⟩
  | case2 rest items =>
    refine ⟨h.2.2, ?_⟩
    simp only [List.length_cons] at hl
    simp [hl]
  | case3 n ns rest items ih => exact ih h.push (by simpa using hl)

theorem post_stateAfter [TreeNode N V] (n : N) (k : Nat) :
    Fits (lev n) (stateAfter Postorder.next k (Postorder.new (V := V) n)).stack ∧
      (stateAfter Postorder.next k (Postorder.new (V := V) n)).items.length =
        (stateAfter Postorder.next k (Postorder.new (V := V) n)).stack.length := by
  have key : ∀ k (st : List (List N)) (items : List V), Fits (lev n) st → items.length = st.length →
      Fits (lev n) (stateAfter Postorder.next k ⟨none, items, st⟩).stack ∧
      (stateAfter Postorder.next k ⟨none, items, st⟩).items.length = (stateAfter Postorder.next k ⟨none, items, st⟩).stack.length := by
    intro k
    induction k with
    | zero => exact fun st _ h hl => ⟨h, hl⟩
    | succ k ih =>
      intro st items h hl
      obtain ⟨h1, h2⟩ := postLoop_fits st items h hl
      exact ih _ _ h1 h2
  cases k with
  | zero => exact ⟨trivial, rfl⟩
  | succ k =>
    obtain ⟨h1, h2⟩ := postLoop_fits [kids n] [val n] (Fits.root n) rfl
    exact key k _ _ h1 h2

/-! ## In order -/

/-- Levels of what is in a slot; an empty slot counts for one. -/
def levO [BinNode N V] : Option N → Nat
  | none => 1
  | some n => (treeOf n).height

theorem levO_pos [BinNode N V] (o : Option N) : 0 < levO o := by
  cases o with
  | none => simp [levO]
  | some n => exact height_pos _

/-- Every entry fits above the entries below it. -/
def FitsR [BinNode N V] (H : Nat) : List (Option N) → Prop
  | [] => True
  | o :: rest => levO o + rest.length ≤ H ∧ FitsR H rest

theorem FitsR.length [BinNode N V] {H : Nat} {st : List (Option N)} (h : FitsR H st) : st.length ≤ H := by
  cases st with
  | nil => simp
  | cons o rest =>
    have := levO_pos o
    have := h.1
    simp only [List.length_cons]
    omega

theorem FitsR.step [BinNode N V] {H : Nat} {n : N} {rest : List (Option N)} (h : FitsR H (some n :: rest)) :
    levO (split2 n).2.2 + rest.length ≤ H ∧ (∀ l, (split2 n).2.1 = some l → levO (some l) + (rest.length + 1) ≤ H) := by
  obtain ⟨h1, h2⟩ := h
  simp only [levO] at h1
  have hp := height_pos (treeOf n)
  have hk : ∀ c, (split2 n).2.1 = some c ∨ (split2 n).2.2 = some c → (treeOf c).height + 1 ≤ (treeOf n).height := by
    intro c hc
    refine lev_kids (n := n) (c := c) ?_
    simp only [kids, split, slots, List.mem_filterMap, List.mem_cons, List.not_mem_nil, or_false, id_eq, exists_eq_right]
    exact hc.imp Eq.symm Eq.symm
  refine ⟨?_, fun l hl => ?_⟩
  · cases hr : (split2 n).2.2 with
    | none =>
      simp only [levO]
      omega
    | some c =>
      have := hk c (.inr hr)
      simp only [levO]
      omega
  · have := hk l (.inl hl)
    simp only [levO]
    omega

theorem descend_fits [BinNode N V] {H : Nat} (cur : Option N) (right : List (Option N)) (items : List V)
    (h : FitsR H right) (hc : ∀ n, cur = some n → levO (some n) + right.length ≤ H) :
    FitsR H (Inorder.descend cur right items).1 := by
  fun_induction Inorder.descend cur right items with
  | case1 right items => exact h
  | case2 n right items ih =>
    obtain ⟨h1, h2⟩ := FitsR.step (H := H) (n := n) (rest := right) ⟨hc n rfl, h⟩
    exact ih ⟨h1, h⟩ fun l hl => by simpa using h2 l hl

theorem find_fits [BinNode N V] {H : Nat} (items : List V) (right : List (Option N)) (h : FitsR H right) :
    FitsR H (Inorder.find items right).2 ∧
      ∀ n, (Inorder.find items right).1 = .cur (some n) → levO (some n) + (Inorder.find items right).2.length ≤ H := by
  fun_induction Inorder.find items right with
  | case1 => exact ⟨h, by simp⟩
  | case2 => exact ⟨h, by simp⟩
  | case3 => exact ⟨h, by simp⟩
  | case4 popped rest h1 h2 =>
    refine ⟨h.2, fun n hn => ?_⟩
    simp only [Inorder.Found.cur.injEq] at hn
    subst hn
    exact h.1
  | case5 rest n h1 h2 =>
    refine ⟨h.2, fun m hm => ?_⟩
    simp only [Inorder.Found.cur.injEq, Option.some.injEq] at hm
    subst hm
    exact h.1
  | case6 rest h1 h2 ih => exact ih h.2

theorem in_fits [BinNode N V] {H : Nat} (s : Inorder.State N V) (h : FitsR H s.right) :
    FitsR H (Inorder.next s).2.right := by
  obtain ⟨h1, h2⟩ := find_fits s.items s.right h
  rw [Inorder.next]
  generalize Inorder.find s.items s.right = f at h1 h2
  obtain ⟨_ | cur, right⟩ := f
  · exact h1
  · exact descend_fits cur right s.items h1 fun n hn => h2 n (by rw [hn])

theorem in_stateAfter [BinNode N V] (n : N) (k : Nat) :
    FitsR (treeOf n).height (stateAfter Inorder.next k (Inorder.new (V := V) n)).right := by
  have key : ∀ k (s : Inorder.State N V), FitsR (treeOf n).height s.right →
      FitsR (treeOf n).height (stateAfter Inorder.next k s).right := by
    intro k
    induction k with
    | zero => exact fun s h => h
    | succ k ih => exact fun s h => ih _ (in_fits s h)
  exact key k _ ⟨by simp [levO], trivial⟩

theorem leavesLoop_fits [TreeNode N V] {H : Nat} (bottom top : List (List N)) (items : List V) (just : Bool)
    (hb : bottom = []) (ht : Fits H top) (hi : items.length = top.length) :
    (Leaves.loop bottom top items just).2.bottom = [] ∧ Fits H (Leaves.loop bottom top items just).2.top ∧
      (Leaves.loop bottom top items just).2.items.length = (Leaves.loop bottom top items just).2.top.length ∧
      (Leaves.loop bottom top items just).2.root = none := by
  fun_induction Leaves.loop bottom top items just with
  | case1 just bottom n ns top items ih => exact ih hb ht.push (by simpa using hi)
  | case2 bottom top items =>
    refine ⟨hb, ht.2.2, ?_, rfl⟩
    simp only [List.length_tail, hi, List.length_cons]
    omega
  | case3 bottom top items ih =>
    exact ih hb ht.2.2 (by simp only [List.length_tail, hi, List.length_cons]; omega)
  | case4 n ns bottom items just ih => cases hb
  | case5 bottom items just ih => cases hb
  | case6 just items => exact ⟨rfl, trivial, by simpa using hi, rfl⟩

theorem leaves_stateAfter [TreeNode N V] (n : N) (k : Nat) :
    Fits (lev n) (stateAfter Leaves.next (k + 1) (⟨some n, [], [], []⟩ : Leaves.State N V)).top ∧
      (stateAfter Leaves.next (k + 1) (⟨some n, [], [], []⟩ : Leaves.State N V)).items.length =
        (stateAfter Leaves.next (k + 1) (⟨some n, [], [], []⟩ : Leaves.State N V)).top.length ∧
      (stateAfter Leaves.next (k + 1) (⟨some n, [], [], []⟩ : Leaves.State N V)).bottom = [] ∧
      (stateAfter Leaves.next (k + 1) (⟨some n, [], [], []⟩ : Leaves.State N V)).root = none := by
  induction k with
  | zero =>
    obtain ⟨h1, h2, h3, h4⟩ := leavesLoop_fits [] [kids n] [val n] true rfl (Fits.root n) (by simp)
    exact ⟨h2, h3, h1, h4⟩
  | succ k ih =>
    obtain ⟨h1, h2, h3, h4⟩ := ih
    rw [stateAfter_snoc]
    generalize stateAfter Leaves.next (k + 1) (⟨some n, [], [], []⟩ : Leaves.State N V) = s at *
    obtain ⟨root, bottom, top, items⟩ := s
    simp only at h1 h2 h3 h4
    subst h4
    obtain ⟨g1, g2, g3, g4⟩ := leavesLoop_fits bottom top items false h3 h1 h2
    exact ⟨g2, g3, g1, g4⟩

end TreeIter
