import Verif.Model.Leaves
import Verif.Lemmas.Decor

/-! # Lemmas about the depth-first leaves machines -/

universe u v w

namespace TreeIter

namespace Leaves

variable {N : Type u} {V : Type v}

/-- Leaves of the trees waiting in a stack. -/
def topRem [TreeNode N V] (st : List (List N)) : List V :=
  st.flatMap fun ns => ns.flatMap fun n => (treeOf n).leaves

/-- What the machine makes of the nodes of the interrupted iterators: childless ones are lost. -/
def botRem [TreeNode N V] (st : List (List N)) : List V :=
  st.flatMap fun ns => ns.flatMap fun n => if kids n = [] then [] else (treeOf n).leaves

theorem leaves_treeOf [TreeNode N V] (n : N) :
    (treeOf n).leaves = if kids n = [] then [val n] else (kids n).flatMap fun c => (treeOf c).leaves := by
  rw [treeOf_eq, Tree.leaves_node, List.flatMap_map]
  simp

/-- Leaves still to come inside the loop. -/
def loopRem [TreeNode N V] (bottom top : List (List N)) (items : List V) : Bool → List V
  | false => topRem top ++ botRem bottom
  | true =>
    match top with
    | [] :: top => items.head?.toList ++ topRem top ++ botRem bottom
    | top => topRem top ++ botRem bottom

/-- Leaves still to come. -/
def rem [TreeNode N V] (s : State N V) : List V :=
  (match s.root with | some r => (treeOf r).leaves | none => []) ++ topRem s.top ++ botRem s.bottom

/-- Reachable states: every iterator of the top stack has its item. -/
def Inv (s : State N V) : Prop := s.top.length ≤ s.items.length ∧ (s.root ≠ none → s.top = [])

theorem loop_spec [TreeNode N V] (bottom top : List (List N)) (items : List V) (just : Bool)
    (h : top.length ≤ items.length) (hj : just = true → top ≠ []) :
    (loop bottom top items just).1 = (loopRem bottom top items just).head? ∧
      rem (loop bottom top items just).2 = (loopRem bottom top items just).tail ∧
      Inv (loop bottom top items just).2 := by
  fun_induction loop bottom top items just with
  | case1 just bottom n ns top items ih =>
    have e : loopRem bottom ((n :: ns) :: top) items just =
        loopRem bottom (kids n :: ns :: top) (val n :: items) true := by
      have := leaves_treeOf n
      cases hk : kids n <;> cases just <;> simp_all [loopRem, topRem]
    rw [e]
    exact ih (by simpa using h) (by simp)
  | case2 bottom top items =>
    cases items with
    | nil => simp at h
    | cons v items => simp_all [loopRem, rem, Inv]
  | case3 bottom top items ih =>
    have := ih (by simp only [List.length_cons, List.length_tail] at h ⊢; omega) (by simp)
    simpa [loopRem, topRem] using this
  | case4 n ns bottom items just ih =>
    cases just with
    | true => exact absurd rfl (hj rfl)
    | false =>
      have e : loopRem ((n :: ns) :: bottom) [] items false =
          loopRem (ns :: bottom) [kids n] (val n :: items) false := by
        have := leaves_treeOf n
        cases hk : kids n <;> simp_all [loopRem, topRem, botRem]
      rw [e]
      exact ih (by simp) (by simp)
  | case5 bottom items just ih =>
    cases just with
    | true => exact absurd rfl (hj rfl)
    | false => simpa [loopRem, topRem, botRem] using ih (by simp) (by simp)
  | case6 just items =>
    cases just with
    | true => exact absurd rfl (hj rfl)
    | false => simp [loopRem, topRem, botRem, rem, Inv]

theorem next_spec [TreeNode N V] (s : State N V) (h : Inv s) :
    (next s).1 = (rem s).head? ∧ rem (next s).2 = (rem s).tail ∧ Inv (next s).2 := by
  obtain ⟨root, bottom, top, items⟩ := s
  obtain ⟨h1, h2⟩ := h
  simp only at h1 h2
  cases root with
  | some r =>
    obtain rfl := h2 (by simp)
    have := loop_spec bottom [kids r] (val r :: items) true (by simp) (by simp)
    have e : loopRem bottom [kids r] (val r :: items) true = rem ⟨some r, bottom, [], items⟩ := by
      have := leaves_treeOf r
      cases hk : kids r <;> simp_all [loopRem, topRem, botRem, rem]
    rw [e] at this
    exact this
  | none => exact loop_spec bottom top items false h1 (by simp)

/-! ## With ancestors, from the start -/

/-- Root-to-leaf lists still to come from the stacks. -/
def ancRemS [TreeNode N V] : List (List N) → List V → List (List V)
  | [], _ => []
  | ns :: rest, it => (ns.flatMap fun n => (ancT it.reverse (treeOf n)).leaves) ++ ancRemS rest it.tail

/-- Root-to-leaf lists still to come. -/
def ancRem [TreeNode N V] (s : AncState N V) : List (List V) :=
  match s.root with
  | some r => (ancT s.items.reverse (treeOf r)).leaves
  | none => ancRemS s.new s.items.tail

/-- Reachable states when nothing was interrupted. -/
def AncInv (s : AncState N V) : Prop :=
  s.old = [] ∧
    match s.root with
    | some _ => s.items = [] ∧ s.new = []
    | none => s.items.tail.length = s.new.length

theorem leaves_ancT [TreeNode N V] (anc : List V) (n : N) :
    (ancT anc (treeOf n)).leaves =
      if kids n = [] then [anc ++ [val n]] else (kids n).flatMap fun c => (ancT (anc ++ [val n]) (treeOf c)).leaves := by
  rw [ancT_treeOf, Tree.leaves_node, List.flatMap_map]
  simp

theorem ancLoop_pushed [TreeNode N V] (ns : List N) (new : List (List N)) (items : List V) (v : V)
    (h : items.length = new.length) :
    let s := ancLoop [] (ns :: new) (v :: items) true
    ancGet s = ((if ns = [] then [(v :: items).reverse] else
        ns.flatMap fun n => (ancT (v :: items).reverse (treeOf n)).leaves) ++ ancRemS new items).head? ∧
      ancRem s = ((if ns = [] then [(v :: items).reverse] else
        ns.flatMap fun n => (ancT (v :: items).reverse (treeOf n)).leaves) ++ ancRemS new items).tail ∧
      AncInv s := by
  cases ns with
  | nil =>
    intro s
    have e : s = ⟨none, v :: items, [], new⟩ := by
      show ancLoop _ _ _ _ = _
      rw [ancLoop]
      all_goals simp
    rw [e]
    refine ⟨by simp [ancGet], by simp [ancRem], rfl, by simpa using h⟩
  | cons n ns =>
    intro s
    have e : s = ancLoop [] (kids n :: ns :: new) (val n :: v :: items) true := by
      show ancLoop _ _ _ _ = _
      rw [ancLoop]
    have := ancLoop_pushed (kids n) (ns :: new) (v :: items) (val n) (by simpa using h)
    rw [← e] at this
    simpa [ancRemS, leaves_ancT _ n] using this
termination_by stackNodes (ns :: new)
decreasing_by
  have hs := size_unfold n
  simp only [stackNodes, List.map_cons, List.sum_cons]
  omega

theorem ancLoop_spec [TreeNode N V] (new : List (List N)) (items : List V) (h : items.length = new.length) :
    let s := ancLoop [] new items false
    ancGet s = (ancRemS new items).head? ∧ ancRem s = (ancRemS new items).tail ∧ AncInv s := by
  induction new generalizing items with
  | nil =>
    obtain rfl : items = [] := by simpa using h
    simp [ancLoop, ancGet, ancRemS, ancRem, AncInv]
  | cons ns new ih =>
    cases items with
    | nil => simp at h
    | cons v items =>
      cases ns with
      | nil =>
        have e : ancLoop [] ([] :: new) (v :: items) false = ancLoop [] new items false := by
          rw [ancLoop]
          · cases items with
            | nil =>
              obtain rfl : new = [] := by simpa using h.symm
              simp [ancLoop]
            | cons i is => simp
          all_goals simp
        rw [e]
        simpa [ancRemS] using ih items (by simpa using h)
      | cons n ns =>
        have e : ancLoop [] ((n :: ns) :: new) (v :: items) false =
            ancLoop [] (kids n :: ns :: new) (val n :: v :: items) true := by
          rw [ancLoop]
        rw [e]
        have := ancLoop_pushed (kids n) (ns :: new) (v :: items) (val n) (by simpa using h)
        simpa [ancRemS, leaves_ancT _ n] using this

theorem ancNext_spec [TreeNode N V] (s : AncState N V) (h : AncInv s) :
    (ancNext s).1 = (ancRem s).head? ∧ ancRem (ancNext s).2 = (ancRem s).tail ∧ AncInv (ancNext s).2 := by
  obtain ⟨root, items, old, new⟩ := s
  obtain ⟨h1, h2⟩ := h
  simp only at h1
  subst h1
  cases root with
  | some r =>
    obtain ⟨h2, h3⟩ := h2
    simp only at h2 h3
    subst h2 h3
    have := ancLoop_pushed (kids r) [] [] (val r) rfl
    simpa [ancNext, streamNext, ancAdvance, ancRem, ancRemS, leaves_ancT _ r] using this
  | none => exact ancLoop_spec new items.tail h2

end Leaves

end TreeIter
