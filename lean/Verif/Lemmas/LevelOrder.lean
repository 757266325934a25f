import Verif.Node

/-! # Level order as a queue process -/

universe u v w

namespace TreeIter

variable {α : Type u} {β : Type v}

/-- Breadth-first listing of a queue of trees: take the first, append its children at the end. -/
def bfsF : List (Tree α) → List α
  | [] => []
  | .node a cs :: ts => a :: bfsF (ts ++ cs)
termination_by ts => (ts.map Tree.size).sum
decreasing_by
  simp only [List.map_cons, List.map_append, List.sum_append, List.sum_cons, Tree.size, Tree.sizeL_eq]
  omega

@[simp] theorem bfsF_nil : bfsF ([] : List (Tree α)) = [] := by rw [bfsF]

theorem bfsF_cons (a : α) (cs ts : List (Tree α)) :
    bfsF (.node a cs :: ts) = a :: bfsF (ts ++ cs) := by rw [bfsF]

theorem bfsF_append (xs ys : List (Tree α)) :
    bfsF (xs ++ ys) = xs.map Tree.value ++ bfsF (ys ++ xs.flatMap Tree.children) := by
  induction xs generalizing ys with
  | nil => simp
  | cons x xs ih =>
    obtain ⟨a, cs⟩ := x
    rw [List.cons_append, bfsF_cons, List.append_assoc, ih]
    simp [Tree.value, Tree.children]

theorem bfsF_step (ts : List (Tree α)) :
    bfsF ts = ts.map Tree.value ++ bfsF (ts.flatMap Tree.children) := by
  simpa using bfsF_append ts []

theorem atDepth_zero (t : Tree α) : t.atDepth 0 = [t.value] := by
  cases t; rfl

theorem atDepth_succ (d : Nat) (t : Tree α) : t.atDepth (d + 1) = t.children.flatMap (Tree.atDepth d) := by
  cases t
  rw [Tree.atDepth, Tree.atDepthL_eq]
  rfl

theorem height_children (t : Tree α) (h : Nat) (ht : t.height ≤ h + 1) : ∀ c ∈ t.children, c.height ≤ h := by
  obtain ⟨a, cs⟩ := t
  rw [Tree.height] at ht
  simp only [Tree.children]
  have : Tree.heightL cs ≤ h := by omega
  clear ht
  induction cs with
  | nil => simp
  | cons c cs ih =>
    rw [Tree.heightL] at this
    intro d hd
    rcases List.mem_cons.1 hd with rfl | hd
    · omega
    · exact ih (by omega) d hd

theorem height_pos (t : Tree α) : 0 < t.height := by
  cases t
  rw [Tree.height]
  omega

theorem bfsF_eq_levels (h : Nat) (ts : List (Tree α)) (hts : ∀ t ∈ ts, t.height ≤ h) :
    bfsF ts = (List.range h).flatMap fun d => ts.flatMap (Tree.atDepth d) := by
  induction h generalizing ts with
  | zero =>
    cases ts with
    | nil => simp
    | cons t ts =>
      have := hts t (by simp)
      have := height_pos t
      omega
  | succ h ih =>
    rw [bfsF_step, ih _ (by
      intro c hc
      obtain ⟨t, ht, hc⟩ := List.mem_flatMap.1 hc
      exact height_children t h (hts t ht) c hc), List.range_succ_eq_map, List.flatMap_cons, List.flatMap_map]
    congr 1
    · induction ts with
      | nil => rfl
      | cons t ts ih =>
        simp only [List.map_cons, List.flatMap_cons, atDepth_zero]
        rw [ih fun t ht => hts t (by simp [ht])]
        rfl
    · congr 1
      funext d
      rw [List.flatMap_assoc]
      congr 1
      funext t
      rw [Nat.succ_eq_add_one, atDepth_succ]

/-- The queue process started with one tree produces its level order. -/
theorem bfsF_singleton (t : Tree α) : bfsF [t] = t.levelOrder := by
  rw [bfsF_eq_levels t.height [t] (by simp), Tree.levelOrder]
  simp

/-- The queue process commutes with relabelling. -/
theorem bfsF_map (f : α → β) (ts : List (Tree α)) : bfsF (ts.map (Tree.map f)) = (bfsF ts).map f := by
  fun_induction bfsF ts with
  | case1 => simp
  | case2 a cs ts ih =>
    rw [List.map_cons, Tree.map_node, bfsF_cons, ← List.map_append, ih]
    rfl

end TreeIter
