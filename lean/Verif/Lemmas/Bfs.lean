import Verif.Model.Bfs
import Verif.Lemmas.Decor
import Verif.Lemmas.LevelOrder

/-! # Lemmas about the plain breadth-first machine and its leaves -/

universe u v w

namespace TreeIter

namespace Bfs

variable {N : Type u} {V : Type v}

/-- Values still to come. -/
def rem [TreeNode N V] (s : State N) : List V :=
  bfsF ((s.root.toList ++ s.queue.flatten).map treeOf)

theorem bfsF_treeOf [TreeNode N V] (n : N) (ns : List N) :
    bfsF ((n :: ns).map treeOf) = val n :: bfsF ((ns ++ kids n).map treeOf) := by
  rw [List.map_cons, treeOf_eq, bfsF_cons, List.map_append]

theorem next_spec [TreeNode N V] (s : State N) :
    (next s).1 = (rem s).head? ∧ rem (next s).2 = (rem s).tail := by
  obtain ⟨root, queue⟩ := s
  cases root with
  | some r => simp [next, rem, -List.map_cons, bfsF_treeOf]
  | none =>
    induction queue with
    | nil => simp [next, loop, rem]
    | cons ns rest ih =>
      cases ns with
      | nil => simpa [next, loop, rem] using ih
      | cons n ns => simp [next, loop, rem, -List.map_cons, bfsF_treeOf]

/-- The marked nodes still to come. -/
def markRem [TreeNode N V] (s : LeavesState N) : List (Bool × V) :=
  bfsF ((s.root.toList ++ s.old.flatten ++ s.new.flatten).map fun n => (treeOf n).markLeaves)

theorem bfsF_mark [TreeNode N V] (n : N) (ns : List N) :
    bfsF ((n :: ns).map fun n => (treeOf n).markLeaves) =
      ((kids n).isEmpty, val n) :: bfsF ((ns ++ kids n).map fun n => (treeOf n).markLeaves) := by
  rw [List.map_cons, treeOf_eq, Tree.markLeaves_node, bfsF_cons, List.map_append, List.map_map]
  simp [Function.comp_def]

theorem leavesBfsNext_spec [TreeNode N V] (s : LeavesState N) :
    (leavesBfsNext s).1 = (markRem s).head?.map (fun x => (!x.1, x.2)) ∧
      markRem (leavesBfsNext s).2 = (markRem s).tail := by
  obtain ⟨root, old, new⟩ := s
  cases root with
  | some r => simp [leavesBfsNext, markRem, -List.map_cons, bfsF_mark]
  | none =>
    simp only [leavesBfsNext]
    induction old with
    | nil =>
      simp only [leavesLoop]
      induction new with
      | nil => simp [leavesLoopNew, markRem]
      | cons ns rest ih =>
        cases ns with
        | nil => simpa [leavesLoopNew, markRem] using ih
        | cons n ns => simp [leavesLoopNew, markRem, -List.map_cons, bfsF_mark]
    | cons ns rest ih =>
      cases ns with
      | nil => simpa [leavesLoop, markRem] using ih
      | cons n ns => simp [leavesLoop, markRem, -List.map_cons, bfsF_mark]

/-- Leaves still to come. -/
def leavesRem [TreeNode N V] (s : LeavesState N) : List V := Tree.onlyLeaves (markRem s)

theorem leavesNext_spec [TreeNode N V] (s : LeavesState N) :
    (leavesNext s).1 = (leavesRem s).head? ∧ leavesRem (leavesNext s).2 = (leavesRem s).tail := by
  fun_induction leavesNext s with
  | case1 s s' h =>
    obtain ⟨h1, h2⟩ := leavesBfsNext_spec s
    rw [h] at h1 h2
    have h3 : markRem s = [] := by simpa using h1.symm
    have h4 : markRem s' = [] := by simpa [h3] using h2
    simp [leavesRem, h3, h4, Tree.onlyLeaves]
  | case2 s v s' h ih =>
    obtain ⟨h1, h2⟩ := leavesBfsNext_spec s
    rw [h] at h1 h2
    obtain ⟨x, hx, hx2⟩ := Option.map_eq_some_iff.1 h1.symm
    obtain ⟨b, w⟩ := x
    obtain ⟨l, hl⟩ : ∃ l, markRem s = (b, w) :: l := by
      cases hm : markRem s with
      | nil => simp [hm] at hx
      | cons y l => exact ⟨l, by simpa [hm] using hx⟩
    have hb : b = false := by simpa using congrArg Prod.fst hx2
    have : leavesRem s = leavesRem s' := by
      have h2' : markRem s' = (markRem s).tail := h2
      simp [leavesRem, h2', hl, hb, Tree.onlyLeaves]
    rw [this]
    exact ih
  | case3 s v s' h =>
    obtain ⟨h1, h2⟩ := leavesBfsNext_spec s
    rw [h] at h1 h2
    obtain ⟨x, hx, hx2⟩ := Option.map_eq_some_iff.1 h1.symm
    obtain ⟨b, w⟩ := x
    obtain ⟨l, hl⟩ : ∃ l, markRem s = (b, w) :: l := by
      cases hm : markRem s with
      | nil => simp [hm] at hx
      | cons y l => exact ⟨l, by simpa [hm] using hx⟩
    have hb : b = true := by simpa using congrArg Prod.fst hx2
    have hw : w = v := congrArg Prod.snd hx2
    have h2' : markRem s' = (markRem s).tail := h2
    simp [leavesRem, h2', hl, hb, hw, Tree.onlyLeaves]

end Bfs

end TreeIter
