import Verif.Lemmas.Brackets
import Verif.Props.Handles

/-!
# C48: the order of the calls into the nodes and of the drops of their children
-/

universe u v

namespace TreeIter

open Handles

variable {N : Type u} {V : Type v}

/-- C48, preorder: calls and drops come in the order of the brackets; the call that returns a node stops right after it asked that
node, so a finished collection of children is dropped only by the next call, and before that asks its node.  The first call that
returns nothing completes the brackets. -/
theorem C48_preorder_order [TreeNode N V] (n : N) (k : Nat) :
    (run preNext k ⟨some n, []⟩).1 <+: (unfold n).brackets ∧
      (∀ m, (unfold n).preorder[k]? = some m → (run preNext (k + 1) ⟨some n, []⟩).1.getLast? = some (.opened m)) ∧
      ((unfold n).preorder.length < k → (run preNext k ⟨some n, []⟩).1 = (unfold n).brackets) := by
  have hr : ∀ k, (run preNext k ⟨some n, []⟩).1 ++ (run preNext k ⟨some n, []⟩).2.2.rest = (unfold n).brackets := fun k =>
    (run_rest Pre.rest preNext_rest k ⟨some n, []⟩).trans (by simp [Pre.rest, restS])
  have ht : ∀ k, (run preNext k ⟨some n, []⟩).2.2.todo = (unfold n).preorder.drop k := fun k =>
    (run_open_one Pre.todo preNext_open k ⟨some n, []⟩).2.trans (by simp [Pre.todo, todoS])
  refine ⟨⟨_, hr k⟩, fun m hm => ?_, fun hk => ?_⟩
  · rw [(run_last preNext k _).1, List.getLast?_append,
      preNext_last _ m (by rw [ht, List.head?_drop, hm])]
    rfl
  · obtain ⟨j, rfl⟩ : ∃ j, k = j + 1 := ⟨k - 1, by omega⟩
    have := hr (j + 1)
    rwa [(run_last preNext j _).2, preNext_end _ (by rw [ht, List.drop_eq_nil_iff]; omega), List.append_nil] at this

/-- C48, postorder: calls and drops come in the order of the brackets; the call that returns a node stops right after it dropped that
node's collection of children, and the call that returns the root completes the brackets. -/
theorem C48_postorder_order [TreeNode N V] (n : N) (k : Nat) :
    (run postNext k ⟨some n, [], []⟩).1 <+: (unfold n).brackets ∧
      dropped (run postNext k ⟨some n, [], []⟩).1 = (unfold n).postorder.take k ∧
      (∀ m, (unfold n).postorder[k]? = some m → (run postNext (k + 1) ⟨some n, [], []⟩).1.getLast? = some (.dropped m)) ∧
      ((unfold n).postorder.length ≤ k → (run postNext k ⟨some n, [], []⟩).1 = (unfold n).brackets) := by
  have hr : ∀ k, (run postNext k ⟨some n, [], []⟩).1 ++ (run postNext k ⟨some n, [], []⟩).2.2.rest = (unfold n).brackets := fun k =>
    (run_rest Post.rest postNext_rest k ⟨some n, [], []⟩).trans (by simp [Post.rest, restS])
  have hd : ∀ k, dropped (run postNext k ⟨some n, [], []⟩).1 = (unfold n).postorder.take k := by
    intro k
    have hc := run_count Post.Paired postNext_paired k (⟨some n, [], []⟩ : Post N V) rfl
    rw [(C48_postorder n k).1, flatMap_range_getElem?, List.length_take] at hc
    have h2 := congrArg dropped (hr k)
    rw [dropped_append, dropped_brackets] at h2
    have hl : (treeOf n).postorder.length = (unfold n).postorder.length := by
      rw [treeOf, Tree.postorder_map, List.length_map]
    rw [hl] at hc
    rw [List.prefix_iff_eq_take.1 ⟨_, h2⟩, hc, List.take_eq_take_iff]
    omega
  refine ⟨⟨_, hr k⟩, hd k, fun m hm => ?_, fun hk => ?_⟩
  · have h1 := hd (k + 1)
    rw [(run_last postNext k _).1, dropped_append, hd k, List.take_add_one, hm] at h1
    rw [(run_last postNext k _).1, List.getLast?_append, postNext_last _ m (List.append_cancel_left h1)]
    rfl
  · have h1 := congrArg dropped (hr k)
    rw [dropped_append, hd k, dropped_brackets, List.take_of_length_le hk] at h1
    have h2 := Post.rest_nil _ (List.append_right_eq_self.1 h1)
    have h3 := hr k
    rwa [h2, List.append_nil] at h3

/-- C48, breadth first: calls and drops come in the order of `wideBrackets`; the call that returns a node stops right after it asked
that node, and the first call that returns nothing completes them. -/
theorem C48_bfs_order [TreeNode N V] (n : N) (k : Nat) :
    (run bfsNext k ⟨some n, []⟩).1 <+: wideBrackets n ∧
      (∀ m, (unfold n).levelOrder[k]? = some m → (run bfsNext (k + 1) ⟨some n, []⟩).1.getLast? = some (.opened m)) ∧
      ((unfold n).levelOrder.length < k → (run bfsNext k ⟨some n, []⟩).1 = wideBrackets n) := by
  have hr : ∀ k, (run bfsNext k ⟨some n, []⟩).1 ++ (run bfsNext k ⟨some n, []⟩).2.2.rest = wideBrackets n := fun k =>
    run_rest_inv BfsH.rest BfsH.Fresh bfsNext_rest k ⟨some n, []⟩ (.inr rfl)
  refine ⟨⟨_, hr k⟩, fun m hm => ?_, fun hk => ?_⟩
  · have h1 := (C48_bfs n (k + 1)).2.1
    rw [(run_last bfsNext k _).1, opened_append, (C48_bfs n k).2.1, List.take_add_one, hm] at h1
    rw [(run_last bfsNext k _).1, List.getLast?_append, bfsNext_last _ m (List.append_cancel_left h1)]
    rfl
  · obtain ⟨j, rfl⟩ : ∃ j, k = j + 1 := ⟨k - 1, by omega⟩
    have he := (run_erase BfsH.erase bfsNext_erase j (⟨some n, []⟩ : BfsH N)).2
    have hx := bfsNext_erase (run bfsNext j (⟨some n, []⟩ : BfsH N)).2.2
    rw [he] at hx
    have hn : (bfsNext (run bfsNext j (⟨some n, []⟩ : BfsH N)).2.2).2.1 = none := by
      have h4 := C04_bfs n j
      rw [List.getElem?_eq_none (by rw [treeOf, Tree.levelOrder_map, List.length_map]; omega)] at h4
      exact ((congrArg Prod.fst hx).symm.trans h4)
    have := hr (j + 1)
    rwa [(run_last bfsNext j _).2, bfsNext_end _ hn, List.append_nil] at this

/-- The brackets of the sample tree, and breadth first; `true` for asked. -/
example : eventsOf (unfold sampleTree).brackets =
      [(true, 0), (true, 1), (true, 3), (false, 3), (true, 4), (false, 4), (false, 1), (true, 2), (true, 5), (false, 5), (false, 2),
        (false, 0)] ∧
    eventsOf (run preNext 4 ⟨some sampleTree, []⟩).1 = [(true, 0), (true, 1), (true, 3), (false, 3), (true, 4)] ∧
    eventsOf (run postNext 2 ⟨some sampleTree, [], []⟩).1 =
      [(true, 0), (true, 1), (true, 3), (false, 3), (true, 4), (false, 4)] ∧
    eventsOf (wideBrackets sampleTree) =
      [(true, 0), (true, 1), (true, 2), (false, 0), (true, 3), (true, 4), (false, 1), (true, 5), (false, 2), (false, 3), (false, 4),
        (false, 5)] ∧
    eventsOf (run bfsNext 4 ⟨some sampleTree, []⟩).1 = [(true, 0), (true, 1), (true, 2), (false, 0), (true, 3)] := by
  decide +kernel

end TreeIter
