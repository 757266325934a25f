import Verif.Lemmas.Tour
import Verif.Props.Handles

/-!
# C77: when the children of the nodes are released

The trace of a traversal, call by call: depth-first traversals walk around the tree, breadth-first ones along its levels.
`C48` says what was opened and dropped in total; here is the order of both.
-/

universe u v

namespace TreeIter

open Handles

variable {N : Type u} {V : Type v}

/-- C77, preorder: each call goes along the walk around the tree up to the next opening. -/
theorem C77_preorder [TreeNode N V] (n : N) (k : Nat) :
    (run preNext k ⟨some n, []⟩).1 = untilOpened k (tour (unfold n)) := by
  rw [run_cut untilOpened untilOpened_zero Pre.rem preNext_cut]
  simp [Pre.rem, walk]

example : eventsOf (untilOpened 5 (tour (unfold sampleTree))) =
    [(true, 0), (true, 1), (true, 3), (false, 3), (true, 4), (false, 4), (false, 1), (true, 2)] := by decide +kernel

/-- C77, postorder: each call goes along the walk around the tree up to the next release. -/
theorem C77_postorder [TreeNode N V] (n : N) (k : Nat) :
    (run postNext k ⟨some n, [], []⟩).1 = untilDropped k (tour (unfold n)) := by
  rw [run_cut untilDropped untilDropped_zero Post.rem postNext_cut]
  simp [Post.rem, walk]

example : eventsOf (untilDropped 3 (tour (unfold sampleTree))) =
    [(true, 0), (true, 1), (true, 3), (false, 3), (true, 4), (false, 4), (false, 1)] := by decide +kernel

/-- C77, breadth first: each call goes along the levels up to the next opening. -/
theorem C77_bfs [TreeNode N V] (n : N) (k : Nat) :
    (run bfsNext k ⟨some n, []⟩).1 = untilOpened k (levelTour kids (unfold n)) := by
  rw [run_cut untilOpened untilOpened_zero BfsH.rem bfsNext_cut, ← sweep_root]
  simp [BfsH.rem]

example : eventsOf (untilOpened 6 (levelTour kids (unfold sampleTree))) =
    [(true, 0), (true, 1), (true, 2), (false, 0), (true, 3), (true, 4), (false, 1), (true, 5)] := by decide +kernel

/-- C77, preorder with contexts. -/
theorem C77_preorder_context [TreeNode N V] (n : N) (h : ArityOk n) (k : Nat) :
    ∃ os s, runE preCtxAdvance (fun s => Preorder.ctxGet s.erase) k (PreCtx.new n []) =
      .ok (untilOpened k (tour (unfold n)), os, s) := by
  obtain ⟨s0, h1, h2⟩ := C10_preorder_context n h
  cases h1
  obtain ⟨es, s, r1, r2, -, -⟩ := runE_spec (get := fun s => Preorder.ctxGet s.erase) (get' := Preorder.ctxGet)
    PreCtx.erase PreCtx.Live (Cuts untilOpened PreCtx.rem) preCtxAdvance_erase (fun _ => rfl) preCtxAdvance_cut
    (Cuts.nil _ _) (fun _ _ _ _ _ _ => Cuts.trans) k (PreCtx.new n []) ⟨rfl, rfl⟩ _ (fun j _ => h2 j)
  have := r2 0
  rw [untilOpened_zero, List.append_nil, Nat.zero_add] at this
  have he : es = untilOpened k (tour (unfold n)) := by
    rw [← this]
    simp [PreCtx.rem, PreCtx.new, walk]
  subst he
  exact ⟨_, s, r1⟩

example := C77_preorder_context sampleTree sampleTree_arity 5

/-- C77, postorder with contexts, owned.  (For the borrowed ones see `C48_postorder_context_false`.) -/
theorem C77_postorder_context_owned [TreeNode N V] (n : N) (h : ArityOk n) (k : Nat) :
    ∃ os s, runE ownPostCtxAdvance (fun s => Postorder.ownCtxGet s.erase) k (OwnPostCtx.new n []) =
      .ok (untilDropped k (tour (unfold n)), os, s) := by
  obtain ⟨s0, h1, h2⟩ := C12_postorder_context_owned n h
  cases h1
  obtain ⟨es, s, r1, r2, -, -⟩ := runE_spec (get := fun s => Postorder.ownCtxGet s.erase) (get' := Postorder.ownCtxGet)
    OwnPostCtx.erase OwnPostCtx.Level (Cuts untilDropped OwnPostCtx.rem) ownPostCtxAdvance_erase (fun _ => rfl)
    ownPostCtxAdvance_cut (Cuts.nil _ _) (fun _ _ _ _ _ _ => Cuts.trans) k (OwnPostCtx.new n []) ⟨rfl, rfl⟩ _
    (fun j _ => h2 j)
  have := r2 0
  rw [untilDropped_zero, List.append_nil, Nat.zero_add] at this
  have he : es = untilDropped k (tour (unfold n)) := by
    rw [← this]
    simp [OwnPostCtx.rem, OwnPostCtx.new, walk]
  subst he
  exact ⟨_, s, r1⟩

example := C77_postorder_context_owned sampleTree sampleTree_arity 3

/-- C77, breadth first with contexts: the root is opened when the iterator is made, and the first call does nothing. -/
theorem C77_bfs_context [TreeNode N V] (n : N) (h : ArityLt n) (k : Nat) :
    ∃ es os s, runE bfsCtxAdvance (fun s => Bfs.ctxGet s.erase) k (BfsCtxH.new n []).2 = .ok (es, os, s) ∧
      (BfsCtxH.new (V := V) n []).1 ++ es = untilOpened (max k 1) (levelTour kids (unfold n)) := by
  obtain ⟨s0, h1, h2⟩ := C14_bfs_context n h
  cases h1
  rw [← sweep_root]
  cases k with
  | zero => exact ⟨[], _, _, rfl, by simp [BfsCtxH.new, untilOpened]⟩
  | succ k =>
    let s1 : BfsCtxH N V := { (BfsCtxH.new n []).2 with isRoot := false }
    obtain ⟨es, s, r1, r2, -, -⟩ := runE_spec (get := fun s => Bfs.ctxGet s.erase) (get' := Bfs.ctxGet)
      BfsCtxH.erase BfsCtxH.Live (Cuts untilOpened BfsCtxH.rem) bfsCtxAdvance_erase (fun _ => rfl) bfsCtxAdvance_cut
      (Cuts.nil _ _) (fun _ _ _ _ _ _ => Cuts.trans) k s1 (by simp [BfsCtxH.Live, s1, BfsCtxH.new])
      (fun j => ((unfold n).located.levelOrder.map Pos.ctx)[j + 1]?) (fun j _ => h2 (j + 1))
    have ha : bfsCtxAdvance (BfsCtxH.new (V := V) n []).2 = .ok ([], s1) := rfl
    have hr : runE bfsCtxAdvance (fun s => Bfs.ctxGet s.erase) (k + 1) (BfsCtxH.new (V := V) n []).2 =
        .ok (es, Bfs.ctxGet s1.erase :: (List.range k).map
          (fun j => ((unfold n).located.levelOrder.map Pos.ctx)[j + 1]?), s) := by
      simp only [runE, ha, r1, List.nil_append]
    refine ⟨es, _, s, hr, ?_⟩
    have := r2 0
    rw [untilOpened_zero, List.append_nil, Nat.zero_add] at this
    rw [Nat.max_eq_left (Nat.le_add_left 1 k), untilOpened, ← this]
    simp [BfsCtxH.new, BfsCtxH.rem, s1]

example := C77_bfs_context sampleTree sampleTree_arityLt 5

/-- C77, what is held: at no moment of a preorder traversal, not even in the middle of a call, are the children of more
nodes held than the tree has levels. -/
theorem C77_preorder_held [TreeNode N V] (n : N) (k : Nat) (es : List (Event N))
    (h : es <+: (run preNext k ⟨some n, []⟩).1) : (opened es).length ≤ (dropped es).length + (unfold n).height := by
  rw [C77_preorder] at h
  exact held_tour _ _ (h.trans (untilOpened_prefix _ _))

example := C77_preorder_held sampleTree 4 [.opened sampleTree] ⟨_, rfl⟩

/-- C77, what is held, postorder. -/
theorem C77_postorder_held [TreeNode N V] (n : N) (k : Nat) (es : List (Event N))
    (h : es <+: (run postNext k ⟨some n, [], []⟩).1) :
    (opened es).length ≤ (dropped es).length + (unfold n).height := by
  rw [C77_postorder] at h
  exact held_tour _ _ (h.trans (untilDropped_prefix _ _))

example := C77_postorder_held sampleTree 4 _ (List.prefix_refl _)

end TreeIter
