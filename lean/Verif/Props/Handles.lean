import Verif.Lemmas.Handles
import Verif.Props.DepthFirst
import Verif.Props.BreadthFirst
import Verif.Props.BreadthFirstCtx
import Verif.Props.BreadthFirstAnc
import Verif.Props.Memory

/-!
# C48: calls into the nodes and ownership of their children

`opened` lists the nodes whose `get_value_and_children` was called, in order; `dropped` the nodes whose children were
dropped; `live` the nodes whose children the iterator still owns, so that `dropped ++ live` is everything that has been
dropped once the iterator is dropped too.
-/

universe u v

namespace TreeIter

open Handles

variable {N : Type u} {V : Type v}

/-- Events on the sample trees; `true` for opened. -/
def eventsOf (es : List (Event (Tree Nat))) : List (Bool × Nat) :=
  es.map fun
    | .opened n => (true, n.value)
    | .dropped n => (false, n.value)

/-- Events of a run that did not panic, and what is dropped with the iterator. -/
def eventsOfE {O S : Type} (live : S → List (Tree Nat)) (r : Except Panic (List (Event (Tree Nat)) × List (Option O) × S)) :
    Option (List (Bool × Nat) × List Nat) :=
  r.toOption.map fun r => (eventsOf r.1, (live r.2.2).map Tree.value)

/-- C48, preorder: the `k`-th call opens the `k`-th node and no other; if the iterator is dropped after any number of
calls, then the children of every opened node have been dropped exactly once. -/
theorem C48_preorder [TreeNode N V] (n : N) (k : Nat) :
    (run preNext k ⟨some n, []⟩).2.1 = (List.range k).map (fun j => (treeOf n).preorder[j]?) ∧
      opened (run preNext k ⟨some n, []⟩).1 = (unfold n).preorder.take k ∧
      (dropped (run preNext k ⟨some n, []⟩).1 ++ (run preNext k ⟨some n, []⟩).2.2.live).Perm
        (opened (run preNext k ⟨some n, []⟩).1) := by
  refine ⟨?_, ?_, ?_⟩
  · rw [(run_erase Pre.erase preNext_erase k _).1]
    exact List.map_congr_left fun j _ => C01_preorder n j
  · rw [(run_open_one Pre.todo preNext_open k _).1]
    simp [Pre.todo, todoS]
  · exact run_perm Pre.live preNext_perm k ⟨some n, []⟩

example : eventsOf (run preNext 4 ⟨some sampleTree, []⟩).1 =
    [(true, 0), (true, 1), (true, 3), (false, 3), (true, 4)] ∧
    (run preNext 4 ⟨some sampleTree, []⟩).2.2.live.map Tree.value = [4, 1, 0] := by decide +kernel

/-- C48, breadth first. -/
theorem C48_bfs [TreeNode N V] (n : N) (k : Nat) :
    (run bfsNext k ⟨some n, []⟩).2.1 = (List.range k).map (fun j => (treeOf n).levelOrder[j]?) ∧
      opened (run bfsNext k ⟨some n, []⟩).1 = (unfold n).levelOrder.take k ∧
      (dropped (run bfsNext k ⟨some n, []⟩).1 ++ (run bfsNext k ⟨some n, []⟩).2.2.live).Perm
        (opened (run bfsNext k ⟨some n, []⟩).1) := by
  refine ⟨?_, ?_, ?_⟩
  · rw [(run_erase BfsH.erase bfsNext_erase k _).1]
    exact List.map_congr_left fun j _ => C04_bfs n j
  · rw [(run_open_one BfsH.todo bfsNext_open k _).1]
    simp [BfsH.todo, bfsF_singleton]
  · exact run_perm BfsH.live bfsNext_perm k ⟨some n, []⟩

example : eventsOf (run bfsNext 5 ⟨some sampleTree, []⟩).1 =
    [(true, 0), (true, 1), (true, 2), (false, 0), (true, 3), (true, 4)] ∧
    (run bfsNext 5 ⟨some sampleTree, []⟩).2.2.live.map Tree.value = [1, 2, 3, 4] := by decide +kernel

/-- C48, postorder: the nodes are opened in preorder, each at most once. -/
theorem C48_postorder [TreeNode N V] (n : N) (k : Nat) :
    (run postNext k ⟨some n, [], []⟩).2.1 = (List.range k).map (fun j => (treeOf n).postorder[j]?) ∧
      opened (run postNext k ⟨some n, [], []⟩).1 <+: (unfold n).preorder ∧
      (dropped (run postNext k ⟨some n, [], []⟩).1 ++ (run postNext k ⟨some n, [], []⟩).2.2.live).Perm
        (opened (run postNext k ⟨some n, [], []⟩).1) := by
  refine ⟨?_, ?_, ?_⟩
  · rw [(run_erase Post.erase postNext_erase k _).1]
    exact List.map_congr_left fun j _ => C02_postorder n j
  · have := run_open Post.todo postNext_open k (⟨some n, [], []⟩ : Post N V)
    exact ⟨_, this.trans (by simp [Post.todo, todoS])⟩
  · exact run_perm Post.live postNext_perm k ⟨some n, [], []⟩

/-- More exactly: once the node at position `p` was returned (by call `k`), the nodes opened are those before it in
preorder, itself and all below it. -/
theorem C48_postorder_exact [TreeNode N V] (n : N) (k : Nat) (p : Pos V) (h : (treeOf n).located.postorder[k]? = some p) :
    opened (run postNext (k + 1) ⟨some n, [], []⟩).1 = (unfold n).preorder.take (k + p.ancestors.length) := by
  obtain ⟨h1, h2, h3⟩ := C48_postorder n (k + 1)
  have hc := run_count Post.Paired postNext_paired (k + 1) (⟨some n, [], []⟩ : Post N V) rfl
  have hl := h3.length_eq
  have he := congrArg (fun s => s.stack.length) (run_erase Post.erase postNext_erase (k + 1) (⟨some n, [], []⟩ : Post N V)).2
  rw [h1, flatMap_range_getElem?, List.length_take] at hc
  have hk : k < (treeOf n).postorder.length := by
    have := (List.getElem?_eq_some_iff.1 h).1
    rwa [← List.length_map (f := Pos.item), ← Tree.postorder_map, map_item_located] at this
  have hx := (C40_postorder_exact n k p h).1
  rw [Nat.min_eq_left (Nat.succ_le_of_lt hk)] at hc
  rw [List.prefix_iff_eq_take.1 h2]
  congr 1
  rw [← hl, List.length_append, hc]
  simp only [Post.live, owners, List.length_map, Post.erase, bare] at he ⊢
  have hx : (stateAfter Postorder.next (k + 1) ⟨some n, [], []⟩).stack.length + 1 = p.ancestors.length := hx
  simp only [List.map_nil] at he
  omega

example := C48_postorder_exact sampleTree 1 ⟨[0, 1], [0, 1, 4], 4⟩ (by decide +kernel)

/-- Once everything was returned, every node has been opened. -/
theorem C48_postorder_all [TreeNode N V] (n : N) (k : Nat) (h : (treeOf n).size ≤ k) :
    opened (run postNext k ⟨some n, [], []⟩).1 = (unfold n).preorder := by
  obtain ⟨h1, h2, h3⟩ := C48_postorder n k
  have hc := run_count Post.Paired postNext_paired k (⟨some n, [], []⟩ : Post N V) rfl
  have hl := h3.length_eq
  rw [h1, flatMap_range_getElem?, List.length_take] at hc
  have e1 : (treeOf n).postorder.length = (treeOf n).size := by
    rw [(postorder_perm_preorder _).length_eq, ← (levelOrder_perm_preorder _).length_eq, ← bfsF_singleton, bfsF_length]
    simp
  have e2 : (unfold n).preorder.length = (treeOf n).postorder.length := by
    rw [(postorder_perm_preorder _).length_eq, treeOf, Tree.preorder_map, List.length_map]
  refine h2.eq_of_length_le ?_
  rw [← hl, List.length_append]
  omega

example : eventsOf (run postNext 3 ⟨some sampleTree, [], []⟩).1 =
    [(true, 0), (true, 1), (true, 3), (false, 3), (true, 4), (false, 4), (false, 1)] ∧
    (run postNext 3 ⟨some sampleTree, [], []⟩).2.2.live.map Tree.value = [0] := by decide +kernel

/-- C48, preorder with contexts. -/
theorem C48_preorder_context [TreeNode N V] (n : N) (h : ArityOk n) (k : Nat) :
    ∃ es s, runE preCtxAdvance (fun s => Preorder.ctxGet s.erase) k (PreCtx.new n []) =
        .ok (es, (List.range k).map (fun j => ((unfold n).located.preorder.map Pos.ctx)[j]?), s) ∧
      opened es = (unfold n).preorder.take k ∧ (dropped es ++ s.live).Perm (opened es) := by
  obtain ⟨s0, h1, h2⟩ := C10_preorder_context n h
  cases h1
  obtain ⟨es, s, r1, r2, -, -⟩ := runE_spec (get := fun s => Preorder.ctxGet s.erase) (get' := Preorder.ctxGet)
    PreCtx.erase PreCtx.Inv (AccOne PreCtx.todo PreCtx.live) preCtxAdvance_erase (fun _ => rfl) preCtxAdvance_acc
    (AccOne.nil _ _) (fun _ _ _ _ _ _ => AccOne.trans) k (PreCtx.new n []) ⟨rfl, rfl⟩ _ (fun j _ => h2 j)
  refine ⟨es, s, r1, r2.1.trans ?_, r2.2.2⟩
  simp [PreCtx.todo, PreCtx.new, todoS]

example : eventsOfE PreCtx.live (runE preCtxAdvance (fun s => Preorder.ctxGet s.erase) 4 (PreCtx.new sampleTree [])) =
    some ([(true, 0), (true, 1), (true, 3), (false, 3), (true, 4)], [1, 0, 4]) := by decide +kernel

/-- C48, postorder with contexts, owned. -/
theorem C48_postorder_context_owned [TreeNode N V] (n : N) (h : ArityOk n) (k : Nat) :
    ∃ es s, runE ownPostCtxAdvance (fun s => Postorder.ownCtxGet s.erase) k (OwnPostCtx.new n []) =
        .ok (es, (List.range k).map (fun j => ((unfold n).located.postorder.map fun p => p.ctx.noChildren)[j]?), s) ∧
      opened es <+: (unfold n).preorder ∧ (dropped es ++ s.live).Perm (opened es) := by
  obtain ⟨s0, h1, h2⟩ := C12_postorder_context_owned n h
  cases h1
  obtain ⟨es, s, r1, r2, -, -⟩ := runE_spec (get := fun s => Postorder.ownCtxGet s.erase) (get' := Postorder.ownCtxGet)
    OwnPostCtx.erase (fun _ => True) (fun _ => Acc OwnPostCtx.todo OwnPostCtx.live) ownPostCtxAdvance_erase
    (fun _ => rfl) (fun s es s' _ h => ⟨ownPostCtxAdvance_acc s s' es h, trivial⟩)
    (Acc.nil _ _) (fun _ _ _ _ _ _ => Acc.trans) k (OwnPostCtx.new n []) trivial _ (fun j _ => h2 j)
  refine ⟨es, s, r1, ⟨_, r2.1.trans ?_⟩, r2.2⟩
  simp [OwnPostCtx.todo, OwnPostCtx.new, todoS]

example : eventsOfE OwnPostCtx.live
      (runE ownPostCtxAdvance (fun s => Postorder.ownCtxGet s.erase) 3 (OwnPostCtx.new sampleTree [])) =
    some ([(true, 0), (true, 1), (true, 3), (false, 3), (true, 4), (false, 4), (false, 1)], [0]) := by decide +kernel

/-- C48, breadth first with contexts: the root is opened when the iterator is made. -/
theorem C48_bfs_context [TreeNode N V] (n : N) (h : ArityLt n) (k : Nat) :
    ∃ es s, runE bfsCtxAdvance (fun s => Bfs.ctxGet s.erase) k (BfsCtxH.new n []).2 =
        .ok (es, (List.range k).map (fun j => ((unfold n).located.levelOrder.map Pos.ctx)[j]?), s) ∧
      opened ((BfsCtxH.new (V := V) n []).1 ++ es) = (unfold n).levelOrder.take (max k 1) ∧
      (dropped ((BfsCtxH.new (V := V) n []).1 ++ es) ++ s.live).Perm (opened ((BfsCtxH.new (V := V) n []).1 ++ es)) := by
  obtain ⟨s0, h1, h2⟩ := C14_bfs_context n h
  cases h1
  have hlv : (unfold n).levelOrder = n :: bfsF ((kids n).map unfold) := by
    rw [← bfsF_singleton, unfold_eq, bfsF_cons, List.nil_append]
  cases k with
  | zero =>
    refine ⟨[], _, rfl, ?_, ?_⟩
    · simp [BfsCtxH.new, opened, hlv]
    · simp [BfsCtxH.new, opened, dropped, BfsCtxH.live]
  | succ k =>
    let s1 : BfsCtxH N V := { (BfsCtxH.new n []).2 with isRoot := false }
    obtain ⟨es, s, r1, r2, -, -⟩ := runE_spec (get := fun s => Bfs.ctxGet s.erase) (get' := Bfs.ctxGet)
      BfsCtxH.erase BfsCtxH.Inv (AccOne BfsCtxH.todo BfsCtxH.live) bfsCtxAdvance_erase (fun _ => rfl) bfsCtxAdvance_acc
      (AccOne.nil _ _) (fun _ _ _ _ _ _ => AccOne.trans) k s1 (by simp [BfsCtxH.Inv, s1, BfsCtxH.new])
      (fun j => ((unfold n).located.levelOrder.map Pos.ctx)[j + 1]?) (fun j _ => h2 (j + 1))
    refine ⟨es, s, ?_, ?_, ?_⟩
    · have h0 := h2 0
      have ha : bfsCtxAdvance (BfsCtxH.new (V := V) n []).2 = .ok ([], s1) := rfl
      have hg : Bfs.ctxGet s1.erase = ((unfold n).located.levelOrder.map Pos.ctx)[0]? := Except.ok.inj h0
      simp only [runE, ha, r1, hg, List.range_succ_eq_map, List.map_cons, List.map_map]
      rfl
    · rw [opened_append, r2.1, hlv, Nat.max_eq_left (Nat.le_add_left 1 k)]
      simp [BfsCtxH.new, opened, BfsCtxH.todo, s1]
    · have := r2.2.2
      simpa [BfsCtxH.new, opened, dropped, BfsCtxH.live, s1] using this

example : eventsOfE BfsCtxH.live (runE bfsCtxAdvance (fun s => Bfs.ctxGet s.erase) 5 (BfsCtxH.new sampleTree []).2) =
    some ([(true, 1), (true, 2), (false, 0), (true, 3), (true, 4)], [1, 2, 3, 4]) := by decide +kernel

/-- C48, postorder with contexts, borrowed and mutably borrowed.  What holds: the contexts are right and the nodes are
opened in preorder, each at most once.  What is missing: the children of every opened node are dropped twice instead of
once, and those shown by a context have been dropped already. -/
theorem C48_postorder_context_partial [TreeNode N V] (n : N) (h : ArityOk n) (k : Nat) :
    ∃ es s, runE postCtxAdvance (fun s => Postorder.ctxGet s.erase) k (PostCtx.new n []) =
        .ok (es, (List.range k).map (fun j => ((unfold n).located.postorder.map Pos.ctx)[j]?), s) ∧
      opened es <+: (unfold n).preorder ∧ (dropped es ++ s.live).Perm (opened es ++ opened es) ∧
      ∀ c, s.children = some c → c.owner ∈ dropped es := by
  obtain ⟨s0, h1, h2⟩ := C12_postorder_context n h
  cases h1
  obtain ⟨es, s, r1, ⟨r2, r3⟩, -, -⟩ := runE_spec (get := fun s => Postorder.ctxGet s.erase) (get' := Postorder.ctxGet)
    PostCtx.erase PostCtx.Twin (fun _ s es s' => Acc2 PostCtx.todo PostCtx.live s es s' ∧ Stale s es s')
    postCtxAdvance_erase (fun _ => rfl)
    (fun s es s' hi h => ⟨⟨postCtxAdvance_acc s s' es h, (postCtxAdvance_stale s es s' hi h).1⟩,
      (postCtxAdvance_stale s es s' hi h).2⟩)
    (fun s => ⟨Acc2.nil _ _ s, .inl rfl⟩) (fun _ _ _ _ _ _ h h' => ⟨h.1.trans h'.1, h.2.trans h'.2⟩)
    k (PostCtx.new n []) rfl _ (fun j _ => h2 j)
  refine ⟨es, s, r1, ⟨_, r2.1.trans ?_⟩, r2.2, fun c hc => ?_⟩
  · simp [PostCtx.todo, PostCtx.new, todoS]
  · rcases r3 with r3 | ⟨c', h1, h2⟩
    · rw [hc] at r3
      cases r3
    · rw [hc] at h1
      cases h1
      exact h2

example := C48_postorder_context_partial sampleTree sampleTree_arity 3

/-- C48 is false for these contexts, on every tree and after every positive number of calls. -/
theorem C48_postorder_context_false [TreeNode N V] (n : N) (h : ArityOk n) (k : Nat) :
    ∃ es os s, runE postCtxAdvance (fun s => Postorder.ctxGet s.erase) (k + 1) (PostCtx.new n []) = .ok (es, os, s) ∧
      ¬ (dropped es ++ s.live).Perm (opened es) := by
  obtain ⟨es, s, h1, -, h3, -⟩ := C48_postorder_context_partial n h (k + 1)
  refine ⟨es, _, s, h1, fun hp => ?_⟩
  have h0 : opened es = [] := by
    have := (hp.symm.trans h3).length_eq
    rw [List.length_append] at this
    exact List.length_eq_zero_iff.1 (by omega)
  simp only [runE] at h1
  split at h1
  · cases h1
  · rename_i es1 s1 ha
    obtain ⟨es2, rfl⟩ := postCtxAdvance_first n [] es1 s1 ha
    split at h1
    · cases h1
    · simp only [Except.ok.injEq, Prod.mk.injEq] at h1
      rw [← h1.1] at h0
      simp [opened] at h0

/-- The children of node 1 (3 and 4) are dropped before the context of node 1 shows them, and again with the iterator. -/
example : eventsOfE PostCtx.live (runE postCtxAdvance (fun s => Postorder.ctxGet s.erase) 3 (PostCtx.new sampleTree [])) =
    some ([(true, 0), (true, 1), (true, 3), (false, 3), (true, 4), (false, 3), (false, 4), (false, 4), (false, 1)],
      [0, 0, 1]) := by decide +kernel

end TreeIter
