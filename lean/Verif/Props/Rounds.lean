import Verif.Lemmas.RoundsBfs
import Verif.Props.DepthFirst
import Verif.Props.BreadthFirst

/-!
# C80: the work of a whole traversal

A call of `next` may take long, but the calls of a traversal together ask the child iterators at most twice per node: once for
the node itself and once to hear that its own iterator is exhausted.
-/

universe u v

namespace TreeIter

variable {N : Type u} {V : Type v}

/-- C80, preorder: in a tree of `m` nodes the child iterators are asked `2 m - 1` times, however often `next` is called. -/
theorem C80_preorder [TreeNode N V] (n : N) (k : Nat) :
    totalOver Preorder.next Preorder.polls k (Preorder.new n) ≤ 2 * (treeOf n).size - 1 ∧
      ((treeOf n).size < k →
        totalOver Preorder.next Preorder.polls k (Preorder.new n) = 2 * (treeOf n).size - 1) := by
  have h := totalOver_paid Preorder.stock_paid k (Preorder.new n)
  have h0 : Preorder.stock (Preorder.new n) = 2 * (treeOf n).size - 1 := rootDebt_new n
  rw [← h0]
  refine ⟨by omega, fun hk => totalOver_all Preorder.stock_paid ?_⟩
  obtain ⟨j, rfl⟩ : ∃ j, k = j + 1 := ⟨k - 1, by omega⟩
  rw [stateAfter_onward]
  refine Preorder.next_none ?_
  have := C01_preorder n j
  rw [nthCall] at this
  rw [this, List.getElem?_eq_none (by rw [length_preorder]; omega)]

example : (List.range 8).map (fun k => totalOver Preorder.next Preorder.polls k (Preorder.new sampleTree)) =
    [0, 0, 1, 2, 4, 7, 8, 11] := by decide +kernel

/-- C80, postorder. -/
theorem C80_postorder [TreeNode N V] (n : N) (k : Nat) :
    totalOver Postorder.next Postorder.polls k (Postorder.new n) ≤ 2 * (treeOf n).size - 1 ∧
      ((treeOf n).size ≤ k →
        totalOver Postorder.next Postorder.polls k (Postorder.new n) = 2 * (treeOf n).size - 1) := by
  have h := totalOver_paid Postorder.stock_paid k (Postorder.new n)
  have h0 : Postorder.stock (Postorder.new n) = 2 * (treeOf n).size - 1 := rootDebt_new n
  rw [← h0]
  refine ⟨by omega, fun hk => totalOver_all Postorder.stock_paid ?_⟩
  obtain ⟨h1, h2⟩ := stateAfter_spec Postorder.Inv Postorder.rem Postorder.next_spec
    (s := Postorder.new n) (by simp [Postorder.Inv, Postorder.new]) k
  refine Postorder.spent h1 ?_
  rw [h2]
  exact List.drop_eq_nil_of_le (by simpa [Postorder.rem, Postorder.new, length_postorder] using hk)

example : (List.range 8).map (fun k => totalOver Postorder.next Postorder.polls k (Postorder.new sampleTree)) =
    [0, 3, 5, 6, 9, 10, 11, 11] := by decide +kernel

/-- C80, breadth first. -/
theorem C80_bfs [TreeNode N V] (n : N) (k : Nat) :
    totalOver Bfs.next Bfs.polls k (Bfs.new n) ≤ 2 * (treeOf n).size - 1 ∧
      ((treeOf n).size < k → totalOver Bfs.next Bfs.polls k (Bfs.new n) = 2 * (treeOf n).size - 1) := by
  have h := totalOver_paid Bfs.stock_paid k (Bfs.new n)
  have h0 : Bfs.stock (Bfs.new n) = 2 * (treeOf n).size - 1 := rootDebt_new n
  rw [← h0]
  refine ⟨by omega, fun hk => totalOver_all Bfs.stock_paid ?_⟩
  obtain ⟨j, rfl⟩ : ∃ j, k = j + 1 := ⟨k - 1, by omega⟩
  rw [stateAfter_onward]
  refine Bfs.next_none ?_
  have := C04_bfs n j
  rw [nthCall] at this
  rw [this, List.getElem?_eq_none]
  have h1 := C09_length (treeOf n)
  rw [located_levelOrder, bfsF_length] at h1
  rw [← bfsF_singleton, bfsF_length]
  simp
  omega

example : (List.range 8).map (fun k => totalOver Bfs.next Bfs.polls k (Bfs.new sampleTree)) =
    [0, 0, 1, 2, 4, 5, 7, 11] := by decide +kernel

/-- C80, in order: slots taken off the stack and nodes split, together. -/
theorem C80_inorder [BinNode N V] (n : N) (k : Nat) :
    totalOver Inorder.next Inorder.work k (Inorder.new n) ≤ 2 * (binTreeOf n).size + 1 := by
  have h := totalOver_paid Inorder.stock_paid k (Inorder.new n)
  rw [← Inorder.slotDebt_new]
  change totalOver _ _ _ _ ≤ Inorder.stock (Inorder.new n)
  omega

example : (List.range 8).map (fun k => totalOver Inorder.next Inorder.work k (Inorder.new sampleBin)) =
    [0, 3, 5, 6, 9, 10, 11, 11] := by decide +kernel

/-- C80, with ancestors: preorder. -/
theorem C80_preorder_ancestors [TreeNode N V] (n : N) (k : Nat) :
    ∃ s, Preorder.attachAncestors (Preorder.new n) = .ok s ∧
      totalOver Preorder.ancNext Preorder.ancPolls k s ≤ 2 * (treeOf n).size - 1 := by
  refine ⟨_, rfl, ?_⟩
  have h := totalOver_paid Preorder.ancStock_paid k (Preorder.AncState.new n)
  rw [← rootDebt_new]
  change _ ≤ Preorder.ancStock (Preorder.AncState.new n)
  omega

/-- C80, with ancestors: postorder. -/
theorem C80_postorder_ancestors [TreeNode N V] (n : N) (k : Nat) :
    ∃ s, Postorder.attachAncestors (Postorder.new n) = .ok s ∧
      totalOver Postorder.ancNext Postorder.ancPolls k s ≤ 2 * (treeOf n).size - 1 := by
  refine ⟨_, rfl, ?_⟩
  have h := totalOver_paid Postorder.ancStock_paid k (Postorder.AncState.new n)
  rw [← rootDebt_new]
  change _ ≤ Postorder.ancStock (Postorder.AncState.new n)
  omega

/-- C80, with ancestors: in order. -/
theorem C80_inorder_ancestors [BinNode N V] (n : N) (k : Nat) :
    ∃ s, Inorder.attachAncestors (Inorder.new n) = .ok s ∧
      totalOverE Inorder.ancNext Inorder.ancWork k s ≤ 3 * (binTreeOf n).size + 1 := by
  refine ⟨_, rfl, ?_⟩
  rw [← Inorder.slotDebt_new]
  exact Inorder.ancStock_total k _

example : (List.range 7).map (fun k => totalOverE Inorder.ancNext Inorder.ancWork k (Inorder.AncState.new sampleBin)) =
    [0, 3, 5, 8, 11, 13, 16] := by decide +kernel

/-- C80, with context: preorder. -/
theorem C80_preorder_context [TreeNode N V] (n : N) (k : Nat) :
    ∃ s, Preorder.attachContext (Preorder.new n) = .ok s ∧
      totalOverE Preorder.ctxNext Preorder.ctxPolls k s ≤ 2 * (treeOf n).size - 1 := by
  refine ⟨_, rfl, ?_⟩
  rw [← rootDebt_new]
  exact totalOverE_paid (φ := Preorder.ctxStock) (fun s => (Preorder.ctxNext_paid s).1)
    (fun s => (Preorder.ctxNext_paid s).2) k _

/-- C80, with context: postorder, borrowed and mutably borrowed nodes. -/
theorem C80_postorder_context [TreeNode N V] (n : N) (k : Nat) :
    ∃ s, Postorder.attachContext (Postorder.new n) = .ok s ∧
      totalOverE Postorder.ctxNext Postorder.ctxPolls k s ≤ 2 * (treeOf n).size - 1 := by
  refine ⟨_, rfl, ?_⟩
  rw [← rootDebt_new]
  exact Postorder.ctxStock_total k _

/-- C80, with context: postorder, owned nodes. -/
theorem C80_postorder_context_owned [TreeNode N V] (n : N) (k : Nat) :
    ∃ s, Postorder.ownAttachContext (Postorder.new n) = .ok s ∧
      totalOverE Postorder.ownCtxNext Postorder.ownCtxPolls k s ≤ 2 * (treeOf n).size - 1 := by
  refine ⟨_, rfl, ?_⟩
  rw [← rootDebt_new]
  exact Postorder.ownCtxStock_total k _

example : (List.range 8).map (fun k => totalOverE Preorder.ctxNext Preorder.ctxPolls k (Preorder.CtxState.new sampleTree [])) =
    [0, 0, 1, 2, 4, 7, 8, 11] := by decide +kernel

/-! ## `leaves()`, taken at any moment -/

/-- C80, `leaves()` of a preorder traversal after `j` calls: what was asked before counts. -/
theorem C80_preorder_leaves [TreeNode N V] (n : N) (j k : Nat) :
    totalOver Preorder.next Preorder.polls j (Preorder.new n) +
      totalOver Leaves.next Leaves.polls k (Leaves.ofPreorder (stateAfter Preorder.next j (Preorder.new n))) ≤
        2 * (treeOf n).size - 1 := by
  have h := totalOver_paid Preorder.stock_paid j (Preorder.new n)
  have h2 := totalOver_paid Leaves.stock_paid k (Leaves.ofPreorder (stateAfter Preorder.next j (Preorder.new n)))
  have h0 : Preorder.stock (Preorder.new n) = 2 * (treeOf n).size - 1 := rootDebt_new n
  have h3 : ∀ s : Preorder.State N, Leaves.stock (Leaves.ofPreorder s) = Preorder.stock s := fun _ => rfl
  rw [h3] at h2
  omega

example : (List.range 6).map (fun j =>
    totalOver Leaves.next Leaves.polls 9 (Leaves.ofPreorder (stateAfter Preorder.next j (Preorder.new sampleTree)))) =
    [11, 11, 10, 9, 7, 4] := by decide +kernel

/-- C80, `leaves()` of a postorder traversal after `j` calls. -/
theorem C80_postorder_leaves [TreeNode N V] (n : N) (j k : Nat) :
    totalOver Postorder.next Postorder.polls j (Postorder.new n) +
      totalOver Leaves.next Leaves.polls k (Leaves.ofPostorder (stateAfter Postorder.next j (Postorder.new n))) ≤
        2 * (treeOf n).size - 1 := by
  have h := totalOver_paid Postorder.stock_paid j (Postorder.new n)
  have h2 := totalOver_paid Leaves.stock_paid k (Leaves.ofPostorder (stateAfter Postorder.next j (Postorder.new n)))
  have h0 : Postorder.stock (Postorder.new n) = 2 * (treeOf n).size - 1 := rootDebt_new n
  have h3 : ∀ s : Postorder.State N V, Leaves.stock (Leaves.ofPostorder s) = Postorder.stock s := fun _ => rfl
  rw [h3] at h2
  omega

/-- C80, `leaves()` of an in-order traversal after `j` calls. -/
theorem C80_inorder_leaves [BinNode N V] (n : N) (j k : Nat) :
    ∀ s, Leaves.ofInorder (stateAfter Inorder.next j (Inorder.new n)) = .ok s →
      totalOver Inorder.next Inorder.work j (Inorder.new n) + totalOver Leaves.next Leaves.polls k s ≤
        2 * (binTreeOf n).size + 1 := by
  intro s hs
  have h := totalOver_paid Inorder.stock_paid j (Inorder.new n)
  have h2 := totalOver_paid Leaves.stock_paid k s
  have h0 : Inorder.slotDebt 2 (Inorder.new (V := V) n).right = 2 * (binTreeOf n).size + 1 := Inorder.slotDebt_new 2 n
  suffices rootDebt s.root + debt s.bottom + debt s.top ≤
      Inorder.slotDebt 2 (stateAfter Inorder.next j (Inorder.new n)).right by
    simp only [Leaves.stock, Inorder.stock] at h h2
    omega
  generalize stateAfter Inorder.next j (Inorder.new n) = s1 at hs
  obtain ⟨right, items, moved⟩ := s1
  unfold Leaves.ofInorder at hs
  cases moved with
  | true =>
    cases hs
    simp [rootDebt, debt_nil, Inorder.slotDebt_eq]
  | false =>
    cases right with
    | nil => cases hs
    | cons r right =>
      cases hs
      rw [Inorder.slotDebt_eq]
      have h3 := debt_append [r.toList] (right.map Option.toList)
      simp only [List.singleton_append] at h3
      rw [List.map_cons, h3]
      have : rootDebt r ≤ debt [r.toList] := by
        cases r with
        | none => simp [rootDebt]
        | some n => simp [rootDebt, debt, stackNodes]; omega
      simp only [debt_nil]
      omega

/-- C80, `leaves()` of a breadth-first traversal after `j` calls. -/
theorem C80_bfs_leaves [TreeNode N V] (n : N) (j k : Nat) :
    totalOver Bfs.next Bfs.polls j (Bfs.new n) +
      totalOver Bfs.leavesNext Bfs.leavesPolls k (Bfs.leaves (stateAfter Bfs.next j (Bfs.new n))) ≤
        2 * (treeOf n).size - 1 := by
  have h := totalOver_paid Bfs.stock_paid j (Bfs.new n)
  have h2 := totalOver_paid Bfs.leavesStock_paid k (Bfs.leaves (stateAfter Bfs.next j (Bfs.new n)))
  have h0 : Bfs.stock (Bfs.new n) = 2 * (treeOf n).size - 1 := rootDebt_new n
  have h3 : ∀ s : Bfs.State N, Bfs.leavesStock (Bfs.leaves s) = Bfs.stock s := fun s => by
    simp [Bfs.leavesStock, Bfs.leaves, Bfs.stock]
  rw [h3] at h2
  omega

/-- C80, `attach_ancestors().leaves()` of a preorder traversal after `j` calls. -/
theorem C80_preorder_ancestors_leaves [TreeNode N V] (n : N) (j k : Nat) :
    ∃ s, Preorder.attachAncestors (Preorder.new n) = .ok s ∧
      totalOver Preorder.ancNext Preorder.ancPolls j s +
        totalOver Leaves.ancNext Leaves.ancPolls k (Leaves.ofPreorderAnc (stateAfter Preorder.ancNext j s)) ≤
          2 * (treeOf n).size - 1 := by
  refine ⟨_, rfl, ?_⟩
  have h := totalOver_paid Preorder.ancStock_paid j (Preorder.AncState.new n)
  have h2 := totalOver_paid Leaves.ancStock_paid k
    (Leaves.ofPreorderAnc (stateAfter Preorder.ancNext j (Preorder.AncState.new n)))
  have h0 : Preorder.ancStock (Preorder.AncState.new n) = 2 * (treeOf n).size - 1 := rootDebt_new n
  have h3 : ∀ s : Preorder.AncState N V, Leaves.ancStock (Leaves.ofPreorderAnc s) = Preorder.ancStock s := fun _ => rfl
  rw [h3] at h2
  omega

/-- C80, `attach_ancestors().leaves()` of a postorder traversal after `j` calls. -/
theorem C80_postorder_ancestors_leaves [TreeNode N V] (n : N) (j k : Nat) :
    ∃ s, Postorder.attachAncestors (Postorder.new n) = .ok s ∧
      totalOver Postorder.ancNext Postorder.ancPolls j s +
        totalOver Leaves.ancNext Leaves.ancPolls k (Leaves.ofPostorderAnc (stateAfter Postorder.ancNext j s)) ≤
          2 * (treeOf n).size - 1 := by
  refine ⟨_, rfl, ?_⟩
  have h := totalOver_paid Postorder.ancStock_paid j (Postorder.AncState.new n)
  have h2 := totalOver_paid Leaves.ancStock_paid k
    (Leaves.ofPostorderAnc (stateAfter Postorder.ancNext j (Postorder.AncState.new n)))
  have h0 : Postorder.ancStock (Postorder.AncState.new n) = 2 * (treeOf n).size - 1 := rootDebt_new n
  have h3 : ∀ s : Postorder.AncState N V, Leaves.ancStock (Leaves.ofPostorderAnc s) = Postorder.ancStock s := fun _ => rfl
  rw [h3] at h2
  omega

example : (List.range 6).map (fun k =>
    totalOver Leaves.ancNext Leaves.ancPolls k (Leaves.ofPreorderAnc (Preorder.AncState.new sampleTree))) =
    [0, 3, 5, 9, 11, 11] := by decide +kernel

/-! ## Breadth first with ancestors -/

/-- C80, breadth first with ancestors: the child iterators are asked no more often ... -/
theorem C80_bfs_ancestors_polls [TreeNode N V] (n : N) (k : Nat) :
    ∃ s, Bfs.attachAncestors (Bfs.new n) = .ok s ∧
      totalOverE Bfs.ancNext Bfs.ancPolls k s ≤ 2 * (treeOf n).size - 1 := by
  refine ⟨_, rfl, ?_⟩
  have h0 : debt [kids n] = 2 * (treeOf n).size - 1 := by
    rw [← rootDebt_new, debt_root, debt_nil, Nat.add_zero]
  rw [← h0]
  exact Bfs.ancStock_total k _

/-- C80: ... but a round moves one ancestor only, so that the calls together take the walk from slice to slice, less one round
per slice after the first. -/
theorem C80_bfs_ancestors [TreeNode N V] [DecidableEq V] (n : N) :
    ∃ s, Bfs.attachAncestors (Bfs.new n) = .ok s ∧
      walkLength ((treeOf n).located.levelOrder.map Pos.ancestors) ≤
        totalOverE Bfs.ancNext Bfs.ancRounds (treeOf n).size s + ((treeOf n).size - 1) := by
  obtain ⟨s, hs, hk⟩ := C09_bfs_ancestors n
  refine ⟨s, hs, ?_⟩
  have hl := C09_length (treeOf n)
  generalize (treeOf n).located.levelOrder.map Pos.ancestors = l at *
  cases l with
  | nil => simp [walkLength]
  | cons a l =>
    simp only [List.length_cons] at hl
    rw [← hl]
    have h0 := hk 0 (by omega)
    cases hn : Bfs.ancNext s with
    | error e => simp [nthCallE, stateAfterE, hn] at h0
    | ok r =>
      obtain ⟨o, s'⟩ := r
      have ho : o = some a := by simpa [nthCallE, stateAfterE, hn] using h0
      subst ho
      have h1 := Bfs.walk_le l s' (Bfs.ancNext_isRoot hn) (fun k hk' => by
        have := hk (k + 1) (by omega)
        rw [nthCallE, stateAfterE, hn] at this
        simpa [nthCallE] using this)
      have h2 : a = s'.cs.items.reverse := by
        cases hs
        simp only [Bfs.ancNext, streamNextE, Bfs.ancAdvance, Bfs.AncState.new, if_true, Except.ok.injEq,
          Prod.mk.injEq] at hn
        obtain ⟨h3, rfl⟩ := hn
        simpa [Bfs.ancGet] using h3.symm
      rw [← h2] at h1
      simp only [totalOverE, hn]
      omega

/-- C80: on a root with two chains of `h + 1` nodes, `m = 2 h + 3` nodes in all, the first `m` calls take more than `m h`
rounds: the work with ancestors is not linear in the number of nodes. -/
theorem C80_bfs_ancestors_quadratic (h : Nat) :
    (fork h).size = 2 * h + 3 ∧ ∃ s, Bfs.attachAncestors (Bfs.new (fork h)) = .ok s ∧
      (fork h).size * h < totalOverE Bfs.ancNext Bfs.ancRounds (fork h).size s := by
  have hz : (fork h).size = 2 * h + 3 := by
    simp only [fork, Tree.size, Tree.sizeL, size_chain]
    omega
  refine ⟨hz, ?_⟩
  obtain ⟨s, hs, hw⟩ := C80_bfs_ancestors (fork h)
  refine ⟨s, hs, ?_⟩
  obtain ⟨_, -, hf⟩ := fork_walk h
  rw [treeOf_tree, fork_slices, hf, hz] at hw
  rw [hz]
  have : (2 * h + 3) * (h + 1) = (2 * h + 3) * h + (2 * h + 3) := by ring
  omega

example : (List.range 4).map (fun h => totalOverE Bfs.ancNext Bfs.ancRounds (2 * h + 3)
    (Bfs.AncState.new (V := Nat) (fork h))) = [2, 10, 22, 38] := by decide +kernel

end TreeIter
