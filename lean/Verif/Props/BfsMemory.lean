import Verif.Lemmas.BfsMemory
import Verif.Lemmas.LazyPos
import Verif.Lemmas.Positions
import Verif.Props.BreadthFirst
import Verif.Props.Memory

/-! # C53 and C54: how much the breadth-first iterators hold, and the advice of the README

The README (61-63) says of `dfs_preorder()` that "these are the most memory efficient". -/

universe u v w

namespace TreeIter

variable {N : Type u} {V : Type v}

/-! ## C53 -/

/-- C53: the pending child iterators never outnumber the nodes of two adjacent levels. -/
theorem C53_bound [TreeNode N V] (n : N) (k : Nat) :
    ∃ d, (stateAfter Bfs.next k (Bfs.new n)).queue.length ≤ ((treeOf n).atDepth d).length + ((treeOf n).atDepth (d + 1)).length := by
  rcases k with _ | _ | k
  · exact ⟨0, by simp [stateAfter, Bfs.new]⟩
  · exact ⟨0, by simp [stateAfter, Bfs.next, Bfs.new, atDepth_zero]⟩
  · obtain ⟨-, ⟨h, -⟩ | ⟨d, X, y, Y, q, c, p, -, h1, h2, h3, -⟩⟩ := Bfs.bfs_after n k
    · exact ⟨0, by simp [h]⟩
    · refine ⟨d, ?_⟩
      rw [← Bfs.lvl_val, ← Bfs.lvl_val, List.length_map, List.length_map, Bfs.lvl, h1, h3]
      simp only [List.length_cons, List.length_map, List.length_append, List.flatMap_append, List.flatMap_cons, h2]
      omega

/-- More exactly: if the `k`-th node of level order is at position `p` below the root, then once it has been returned
there is one pending iterator for each node from the parent of `p` on, in level order, up to and including `p`. -/
theorem C53_exact [TreeNode N V] (n : N) (k : Nat) (p : Pos V) (h : (treeOf n).located.levelOrder[k]? = some p)
    (hp : p.path ≠ []) :
    ∃ j q, (treeOf n).located.levelOrder[j]? = some q ∧ q.path = p.path.dropLast ∧
      (stateAfter Bfs.next (k + 1) (Bfs.new n)).queue.length + j = k + 1 := by
  have hloc : ∀ k, nthCall Bfs.next k (Bfs.new (treeOf n).located) = (treeOf n).located.levelOrder[k]? := by
    intro k
    rw [C04_bfs, treeOf_tree]
  rcases k with _ | k
  · rw [← hloc] at h
    have h0 : nthCall Bfs.next 0 (Bfs.new (treeOf n).located) = some (val (treeOf n).located) := rfl
    rw [h0, Option.some.injEq] at h
    subst h
    rw [val_tree] at hp
    exact absurd (withPos_value_path (treeOf n) [] []) hp
  · rw [Bfs.queue_located]
    obtain ⟨-, ⟨-, h0⟩ | ⟨d, X, y, Y, q, c, r, h0, h1, h2, h3, h4⟩⟩ := Bfs.bfs_after (treeOf n).located k
    · rw [hloc, h] at h0
      cases h0
    · rw [hloc, h, Option.some.injEq] at h0
      have h5 := Bfs.levelOrder_at _ d X Y y h1
      rw [treeOf_tree] at h5
      refine ⟨_, _, h5, ?_, ?_⟩
      · obtain ⟨s, path, anc, rfl⟩ := Bfs.lvl_located (treeOf n) d y (by simp [h1])
        have hc : c ∈ kids (s.withPos path anc) := by rw [h2]; simp
        rw [h0]
        cases s with
        | node a cs =>
          obtain ⟨c', -, j, rfl⟩ := withPosL_root cs path (anc ++ [a]) 0 c hc
          have e1 := withPos_value_path c' (path ++ [j]) (anc ++ [a])
          have e2 := withPos_value_path (.node a cs) path anc
          rw [val_tree, val_tree]
          exact e2.trans ((congrArg List.dropLast e1).trans List.dropLast_concat).symm
      · rw [h3]
        rw [Bfs.above_succ, h1] at h4
        simp only [List.length_cons, List.length_map, List.length_append] at h4 ⊢
        omega

example := C53_exact sampleTree 4 ⟨[0, 1], [0, 1, 4], 4⟩ (by decide +kernel) (by decide)

/-- After the root there is one iterator. -/
theorem C53_root [TreeNode N V] (n : N) : (stateAfter Bfs.next 1 (Bfs.new n)).queue.length = 1 := rfl

/-- Once the last node of a level has been returned there is at least one iterator for each node of the level, and
below the root one more. -/
theorem C53_level [TreeNode N V] (n : N) (d : Nat) (h : (treeOf n).atDepth (d + 1) ≠ []) :
    ((treeOf n).atDepth (d + 1)).length + 1 ≤
      (stateAfter Bfs.next ((List.range (d + 2)).flatMap fun i => (treeOf n).atDepth i).length (Bfs.new n)).queue.length := by
  have ha : ∀ d, ((List.range d).flatMap fun i => (treeOf n).atDepth i).length = Bfs.above n d := by
    intro d
    rw [List.length_flatMap, Bfs.above]
    congr 2
    funext i
    rw [← Bfs.lvl_val, List.length_map]
  have hne : Bfs.lvl n (d + 1) ≠ [] := by
    intro e; apply h; rw [← Bfs.lvl_val, e]; rfl
  have hpos : 0 < (Bfs.lvl n (d + 1)).length := List.length_pos_iff.2 hne
  have hmono : ∀ a b, a ≤ b → Bfs.above n a ≤ Bfs.above n b := by
    intro a b hab
    induction hab with
    | refl => exact Nat.le_refl _
    | step _ ih => rw [Bfs.above_succ]; omega
  have h1 : 1 ≤ Bfs.above n (d + 1) := (show Bfs.above n 1 = 1 by simp [Bfs.above, Bfs.lvl]) ▸ hmono 1 (d + 1) (by omega)
  have h2 : Bfs.above n (d + 2) = _ := Bfs.above_succ n (d + 1)
  rw [ha, ← Bfs.lvl_val, List.length_map]
  obtain ⟨m, hm⟩ : ∃ m, Bfs.above n (d + 2) = m + 2 := ⟨Bfs.above n (d + 2) - 2, by omega⟩
  rw [hm]
  obtain ⟨-, ⟨-, h0⟩ | ⟨d', X, y, Y, q, c, r, -, e1, e2, e3, e4⟩⟩ := Bfs.bfs_after n m
  · exfalso
    obtain ⟨ini, z, hz⟩ : ∃ ini z, Bfs.lvl n (d + 1) = ini ++ [z] :=
      ⟨_, _, (List.dropLast_append_getLast hne).symm⟩
    have h5 := Bfs.levelOrder_at n (d + 1) ini [] z hz
    rw [C04_bfs] at h0
    rw [hz, List.length_append, List.length_singleton] at h2
    rw [show Bfs.above n (d + 1) + ini.length = m + 1 by omega, h0] at h5
    cases h5
  · have hlen : (Bfs.lvl n (d' + 1)).length = (X.flatMap kids).length + (q.length + 1 + r.length) + (Y.flatMap kids).length := by
      rw [Bfs.lvl, e1]
      simp only [List.flatMap_append, List.flatMap_cons, e2, List.length_append, List.length_cons, List.length_nil]
      omega
    have h3 : Bfs.above n (d' + 2) = _ := Bfs.above_succ n (d' + 1)
    simp only [List.length_append, List.length_cons, List.length_nil] at e4
    have hd : d' = d := by
      rcases Nat.lt_trichotomy d' d with hlt | heq | hgt
      · have := hmono (d' + 2) (d + 1) (by omega)
        omega
      · exact heq
      · have := hmono (d + 2) (d' + 1) (by omega)
        omega
    subst hd
    rw [e3]
    simp only [List.length_append, List.length_cons, List.length_nil, List.length_map]
    omega

example : (List.range 8).map (fun k => (stateAfter Bfs.next k (Bfs.new sampleTree)).queue.length) =
    [0, 1, 2, 3, 3, 4, 4, 0] := by decide +kernel

example : (List.range 3).map (fun d => ((treeOf sampleTree).atDepth d).length) = [1, 2, 3] ∧
    (treeOf sampleTree).located.levelOrder.map Pos.path = [[], [0], [1], [0, 0], [0, 1], [1, 0]] := by decide +kernel

/-! ## C54 -/

/-- The bound of C40 is reached: at some point a preorder iterator holds one child iterator per level. -/
theorem C54_preorder_peak [TreeNode N V] (n : N) :
    ∃ k, (stateAfter Preorder.next k (Preorder.new n)).stack.length = (treeOf n).height := by
  obtain ⟨p, hp, hl⟩ := deepest_withPos (treeOf n) [] []
  obtain ⟨k, hk⟩ := List.getElem?_of_mem hp
  refine ⟨k + 1, ?_⟩
  rw [C40_preorder_exact n k p hk, hl]
  simp

/-- At some point a postorder iterator holds a child iterator and a value for each level but one. -/
theorem C54_postorder_peak [TreeNode N V] (n : N) :
    ∃ k, (stateAfter Postorder.next k (Postorder.new n)).stack.length + 1 = (treeOf n).height ∧
      (stateAfter Postorder.next k (Postorder.new n)).items.length + 1 = (treeOf n).height := by
  obtain ⟨p, hp, hl⟩ := deepest_withPos (treeOf n) [] []
  obtain ⟨k, hk⟩ := List.getElem?_of_mem ((postorder_perm_preorder _).mem_iff.2 hp)
  refine ⟨k + 1, ?_⟩
  have := C40_postorder_exact n k p hk
  rw [hl] at this
  simpa using this

/-- C54, against postorder: on a tree with two levels or more a preorder iterator never holds more than a postorder
iterator, counting child iterators and values, does at its peak. -/
theorem C54_postorder_partial [TreeNode N V] (n : N) (h : 2 ≤ (treeOf n).height) :
    ∃ k', ∀ k, (stateAfter Preorder.next k (Preorder.new n)).stack.length ≤
      (stateAfter Postorder.next k' (Postorder.new n)).stack.length +
        (stateAfter Postorder.next k' (Postorder.new n)).items.length := by
  obtain ⟨k', h1, h2⟩ := C54_postorder_peak n
  refine ⟨k', fun k => ?_⟩
  have := C40_preorder n k
  omega

example : 2 ≤ (treeOf sampleTree).height := by decide +kernel

/-- C54, against breadth first: so too on a tree with a level below the root at least as wide, but for one, as the tree
is high. -/
theorem C54_bfs_partial [TreeNode N V] (n : N) (d : Nat) (hd : (treeOf n).atDepth (d + 1) ≠ [])
    (h : (treeOf n).height ≤ ((treeOf n).atDepth (d + 1)).length + 1) :
    ∃ k', ∀ k, (stateAfter Preorder.next k (Preorder.new n)).stack.length ≤
      (stateAfter Bfs.next k' (Bfs.new n)).queue.length := by
  refine ⟨((List.range (d + 2)).flatMap fun i => (treeOf n).atDepth i).length, fun k => ?_⟩
  exact Nat.le_trans (C40_preorder n k) (Nat.le_trans h (C53_level n d hd))

example : (treeOf sampleTree).atDepth 2 ≠ [] ∧
    (treeOf sampleTree).height ≤ ((treeOf sampleTree).atDepth 2).length + 1 := by decide +kernel

/-- A chain of `m + 1` nodes, each the only child of the one before. -/
def chainTree : Nat → Tree Nat
  | 0 => .node 0 []
  | m + 1 => .node (m + 1) [chainTree m]

/-- A chain of `m + 1` nodes, each the right child of the one before. -/
def rightChain : Nat → BinTree Nat
  | 0 => .node 0 none none
  | m + 1 => .node (m + 1) none (some (rightChain m))

theorem chainTree_height (m : Nat) : (chainTree m).height = m + 1 := by
  induction m with
  | zero => rfl
  | succ m ih => simp [chainTree, Tree.height, Tree.heightL, ih]; omega

theorem chainTree_width (m : Nat) : ∀ d, ((chainTree m).atDepth d).length ≤ 1 := by
  induction m with
  | zero => intro d; cases d <;> simp [chainTree, atDepth_zero, atDepth_succ, Tree.children]
  | succ m ih =>
    intro d
    cases d with
    | zero => simp [atDepth_zero]
    | succ d => simpa [chainTree, atDepth_succ, Tree.children] using ih d

theorem rightChain_toTree (m : Nat) : (rightChain m).toTree = chainTree m := by
  induction m with
  | zero => rfl
  | succ m ih => simp [rightChain, chainTree, BinTree.toTree, BinTree.slotTrees, ih]

/-- C54 is not so in general: on a chain a preorder iterator comes to hold as many child iterators as there are nodes,
a breadth-first iterator never more than two. -/
theorem C54_chain (m : Nat) :
    (∃ k, (stateAfter Preorder.next k (Preorder.new (chainTree m))).stack.length = m + 1) ∧
      ∀ k, (stateAfter Bfs.next k (Bfs.new (chainTree m))).queue.length ≤ 2 := by
  constructor
  · obtain ⟨k, hk⟩ := C54_preorder_peak (chainTree m)
    rw [treeOf_tree, chainTree_height] at hk
    exact ⟨k, hk⟩
  · intro k
    obtain ⟨d, hd⟩ := C53_bound (chainTree m) k
    rw [treeOf_tree] at hd
    have := chainTree_width m d
    have := chainTree_width m (d + 1)
    omega

example : (List.range 6).map (fun k => ((stateAfter Preorder.next k (Preorder.new (chainTree 4))).stack.length,
      (stateAfter Bfs.next k (Bfs.new (chainTree 4))).queue.length)) =
    [(0, 0), (1, 1), (2, 2), (3, 2), (4, 2), (5, 2)] := by decide +kernel

/-- And on a chain of right children an inorder iterator never holds more than one pending slot, and no value. -/
theorem C54_chain_inorder (m : Nat) :
    (∃ k, (stateAfter Preorder.next k (Preorder.new (rightChain m))).stack.length = m + 1) ∧
      ∀ k, (stateAfter Inorder.next k (Inorder.new (rightChain m))).right.length +
        (stateAfter Inorder.next k (Inorder.new (rightChain m))).items.length ≤ 1 := by
  constructor
  · obtain ⟨k, hk⟩ := C54_preorder_peak (rightChain m)
    rw [treeOf_eq_toTree, binTreeOf_binTree, rightChain_toTree, chainTree_height] at hk
    exact ⟨k, hk⟩
  · have key : ∀ (k : Nat) (o : Option (BinTree Nat)) (b : Bool), (o = none ∨ ∃ m, o = some (rightChain m)) →
        (stateAfter Inorder.next k (⟨[o], [], b⟩ : Inorder.State (BinTree Nat) Nat)).right.length +
          (stateAfter Inorder.next k (⟨[o], [], b⟩ : Inorder.State (BinTree Nat) Nat)).items.length ≤ 1 := by
      intro k
      induction k with
      | zero => simp [stateAfter]
      | succ k ih =>
        rintro o b (rfl | ⟨m, rfl⟩)
        · have h : (Inorder.next (⟨[none], [], b⟩ : Inorder.State (BinTree Nat) Nat)).2 = ⟨[], [], true⟩ := by
            simp [Inorder.next, Inorder.find, Inorder.descend]
          rw [stateAfter, h]
          clear h
          have : ∀ k, stateAfter Inorder.next k (⟨[], [], true⟩ : Inorder.State (BinTree Nat) Nat) = ⟨[], [], true⟩ := by
            intro k
            induction k with
            | zero => rfl
            | succ k ih => rw [stateAfter_snoc, ih]; rfl
          rw [this]
          simp
        · cases m with
          | zero =>
            have h : (Inorder.next (⟨[some (rightChain 0)], [], b⟩ : Inorder.State (BinTree Nat) Nat)).2 = ⟨[none], [], true⟩ := by
              simp [Inorder.next, Inorder.find, Inorder.descend, rightChain, split2]
            rw [stateAfter, h]
            exact ih _ _ (.inl rfl)
          | succ m =>
            have h : (Inorder.next (⟨[some (rightChain (m + 1))], [], b⟩ : Inorder.State (BinTree Nat) Nat)).2 =
                ⟨[some (rightChain m)], [], true⟩ := by
              simp [Inorder.next, Inorder.find, Inorder.descend, rightChain, split2]
            rw [stateAfter, h]
            exact ih _ _ (.inr ⟨m, rfl⟩)
    exact fun k => key k _ false (.inr ⟨m, rfl⟩)

/-- So the advice of the README, read as a statement about all trees, does not hold. -/
theorem C54_preorder_least_false : ¬ ∀ t : Tree Nat, ∃ k', ∀ k, (stateAfter Preorder.next k (Preorder.new t)).stack.length ≤
    (stateAfter Bfs.next k' (Bfs.new t)).queue.length := by
  intro h
  obtain ⟨⟨k, hk⟩, h2⟩ := C54_chain 2
  obtain ⟨k', h⟩ := h (chainTree 2)
  have := h k
  have := h2 k'
  omega

end TreeIter
