import Verif.Lemmas.LazyColl
import Verif.Lemmas.Positions
import Verif.Props.Collection

/-! # C65: collection traversals work on any source of trees, and ask it only when they have to -/

universe u v w

namespace TreeIter

variable {C : Type u} {N : Type v} {V : Type w}

/-- Every call belongs to a block. -/
theorem before_cover {A : Type u} (b : Nat → List A) (h : ∀ i, b i ≠ []) (k : Nat) :
    ∃ i j, j < (b i).length ∧ k = before b i + j := by
  induction k with
  | zero => exact ⟨0, 0, List.length_pos_iff.2 (h 0), rfl⟩
  | succ k ih =>
    obtain ⟨i, j, hj, rfl⟩ := ih
    by_cases hlt : j + 1 < (b i).length
    · exact ⟨i, j + 1, hlt, rfl⟩
    · exact ⟨i + 1, 0, List.length_pos_iff.2 (h _), by simp only [before]; omega⟩

theorem Tree.preorder_ne {α : Type u} (t : Tree α) : t.preorder ≠ [] := by cases t; simp [Tree.preorder]

theorem Tree.postorder_ne {α : Type u} (t : Tree α) : t.postorder ≠ [] := fun h =>
  t.preorder_ne (by simpa [h] using (postorder_perm_preorder t).symm)

theorem Tree.levelOrder_ne {α : Type u} (t : Tree α) : t.levelOrder ≠ [] := fun h =>
  t.preorder_ne (by simpa [h] using (levelOrder_perm_preorder t).symm)

theorem BinTree.inorder_ne {α : Type u} (t : BinTree α) : t.inorder ≠ [] := fun h =>
  t.toTree.preorder_ne (by simpa [h] using (inorder_perm_preorder t).symm)

theorem block_ne_nil {O : Type w} {spec : N → List O} (h : ∀ n, spec n ≠ []) (o : Option N) : block spec o ≠ [] :=
  LazyColl.block_ne h o

/-- A source for the concrete cases that ends after every second tree and goes on when it is asked again. -/
def paused (i : Nat) : Option (Tree Nat) × Nat :=
  (if i % 3 = 2 then none else some (.node i [.node (10 * i) []]), i + 1)

def pausedBin (i : Nat) : Option (BinTree Nat) × Nat :=
  (if i % 3 = 2 then none else some (.node i none (some (.node (10 * i) none none))), i + 1)

theorem paused_polled (i : Nat) : ∀ s, polled paused i s = s + i := by
  induction i with
  | zero => intro s; rfl
  | succ i ih => intro s; rw [polled, ih]; show s + 1 + i = s + (i + 1); omega

theorem paused_kids (i : Nat) (n : Tree Nat) (h : asked paused i 0 = some n) : ∀ m ∈ (unfold n).preorder, (kids m).length ≤ 1 := by
  rw [asked, paused_polled] at h
  unfold paused at h
  simp only at h
  split at h
  · cases h
  · cases h
    rw [unfold_eq]
    intro m hm
    simp only [Tree.preorder, kids, split, List.map_cons, List.map_nil, Tree.preorderL, List.append_nil, List.mem_cons,
      unfold_eq (Tree.node _ _), List.not_mem_nil, or_false] at hm
    rcases hm with rfl | rfl
    · exact Nat.le_refl 1
    · exact Nat.zero_le 1

theorem paused_arityOk (i : Nat) (n : Tree Nat) (h : asked paused i 0 = some n) : ArityOk n := fun m hm =>
  Nat.le_trans (paused_kids i n h m hm) (by decide)

theorem paused_arityLt (i : Nat) (n : Tree Nat) (h : asked paused i 0 = some n) : ArityLt n := fun m hm =>
  Nat.lt_of_le_of_lt (paused_kids i n h m hm) (by decide)

/-- C65, breadth first: the source, asked again and again, may answer with trees or `None` as it likes, without end. -/
theorem C65_bfs [TreeNode N V] (poll : C → Option N × C) (c : C) (fuel : Nat) :
    AnswersInBlocks poll (LazyColl.next poll Bfs.new Bfs.next (fuel + 2)) LazyColl.State.source (LazyColl.new c) c
      fun i => block (fun n => (treeOf n).levelOrder) (asked poll i c) :=
  fun i j hj => LazyColl.calls poll _ _ (fun n => (treeOf n).levelOrder) (fun _ => Tree.levelOrder_ne _) c (fun _ n _ => C04_bfs n) fuel i j hj

example : (answersE (LazyColl.next paused Bfs.new Bfs.next 2) 11 (LazyColl.new 0)) =
    some [some 0, some 0, some 1, some 10, none, some 3, some 30, some 4, some 40, none, some 6] := by decide +kernel

/-- C65, preorder: the source, asked again and again, may answer with trees or `None` as it likes, without end. -/
theorem C65_preorder [TreeNode N V] (poll : C → Option N × C) (c : C) (fuel : Nat) :
    AnswersInBlocks poll (LazyColl.next poll Preorder.new Preorder.next (fuel + 2)) LazyColl.State.source (LazyColl.new c) c
      fun i => block (fun n => (treeOf n).preorder) (asked poll i c) :=
  fun i j hj => LazyColl.calls poll _ _ (fun n => (treeOf n).preorder) (fun _ => Tree.preorder_ne _) c (fun _ n _ => C01_preorder n) fuel i j hj

/-- C65, postorder: the source, asked again and again, may answer with trees or `None` as it likes, without end. -/
theorem C65_postorder [TreeNode N V] (poll : C → Option N × C) (c : C) (fuel : Nat) :
    AnswersInBlocks poll (LazyColl.next poll Postorder.new Postorder.next (fuel + 2)) LazyColl.State.source (LazyColl.new c) c
      fun i => block (fun n => (treeOf n).postorder) (asked poll i c) :=
  fun i j hj => LazyColl.calls poll _ _ (fun n => (treeOf n).postorder) (fun _ => Tree.postorder_ne _) c (fun _ n _ => C02_postorder n) fuel i j hj

/-- C65, in-order: the source, asked again and again, may answer with trees or `None` as it likes, without end. -/
theorem C65_inorder [BinNode N V] (poll : C → Option N × C) (c : C) (fuel : Nat) :
    AnswersInBlocks poll (LazyColl.next poll Inorder.new Inorder.next (fuel + 2)) LazyColl.State.source (LazyColl.new c) c
      fun i => block (fun n => (binTreeOf n).inorder) (asked poll i c) :=
  fun i j hj => LazyColl.calls poll _ _ (fun n => (binTreeOf n).inorder) (fun _ => BinTree.inorder_ne _) c (fun _ n _ => C03_inorder n) fuel i j hj

example : (answersE (LazyColl.next pausedBin Inorder.new Inorder.next 2) 8 (LazyColl.new 1)) =
    some [some 1, some 10, none, some 3, some 30, some 4, some 40, none] := by decide +kernel

/-- C65: the statements above speak about every call, since no block is empty. -/
theorem C65_every [TreeNode N V] (poll : C → Option N × C) (c : C) (k : Nat) :
    ∃ i j, j < (block (fun n => (treeOf n).preorder) (asked poll i c)).length ∧
      k = before (fun i => block (fun n => (treeOf n).preorder) (asked poll i c)) i + j :=
  before_cover _ (fun _ => block_ne_nil (fun _ => Tree.preorder_ne _) _) k

/-- C65 for an endless source of trees: there is no `None`, and with trees of `m` nodes call number `i * m + j` gives node
number `j` of tree number `i`. -/
theorem C65_endless [TreeNode N V] (tree : Nat → N) (m : Nat) (hm : ∀ i, (treeOf (tree i)).preorder.length = m) (fuel : Nat)
    (i j : Nat) (hj : j < m) :
    nthCallE (LazyColl.next (fun i => (some (tree i), i + 1)) Preorder.new Preorder.next (fuel + 2)) (i * m + j)
      (LazyColl.new 0) = .ok (treeOf (tree i)).preorder[j]? := by
  have hp : ∀ i c, polled (fun i => (some (tree i), i + 1)) i c = c + i := by
    intro i
    induction i with
    | zero => intro c; rfl
    | succ i ih => intro c; rw [polled, ih]; omega
  have ha : ∀ i, asked (fun i => (some (tree i), i + 1)) i 0 = some (tree i) := by
    intro i; simp [asked, hp]
  have hb : ∀ i, before (fun i => block (fun n => (treeOf n).preorder) (asked (fun i => (some (tree i), i + 1)) i 0)) i = i * m := by
    intro i
    induction i with
    | zero => simp [before]
    | succ i ih => rw [before, ih, ha, block, List.length_map, hm, Nat.succ_mul]
  have hj' : j < (treeOf (tree i)).preorder.length := by rw [hm]; exact hj
  obtain ⟨h, -⟩ := C65_preorder (fun i => (some (tree i), i + 1)) 0 fuel i j (by simpa [ha, block] using hj')
  rw [hb] at h
  rw [h]
  simp [ha, block, hj']

example : nthCallE (LazyColl.next (fun i => (some (Tree.node i [.node (10 * i) []]), i + 1)) Preorder.new Preorder.next 2) (1000 * 2 + 1)
    (LazyColl.new 0) = .ok (some 10000) :=
  (C65_endless (fun i => Tree.node i [.node (10 * i) []]) 2 (fun _ => by simp [treeOf_tree, Tree.preorder, Tree.preorderL]) 0 1000 1
    (by decide)).trans (by simp [treeOf_tree, Tree.preorder, Tree.preorderL])

/-! ## With contexts -/

/-- The contexts of a tree at index `i`. -/
def ctxBlock {D : Type u} (contexts : N → List (Ctx V D)) (i : Nat) (o : Option N) : List (Option (Ctx V D)) :=
  block (fun n => (contexts n).map (Ctx.under (i % 2 ^ 64))) o

/-- C65, contexts, breadth first; the path of a node begins with the number of times
the source had been asked before. -/
theorem C65_bfs_context [TreeNode N V] (poll : C → Option N × C) (c : C) (fuel : Nat)
    (h : ∀ i n, asked poll i c = some n → ArityLt n) :
    ∃ s, LazyColl.attachContext (LazyColl.new (S := Bfs.State N) c) = .ok s ∧
      AnswersInBlocks poll (LazyColl.ctxNext poll Bfs.CtxState.new Bfs.ctxAdvance Bfs.ctxGet (fuel + 2))
        LazyColl.CtxState.source s c fun i => ctxBlock (fun n => (unfold n).located.levelOrder.map Pos.ctx) i (asked poll i c) :=
  ⟨_, rfl, fun i j hj => LazyColl.ctxCalls poll _ _ _
    (fun (i : Nat) (n : N) => ((unfold n).located.levelOrder.map Pos.ctx).map (Ctx.under i))
    (fun i n => by simp only [ne_eq, List.map_eq_nil_iff]; exact Tree.levelOrder_ne _) c
    (fun i n hn m => bfs_calls_at n (h i n hn) m) fuel i j hj⟩

example := C65_bfs_context paused 0 9 paused_arityLt

/-- C65, contexts, breadth first on binary nodes. -/
theorem C65_bfs_context_binary [BinNode N V] (poll : C → Option N × C) (c : C) (fuel : Nat) :
    ∃ s, LazyColl.attachContext (LazyColl.new (S := Bfs.State N) c) = .ok s ∧
      AnswersInBlocks poll (LazyColl.ctxNext poll Bfs.CtxState.binNew Bfs.binCtxAdvance Bfs.ctxGet (fuel + 2))
        LazyColl.CtxState.source s c fun i => ctxBlock (fun n => (unfold2 n).located.toTree.levelOrder.map Pos.ctx2) i (asked poll i c) :=
  ⟨_, rfl, fun i j hj => LazyColl.ctxCalls poll _ _ _
    (fun (i : Nat) (n : N) => ((unfold2 n).located.toTree.levelOrder.map Pos.ctx2).map (Ctx.under i))
    (fun i n => by simp only [ne_eq, List.map_eq_nil_iff]; exact Tree.levelOrder_ne _) c
    (fun i n hn m => bfs_binary_calls_at n m) fuel i j hj⟩

/-- C65, contexts, preorder. -/
theorem C65_preorder_context [TreeNode N V] (poll : C → Option N × C) (c : C) (fuel : Nat)
    (h : ∀ i n, asked poll i c = some n → ArityOk n) :
    ∃ s, LazyColl.attachContext (LazyColl.new (S := Preorder.State N) c) = .ok s ∧
      AnswersInBlocks poll (LazyColl.ctxNext poll Preorder.CtxState.new Preorder.ctxAdvance Preorder.ctxGet (fuel + 2))
        LazyColl.CtxState.source s c fun i => ctxBlock (fun n => (unfold n).located.preorder.map Pos.ctx) i (asked poll i c) :=
  ⟨_, rfl, fun i j hj => LazyColl.ctxCalls poll _ _ _
    (fun (i : Nat) (n : N) => ((unfold n).located.preorder.map Pos.ctx).map (Ctx.under i))
    (fun i n => by simp only [ne_eq, List.map_eq_nil_iff]; exact Tree.preorder_ne _) c
    (fun i n hn m => preorder_calls_at n (h i n hn) m) fuel i j hj⟩

example := C65_preorder_context paused 0 9 paused_arityOk

theorem paused_arity (i : Nat) (c : Nat) (n : Tree Nat) (h : asked paused i c = some n) : ArityOk n := by
  have : ∀ c, ∀ n, (paused c).1 = some n → ArityOk n := by
    intro c n h
    simp only [paused] at h
    split at h
    · simp at h
    · obtain rfl := Option.some.inj h
      intro m hm
      rw [unfold_eq, Tree.preorder_node] at hm
      simp only [kids, split, List.map_cons, List.map_nil, List.flatMap_cons, List.flatMap_nil, List.mem_cons, unfold_eq,
        Tree.preorder_node, List.append_nil, List.not_mem_nil, or_false] at hm
      rcases hm with rfl | rfl <;> simp [kids, split]
  exact this _ n h

example : (answersE (LazyColl.ctxNext paused Preorder.CtxState.new Preorder.ctxAdvance Preorder.ctxGet 2) 8 ⟨0, usizeMax, none⟩).map
      (·.map (·.map Ctx.placing)) =
    some [some ([0], [0]), some ([0, 0], [0, 0]), some ([1], [1]), some ([1, 0], [1, 10]), none, some ([3], [3]),
      some ([3, 0], [3, 30]), some ([4], [4])] := by decide +kernel

/-- C65, contexts, preorder on binary nodes. -/
theorem C65_preorder_context_binary [BinNode N V] (poll : C → Option N × C) (c : C) (fuel : Nat) :
    ∃ s, LazyColl.attachContext (LazyColl.new (S := Preorder.State N) c) = .ok s ∧
      AnswersInBlocks poll (LazyColl.ctxNext poll Preorder.BinCtxState.new Preorder.binCtxAdvance Preorder.binCtxGet (fuel + 2))
        LazyColl.CtxState.source s c fun i => ctxBlock (fun n => (unfold2 n).located.toTree.preorder.map Pos.ctx2) i (asked poll i c) :=
  ⟨_, rfl, fun i j hj => LazyColl.ctxCalls poll _ _ _
    (fun (i : Nat) (n : N) => ((unfold2 n).located.toTree.preorder.map Pos.ctx2).map (Ctx.under i))
    (fun i n => by simp only [ne_eq, List.map_eq_nil_iff]; exact Tree.preorder_ne _) c
    (fun i n hn m => preorder_binary_calls_at n m) fuel i j hj⟩

/-- C65, contexts, postorder (borrowed and mutably borrowed). -/
theorem C65_postorder_context [TreeNode N V] (poll : C → Option N × C) (c : C) (fuel : Nat)
    (h : ∀ i n, asked poll i c = some n → ArityOk n) :
    ∃ s, LazyColl.attachContext (LazyColl.new (S := Postorder.State N V) c) = .ok s ∧
      AnswersInBlocks poll (LazyColl.ctxNext poll Postorder.CtxState.new Postorder.ctxAdvance Postorder.ctxGet (fuel + 2))
        LazyColl.CtxState.source s c fun i => ctxBlock (fun n => (unfold n).located.postorder.map Pos.ctx) i (asked poll i c) :=
  ⟨_, rfl, fun i j hj => LazyColl.ctxCalls poll _ _ _
    (fun (i : Nat) (n : N) => ((unfold n).located.postorder.map Pos.ctx).map (Ctx.under i))
    (fun i n => by simp only [ne_eq, List.map_eq_nil_iff]; exact Tree.postorder_ne _) c
    (fun i n hn m => postorder_calls_at n (h i n hn) m) fuel i j hj⟩

example := C65_postorder_context paused 0 9 paused_arityOk

/-- C65, contexts, owned postorder. -/
theorem C65_postorder_context_owned [TreeNode N V] (poll : C → Option N × C) (c : C) (fuel : Nat)
    (h : ∀ i n, asked poll i c = some n → ArityOk n) :
    ∃ s, LazyColl.attachContext (LazyColl.new (S := Postorder.State N V) c) = .ok s ∧
      AnswersInBlocks poll (LazyColl.ctxNext poll Postorder.OwnCtxState.new Postorder.ownCtxAdvance Postorder.ownCtxGet (fuel + 2))
        LazyColl.CtxState.source s c fun i => ctxBlock (fun n => (unfold n).located.postorder.map fun p => p.ctx.noChildren) i (asked poll i c) :=
  ⟨_, rfl, fun i j hj => LazyColl.ctxCalls poll Postorder.OwnCtxState.new Postorder.ownCtxAdvance Postorder.ownCtxGet
    (fun (i : Nat) (n : N) => ((unfold n).located.postorder.map fun p => (Pos.ctx (V := V) p).noChildren).map (Ctx.under i))
    (fun i n => by simp only [ne_eq, List.map_eq_nil_iff]; exact Tree.postorder_ne _) c
    (fun i n hn m k => postorder_owned_calls_at n (h i n hn) m k) fuel i j hj⟩

example := C65_postorder_context_owned paused 0 9 paused_arityOk

/-- C65, contexts, postorder on binary nodes (borrowed). -/
theorem C65_postorder_context_binary [BinNode N V] (poll : C → Option N × C) (c : C) (fuel : Nat) :
    ∃ s, LazyColl.attachContext (LazyColl.new (S := Postorder.State N V) c) = .ok s ∧
      AnswersInBlocks poll (LazyColl.ctxNext poll Postorder.BinCtxState.new Postorder.binCtxAdvance Postorder.binCtxGet (fuel + 2))
        LazyColl.CtxState.source s c fun i => ctxBlock (fun n => (unfold2 n).located.toTree.postorder.map Pos.ctx2) i (asked poll i c) :=
  ⟨_, rfl, fun i j hj => LazyColl.ctxCalls poll _ _ _
    (fun (i : Nat) (n : N) => ((unfold2 n).located.toTree.postorder.map Pos.ctx2).map (Ctx.under i))
    (fun i n => by simp only [ne_eq, List.map_eq_nil_iff]; exact Tree.postorder_ne _) c
    (fun i n hn m => postorder_binary_calls_at n m) fuel i j hj⟩

/-- C65, contexts, postorder on mutably borrowed binary nodes. -/
theorem C65_postorder_context_binary_mut [BinNode N V] (poll : C → Option N × C) (c : C) (fuel : Nat) :
    ∃ s, LazyColl.attachContext (LazyColl.new (S := Postorder.State N V) c) = .ok s ∧
      AnswersInBlocks poll (LazyColl.ctxNext poll Postorder.BinCtxState.new Postorder.mutBinCtxAdvance Postorder.binCtxGet (fuel + 2))
        LazyColl.CtxState.source s c fun i => ctxBlock (fun n => (unfold2 n).located.toTree.postorder.map Pos.ctx2) i (asked poll i c) :=
  ⟨_, rfl, fun i j hj => LazyColl.ctxCalls poll _ _ _
    (fun (i : Nat) (n : N) => ((unfold2 n).located.toTree.postorder.map Pos.ctx2).map (Ctx.under i))
    (fun i n => by simp only [ne_eq, List.map_eq_nil_iff]; exact Tree.postorder_ne _) c
    (fun i n hn m => postorder_binary_mut_calls_at n m) fuel i j hj⟩

/-- C65, contexts, owned postorder on binary nodes. -/
theorem C65_postorder_context_binary_owned [BinNode N V] (poll : C → Option N × C) (c : C) (fuel : Nat) :
    ∃ s, LazyColl.attachContext (LazyColl.new (S := Postorder.State N V) c) = .ok s ∧
      AnswersInBlocks poll (LazyColl.ctxNext poll Postorder.OwnBinCtxState.new Postorder.ownBinCtxAdvance Postorder.ownBinCtxGet (fuel + 2))
        LazyColl.CtxState.source s c fun i => ctxBlock (fun n => (unfold2 n).located.toTree.postorder.map fun p => p.ctx2.noChildren) i (asked poll i c) :=
  ⟨_, rfl, fun i j hj => LazyColl.ctxCalls poll Postorder.OwnBinCtxState.new Postorder.ownBinCtxAdvance Postorder.ownBinCtxGet
    (fun (i : Nat) (n : N) => ((unfold2 n).located.toTree.postorder.map fun p => (Pos.ctx2 (V := V) p).noChildren).map (Ctx.under i))
    (fun i n => by simp only [ne_eq, List.map_eq_nil_iff]; exact Tree.postorder_ne _) c
    (fun i n hn m k => postorder_binary_owned_calls_at n m k) fuel i j hj⟩

/-- C65, contexts, in-order (borrowed and mutably borrowed). -/
theorem C65_inorder_context [BinNode N V] (poll : C → Option N × C) (c : C) (fuel : Nat) :
    ∃ s, LazyColl.attachContext (LazyColl.new (S := Inorder.State N V) c) = .ok s ∧
      AnswersInBlocks poll (LazyColl.ctxNext poll Inorder.CtxState.new Inorder.ctxAdvance Inorder.ctxGet (fuel + 2))
        LazyColl.CtxState.source s c fun i => ctxBlock (fun n => (unfold2 n).located.inorder.map Pos.ctx2) i (asked poll i c) :=
  ⟨_, rfl, fun i j hj => LazyColl.ctxCalls poll _ _ _
    (fun (i : Nat) (n : N) => ((unfold2 n).located.inorder.map Pos.ctx2).map (Ctx.under i))
    (fun i n => by simp only [ne_eq, List.map_eq_nil_iff]; exact BinTree.inorder_ne _) c
    (fun i n hn m => inorder_calls_at n m) fuel i j hj⟩

example : (answersE (LazyColl.ctxNext pausedBin Inorder.CtxState.new Inorder.ctxAdvance Inorder.ctxGet 2) 6 ⟨1, usizeMax, none⟩).map
      (·.map (·.map Ctx.placing)) =
    some [some ([0], [1]), some ([0, 1], [1, 10]), none, some ([2], [3]), some ([2, 1], [3, 30]), some ([3], [4])] := by
  decide +kernel

/-- C65, contexts, owned in-order. -/
theorem C65_inorder_context_owned [BinNode N V] (poll : C → Option N × C) (c : C) (fuel : Nat) :
    ∃ s, LazyColl.attachContext (LazyColl.new (S := Inorder.State N V) c) = .ok s ∧
      AnswersInBlocks poll (LazyColl.ctxNext poll Inorder.OwnCtxState.new Inorder.ownAdvance Inorder.ownGet (fuel + 2))
        LazyColl.CtxState.source s c fun i => ctxBlock (fun n => (unfold2 n).located.inorder.map fun p => p.ctx2.noChildren) i (asked poll i c) :=
  ⟨_, rfl, fun i j hj => LazyColl.ctxCalls poll Inorder.OwnCtxState.new Inorder.ownAdvance Inorder.ownGet
    (fun (i : Nat) (n : N) => ((unfold2 n).located.inorder.map fun p => (Pos.ctx2 (V := V) p).noChildren).map (Ctx.under i))
    (fun i n => by simp only [ne_eq, List.map_eq_nil_iff]; exact BinTree.inorder_ne _) c
    (fun i n hn m k => inorder_owned_calls_at n m k) fuel i j hj⟩

end TreeIter
