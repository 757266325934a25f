import Verif.Lemmas.Collection
import Verif.Props.DepthFirst
import Verif.Props.BreadthFirst
import Verif.Props.BreadthFirstCtx

/-! # C25, C26 and C41: traversals of collections of trees -/

universe u v w x y

namespace TreeIter

variable {N : Type u} {V : Type v}

/-- A collection of three trees; the middle one is a single node. -/
def sampleTrees : List (Tree Nat) := [sampleTree, .node 10 [], .node 20 [.node 21 [], .node 22 []]]

/-- A collection of three binary trees. -/
def sampleBins : List (BinTree Nat) :=
  [sampleBin, .node 10 none none, .node 20 none (some (.node 22 (some (.node 21 none none)) none))]

/-- The path and the ancestors of a context. -/
def Ctx.placing {C : Type} (c : Ctx Nat C) : List Nat × List Nat := (c.path, c.ancestors)

theorem sampleTrees_arityLt : ∀ n ∈ sampleTrees, ArityLt n := by
  intro n hn m hm
  have h : ∀ n ∈ sampleTrees, ∀ m ∈ (unfold n).preorder, (kids m).length ≤ 3 := by decide +kernel
  have := h n hn m hm
  omega

theorem sampleTrees_arityOk : ∀ n ∈ sampleTrees, ArityOk n := fun n hn m hm =>
  Nat.le_of_lt (sampleTrees_arityLt n hn m hm)

/-! ## C25 -/

/-- C25, breadth first. -/
theorem C25_bfs [TreeNode N V] (ns : List N) (k : Nat) :
    nthCall (Coll.next Bfs.new Bfs.next) k (Coll.new ns) = (ns.flatMap fun n => (treeOf n).levelOrder)[k]? :=
  Coll.calls _ _ _ ns (fun n _ k => C04_bfs n k) k

example : answers (Coll.next Bfs.new Bfs.next) 12 (Coll.new sampleTrees) =
    [some 0, some 1, some 2, some 3, some 4, some 5, some 10, some 20, some 21, some 22, none, none] := by
  decide +kernel

/-- C25, preorder. -/
theorem C25_preorder [TreeNode N V] (ns : List N) (k : Nat) :
    nthCall (Coll.next Preorder.new Preorder.next) k (Coll.new ns) =
      (ns.flatMap fun n => (treeOf n).preorder)[k]? :=
  Coll.calls _ _ _ ns (fun n _ k => C01_preorder n k) k

example : answers (Coll.next Preorder.new Preorder.next) 12 (Coll.new sampleTrees) =
    [some 0, some 1, some 3, some 4, some 2, some 5, some 10, some 20, some 21, some 22, none, none] := by
  decide +kernel

/-- C25, postorder. -/
theorem C25_postorder [TreeNode N V] (ns : List N) (k : Nat) :
    nthCall (Coll.next Postorder.new Postorder.next) k (Coll.new ns) =
      (ns.flatMap fun n => (treeOf n).postorder)[k]? :=
  Coll.calls _ _ _ ns (fun n _ k => C02_postorder n k) k

example : answers (Coll.next Postorder.new Postorder.next) 12 (Coll.new sampleTrees) =
    [some 3, some 4, some 1, some 5, some 2, some 0, some 10, some 21, some 22, some 20, none, none] := by
  decide +kernel

/-- C25, inorder. -/
theorem C25_inorder [BinNode N V] (ns : List N) (k : Nat) :
    nthCall (Coll.next Inorder.new Inorder.next) k (Coll.new ns) =
      (ns.flatMap fun n => (binTreeOf n).inorder)[k]? :=
  Coll.calls _ _ _ ns (fun n _ k => C03_inorder n k) k

example : answers (Coll.next Inorder.new Inorder.next) 11 (Coll.new sampleBins) =
    [some 1, some 3, some 0, some 4, some 2, some 10, some 20, some 21, some 22, none, none] := by decide +kernel

/-! ## C26 -/

/-- The same context with the path prefixed by the index `i` of the tree in its collection. -/
def Ctx.under {C : Type u} (i : Nat) (c : Ctx V C) : Ctx V C := { c with path := i :: c.path }

/-- The contexts of the trees of a collection, tree by tree, each path prefixed by the index of the tree. -/
def prefixed {C : Type u} (contexts : N → List (Ctx V C)) (ns : List N) : List (Ctx V C) :=
  ns.zipIdx.flatMap fun p => (contexts p.1).map (Ctx.under p.2)

theorem ctx_under [TreeNode N V] (i : Nat) :
    (Pos.ctx ∘ Pos.under i : Pos N → Ctx V (List N)) = Ctx.under i ∘ Pos.ctx := rfl

theorem ctx2_under [BinNode N V] (i : Nat) :
    (Pos.ctx2 ∘ Pos.under i : Pos N → Ctx V (Option N × Option N)) = Ctx.under i ∘ Pos.ctx2 := rfl

theorem noChildren_under {C : Type u} (i : Nat) :
    (Ctx.noChildren ∘ Ctx.under i : Ctx V C → Ctx V C) = Ctx.under i ∘ Ctx.noChildren := rfl

/-- A tree of contexts at index `i` is the tree of contexts with `i` put in front of the paths. -/
theorem ctxT_singleton [TreeNode N V] (i : Nat) (t : Tree N) :
    ctxT [i] ([] : List V) t = ((t.located).map Pos.ctx).map (Ctx.under i) := by
  have := map_ctx_withPos t [i] []
  rw [List.map_nil] at this
  rw [← this, Tree.withPos_cons, Tree.map_map, Tree.map_map, ctx_under, Tree.located]

theorem ctxB_singleton [BinNode N V] (i : Nat) (t : BinTree N) :
    ctxB [i] ([] : List V) t = ((t.located).map Pos.ctx2).map (Ctx.under i) := by
  have := map_ctx2_withPos t [i] []
  rw [List.map_nil] at this
  rw [← this, BinTree.withPos_cons, BinTree.map_map, BinTree.map_map, ctx2_under, BinTree.located]

theorem bfs_calls_at [TreeNode N V] (n : N) (h : ArityLt n) (i k : Nat) :
    nthCallE (streamNextE Bfs.ctxAdvance Bfs.ctxGet) k (Bfs.CtxState.new n [i]) =
      .ok (((unfold n).located.levelOrder.map Pos.ctx).map (Ctx.under i))[k]? := by
  refine (Bfs.ctx_calls k _ _ (Bfs.ctxRel_new n [i] h)).trans ?_
  rw [bfsF_singleton, ctxT_singleton, Tree.levelOrder_map, Tree.levelOrder_map]

theorem bfs_binary_calls_at [BinNode N V] (n : N) (i k : Nat) :
    nthCallE (streamNextE Bfs.binCtxAdvance Bfs.ctxGet) k (Bfs.CtxState.binNew n [i]) =
      .ok (((unfold2 n).located.toTree.levelOrder.map Pos.ctx2).map (Ctx.under i))[k]? := by
  refine (Bfs.binCtx_calls k _ _ (Bfs.binCtxRel_new n [i])).trans ?_
  rw [bfsF_singleton, ctxB_singleton, BinTree.toTree_map, BinTree.toTree_map, Tree.levelOrder_map, Tree.levelOrder_map]

theorem preorder_calls_at [TreeNode N V] (n : N) (h : ArityOk n) (i k : Nat) :
    nthCallE (streamNextE Preorder.ctxAdvance Preorder.ctxGet) k (Preorder.CtxState.new n [i]) =
      .ok (((unfold n).located.preorder.map Pos.ctx).map (Ctx.under i))[k]? := by
  refine (nthCallE_spec Preorder.CtxInv Preorder.ctxRem Preorder.ctxNext_spec
    (by simpa [Preorder.CtxInv, Preorder.CtxState.new] using h) k).trans ?_
  rw [← Tree.preorder_map, ← Tree.preorder_map, ← ctxT_singleton]
  simp [Preorder.CtxState.new, Preorder.ctxRem]

theorem preorder_binary_calls_at [BinNode N V] (n : N) (i k : Nat) :
    nthCallE (streamNextE Preorder.binCtxAdvance Preorder.binCtxGet) k (Preorder.BinCtxState.new n [i]) =
      .ok (((unfold2 n).located.toTree.preorder.map Pos.ctx2).map (Ctx.under i))[k]? := by
  refine (nthCallE_spec Preorder.BinCtxInv Preorder.binCtxRem Preorder.binCtxNext_spec
    (by simp [Preorder.BinCtxInv, Preorder.BinCtxState.new]) k).trans ?_
  rw [← Tree.preorder_map, ← Tree.preorder_map, ← BinTree.toTree_map, ← BinTree.toTree_map, ← ctxB_singleton]
  simp [Preorder.BinCtxState.new, Preorder.binCtxRem]

/-- C26, breadth first. -/
theorem C26_bfs [TreeNode N V] (ns : List N) (hl : ns.length ≤ 2 ^ 64) (h : ∀ n ∈ ns, ArityLt n) :
    ∃ s, Coll.attachContext (Coll.new (S := Bfs.State N) ns) = .ok s ∧
      ∀ k, nthCallE (Coll.ctxNext Bfs.CtxState.new Bfs.ctxAdvance Bfs.ctxGet) k s =
        .ok (prefixed (fun n => (unfold n).located.levelOrder.map Pos.ctx) ns)[k]? := by
  refine ⟨_, rfl, fun k => ?_⟩
  refine Coll.ctxCalls _ _ _ (fun n i => ((unfold n).located.levelOrder.map Pos.ctx).map (Ctx.under i)) ns hl
    (fun n hn i k => bfs_calls_at n (h n hn) i k) k

example : (∀ n ∈ sampleTrees, ArityLt n) ∧
    (answersE (Coll.ctxNext Bfs.CtxState.new Bfs.ctxAdvance Bfs.ctxGet) 11 ⟨sampleTrees, usizeMax, none⟩).map
      (·.map (·.map Ctx.placing)) =
    some [some ([0], [0]), some ([0, 0], [0, 1]), some ([0, 1], [0, 2]), some ([0, 0, 0], [0, 1, 3]),
      some ([0, 0, 1], [0, 1, 4]), some ([0, 1, 0], [0, 2, 5]), some ([1], [10]), some ([2], [20]),
      some ([2, 0], [20, 21]), some ([2, 1], [20, 22]), none] :=
  ⟨sampleTrees_arityLt, by decide +kernel⟩

/-- C26, breadth first on binary nodes. -/
theorem C26_bfs_binary [BinNode N V] (ns : List N) (hl : ns.length ≤ 2 ^ 64) :
    ∃ s, Coll.attachContext (Coll.new (S := Bfs.State N) ns) = .ok s ∧
      ∀ k, nthCallE (Coll.ctxNext Bfs.CtxState.binNew Bfs.binCtxAdvance Bfs.ctxGet) k s =
        .ok (prefixed (fun n => (unfold2 n).located.toTree.levelOrder.map Pos.ctx2) ns)[k]? := by
  refine ⟨_, rfl, fun k => ?_⟩
  refine Coll.ctxCalls _ _ _ (fun n i => ((unfold2 n).located.toTree.levelOrder.map Pos.ctx2).map (Ctx.under i)) ns hl
    (fun n hn i k => bfs_binary_calls_at n i k) k

example : (answersE (Coll.ctxNext Bfs.CtxState.binNew Bfs.binCtxAdvance Bfs.ctxGet) 10 ⟨sampleBins, usizeMax, none⟩).map
      (·.map (·.map Ctx.placing)) =
    some [some ([0], [0]), some ([0, 0], [0, 1]), some ([0, 1], [0, 2]), some ([0, 0, 1], [0, 1, 3]),
      some ([0, 1, 0], [0, 2, 4]), some ([1], [10]), some ([2], [20]), some ([2, 1], [20, 22]),
      some ([2, 1, 0], [20, 22, 21]), none] := by decide +kernel

/-- C26, preorder. -/
theorem C26_preorder [TreeNode N V] (ns : List N) (hl : ns.length ≤ 2 ^ 64) (h : ∀ n ∈ ns, ArityOk n) :
    ∃ s, Coll.attachContext (Coll.new (S := Preorder.State N) ns) = .ok s ∧
      ∀ k, nthCallE (Coll.ctxNext Preorder.CtxState.new Preorder.ctxAdvance Preorder.ctxGet) k s =
        .ok (prefixed (fun n => (unfold n).located.preorder.map Pos.ctx) ns)[k]? := by
  refine ⟨_, rfl, fun k => ?_⟩
  refine Coll.ctxCalls _ _ _ (fun n i => ((unfold n).located.preorder.map Pos.ctx).map (Ctx.under i)) ns hl
    (fun n hn i k => preorder_calls_at n (h n hn) i k) k

example : (∀ n ∈ sampleTrees, ArityOk n) ∧
    (answersE (Coll.ctxNext Preorder.CtxState.new Preorder.ctxAdvance Preorder.ctxGet) 11
      ⟨sampleTrees, usizeMax, none⟩).map (·.map (·.map Ctx.brief)) =
    some [some ⟨[0], [0], some 2⟩, some ⟨[0, 0], [0, 1], some 2⟩, some ⟨[0, 0, 0], [0, 1, 3], some 0⟩,
      some ⟨[0, 0, 1], [0, 1, 4], some 0⟩, some ⟨[0, 1], [0, 2], some 1⟩, some ⟨[0, 1, 0], [0, 2, 5], some 0⟩,
      some ⟨[1], [10], some 0⟩, some ⟨[2], [20], some 2⟩, some ⟨[2, 0], [20, 21], some 0⟩,
      some ⟨[2, 1], [20, 22], some 0⟩, none] := by
  exact ⟨sampleTrees_arityOk, by decide +kernel⟩

/-- C26, preorder on binary nodes. -/
theorem C26_preorder_binary [BinNode N V] (ns : List N) (hl : ns.length ≤ 2 ^ 64) :
    ∃ s, Coll.attachContext (Coll.new (S := Preorder.State N) ns) = .ok s ∧
      ∀ k, nthCallE (Coll.ctxNext Preorder.BinCtxState.new Preorder.binCtxAdvance Preorder.binCtxGet) k s =
        .ok (prefixed (fun n => (unfold2 n).located.toTree.preorder.map Pos.ctx2) ns)[k]? := by
  refine ⟨_, rfl, fun k => ?_⟩
  refine Coll.ctxCalls _ _ _ (fun n i => ((unfold2 n).located.toTree.preorder.map Pos.ctx2).map (Ctx.under i)) ns hl
    (fun n hn i k => preorder_binary_calls_at n i k) k

example : (answersE (Coll.ctxNext Preorder.BinCtxState.new Preorder.binCtxAdvance Preorder.binCtxGet) 10 ⟨sampleBins, usizeMax, none⟩).map
      (·.map (·.map Ctx.placing)) =
    some [some ([0], [0]), some ([0, 0], [0, 1]), some ([0, 0, 1], [0, 1, 3]), some ([0, 1], [0, 2]),
      some ([0, 1, 0], [0, 2, 4]), some ([1], [10]), some ([2], [20]), some ([2, 1], [20, 22]),
      some ([2, 1, 0], [20, 22, 21]), none] := by decide +kernel

theorem postorder_calls_at [TreeNode N V] (n : N) (h : ArityOk n) (i k : Nat) :
    nthCallE Postorder.ctxNext k (Postorder.CtxState.new n [i]) =
      .ok (((unfold n).located.postorder.map Pos.ctx).map (Ctx.under i))[k]? := by
  refine (nthCallE_spec Postorder.CtxInv Postorder.ctxRem Postorder.ctxNext_spec
    (by simpa [Postorder.CtxInv, Postorder.CtxState.new] using h) k).trans ?_
  rw [← Tree.postorder_map, ← Tree.postorder_map, ← ctxT_singleton]
  simp [Postorder.CtxState.new, Postorder.ctxRem]

theorem postorder_binary_calls_at [BinNode N V] (n : N) (i k : Nat) :
    nthCallE Postorder.binCtxNext k (Postorder.BinCtxState.new n [i]) =
      .ok (((unfold2 n).located.toTree.postorder.map Pos.ctx2).map (Ctx.under i))[k]? := by
  refine (nthCallE_spec Postorder.BinCtxInv Postorder.binCtxRem Postorder.binCtxNext_spec
    (by simp [Postorder.BinCtxInv, Postorder.BinCtxState.new]) k).trans ?_
  rw [← Tree.postorder_map, ← Tree.postorder_map, ← BinTree.toTree_map, ← BinTree.toTree_map, ← ctxB_singleton]
  simp [Postorder.BinCtxState.new, Postorder.binCtxRem]

theorem postorder_binary_mut_calls_at [BinNode N V] (n : N) (i k : Nat) :
    nthCallE (streamNextE Postorder.mutBinCtxAdvance Postorder.binCtxGet) k (Postorder.BinCtxState.new n [i]) =
      .ok (((unfold2 n).located.toTree.postorder.map Pos.ctx2).map (Ctx.under i))[k]? := by
  refine (nthCallE_spec Postorder.BinCtxInv Postorder.binCtxRem Postorder.mutBinCtxNext_spec
    (by simp [Postorder.BinCtxInv, Postorder.BinCtxState.new]) k).trans ?_
  rw [← Tree.postorder_map, ← Tree.postorder_map, ← BinTree.toTree_map, ← BinTree.toTree_map, ← ctxB_singleton]
  simp [Postorder.BinCtxState.new, Postorder.binCtxRem]

theorem inorder_calls_at [BinNode N V] (n : N) (i k : Nat) :
    nthCallE Inorder.ctxNext k (Inorder.CtxState.new n [i]) =
      .ok (((unfold2 n).located.inorder.map Pos.ctx2).map (Ctx.under i))[k]? := by
  refine (nthCallE_spec Inorder.CtxInv Inorder.ctxRem Inorder.ctxNext_spec
    (by simp [Inorder.CtxInv, Inorder.CtxState.new]) k).trans ?_
  rw [← BinTree.inorder_map, ← BinTree.inorder_map, ← ctxB_singleton]
  simp [Inorder.CtxState.new, Inorder.ctxRem, Inorder.remR, Inorder.inCtx]

theorem postorder_owned_calls_at [TreeNode N V] (n : N) (h : ArityOk n) (i k : Nat) :
    nthCallE (streamNextE Postorder.ownCtxAdvance Postorder.ownCtxGet) k (Postorder.OwnCtxState.new n [i]) =
      .ok (((unfold n).located.postorder.map fun p => p.ctx.noChildren).map (Ctx.under i))[k]? := by
  have := nthCallE_sim (next' := Postorder.ownCtxNext) Postorder.CtxState.own Ctx.noChildren
    (fun s o s1 => Postorder.ownCtxNext_sim s s1 o) k _ _ (postorder_calls_at n h i k)
  rw [← List.getElem?_map, List.map_map, List.map_map] at this
  rw [List.map_map]
  exact this

theorem postorder_binary_owned_calls_at [BinNode N V] (n : N) (i k : Nat) :
    nthCallE (streamNextE Postorder.ownBinCtxAdvance Postorder.ownBinCtxGet) k (Postorder.OwnBinCtxState.new n [i]) =
      .ok (((unfold2 n).located.toTree.postorder.map fun p => p.ctx2.noChildren).map (Ctx.under i))[k]? := by
  have := nthCallE_sim (next' := Postorder.ownBinCtxNext) Postorder.BinCtxState.own Ctx.noChildren
    (fun s o s1 => Postorder.ownBinCtxNext_sim s s1 o) k _ _ (postorder_binary_calls_at n i k)
  rw [← List.getElem?_map, List.map_map, List.map_map] at this
  rw [List.map_map]
  exact this

theorem inorder_owned_calls_at [BinNode N V] (n : N) (i k : Nat) :
    nthCallE (streamNextE Inorder.ownAdvance Inorder.ownGet) k (Inorder.OwnCtxState.new n [i]) =
      .ok (((unfold2 n).located.inorder.map fun p => p.ctx2.noChildren).map (Ctx.under i))[k]? := by
  have := nthCallE_sim (next' := Inorder.ownNext) Inorder.CtxState.own Ctx.noChildren
    (fun s o s1 => Inorder.ownNext_sim s s1 o) k _ _ (inorder_calls_at n i k)
  rw [← List.getElem?_map, List.map_map, List.map_map] at this
  rw [List.map_map]
  exact this

/-- C26, postorder (borrowed and mutably borrowed). -/
theorem C26_postorder [TreeNode N V] (ns : List N) (hl : ns.length ≤ 2 ^ 64) (h : ∀ n ∈ ns, ArityOk n) :
    ∃ s, Coll.attachContext (Coll.new (S := Postorder.State N V) ns) = .ok s ∧
      ∀ k, nthCallE (Coll.ctxNext Postorder.CtxState.new Postorder.ctxAdvance Postorder.ctxGet) k s =
        .ok (prefixed (fun n => (unfold n).located.postorder.map Pos.ctx) ns)[k]? := by
  refine ⟨_, rfl, fun k => ?_⟩
  exact Coll.ctxCalls _ _ _ (fun n i => ((unfold n).located.postorder.map Pos.ctx).map (Ctx.under i)) ns hl
    (fun n hn i k => postorder_calls_at n (h n hn) i k) k

example : (∀ n ∈ sampleTrees, ArityOk n) ∧
    (answersE (Coll.ctxNext Postorder.CtxState.new Postorder.ctxAdvance Postorder.ctxGet) 11 ⟨sampleTrees, usizeMax, none⟩).map
      (·.map (·.map Ctx.placing)) =
    some [some ([0, 0, 0], [0, 1, 3]), some ([0, 0, 1], [0, 1, 4]), some ([0, 0], [0, 1]),
      some ([0, 1, 0], [0, 2, 5]), some ([0, 1], [0, 2]), some ([0], [0]), some ([1], [10]),
      some ([2, 0], [20, 21]), some ([2, 1], [20, 22]), some ([2], [20]), none] :=
  ⟨sampleTrees_arityOk, by decide +kernel⟩

/-- C26, owned postorder. -/
theorem C26_postorder_owned [TreeNode N V] (ns : List N) (hl : ns.length ≤ 2 ^ 64) (h : ∀ n ∈ ns, ArityOk n) :
    ∃ s, Coll.attachContext (Coll.new (S := Postorder.State N V) ns) = .ok s ∧
      ∀ k, nthCallE (Coll.ctxNext Postorder.OwnCtxState.new Postorder.ownCtxAdvance Postorder.ownCtxGet) k s =
        .ok (prefixed (fun n => (unfold n).located.postorder.map fun p => p.ctx.noChildren) ns)[k]? := by
  refine ⟨_, rfl, fun k => ?_⟩
  refine Coll.ctxCalls _ _ _
    (fun n i => ((unfold n).located.postorder.map fun p => p.ctx.noChildren).map (Ctx.under i)) ns hl
    (fun n hn i k => postorder_owned_calls_at n (h n hn) i k) k

example : (∀ n ∈ sampleTrees, ArityOk n) ∧
    (answersE (Coll.ctxNext Postorder.OwnCtxState.new Postorder.ownCtxAdvance Postorder.ownCtxGet) 11 ⟨sampleTrees, usizeMax, none⟩).map
      (·.map (·.map Ctx.placing)) =
    some [some ([0, 0, 0], [0, 1, 3]), some ([0, 0, 1], [0, 1, 4]), some ([0, 0], [0, 1]),
      some ([0, 1, 0], [0, 2, 5]), some ([0, 1], [0, 2]), some ([0], [0]), some ([1], [10]),
      some ([2, 0], [20, 21]), some ([2, 1], [20, 22]), some ([2], [20]), none] :=
  ⟨sampleTrees_arityOk, by decide +kernel⟩

/-- C26, postorder on binary nodes (borrowed). -/
theorem C26_postorder_binary [BinNode N V] (ns : List N) (hl : ns.length ≤ 2 ^ 64) :
    ∃ s, Coll.attachContext (Coll.new (S := Postorder.State N V) ns) = .ok s ∧
      ∀ k, nthCallE (Coll.ctxNext Postorder.BinCtxState.new Postorder.binCtxAdvance Postorder.binCtxGet) k s =
        .ok (prefixed (fun n => (unfold2 n).located.toTree.postorder.map Pos.ctx2) ns)[k]? := by
  refine ⟨_, rfl, fun k => ?_⟩
  exact Coll.ctxCalls _ _ _ (fun n i => ((unfold2 n).located.toTree.postorder.map Pos.ctx2).map (Ctx.under i)) ns hl
    (fun n hn i k => postorder_binary_calls_at n i k) k

example : (answersE (Coll.ctxNext Postorder.BinCtxState.new Postorder.binCtxAdvance Postorder.binCtxGet) 10 ⟨sampleBins, usizeMax, none⟩).map
      (·.map (·.map Ctx.placing)) =
    some [some ([0, 0, 1], [0, 1, 3]), some ([0, 0], [0, 1]), some ([0, 1, 0], [0, 2, 4]),
      some ([0, 1], [0, 2]), some ([0], [0]), some ([1], [10]), some ([2, 1, 0], [20, 22, 21]),
      some ([2, 1], [20, 22]), some ([2], [20]), none] := by decide +kernel

/-- C26, postorder on mutably borrowed binary nodes. -/
theorem C26_postorder_binary_mut [BinNode N V] (ns : List N) (hl : ns.length ≤ 2 ^ 64) :
    ∃ s, Coll.attachContext (Coll.new (S := Postorder.State N V) ns) = .ok s ∧
      ∀ k, nthCallE (Coll.ctxNext Postorder.BinCtxState.new Postorder.mutBinCtxAdvance Postorder.binCtxGet) k s =
        .ok (prefixed (fun n => (unfold2 n).located.toTree.postorder.map Pos.ctx2) ns)[k]? := by
  refine ⟨_, rfl, fun k => ?_⟩
  refine Coll.ctxCalls _ _ _ (fun n i => ((unfold2 n).located.toTree.postorder.map Pos.ctx2).map (Ctx.under i)) ns hl
    (fun n hn i k => postorder_binary_mut_calls_at n i k) k

example : (answersE (Coll.ctxNext Postorder.BinCtxState.new Postorder.mutBinCtxAdvance Postorder.binCtxGet) 10 ⟨sampleBins, usizeMax, none⟩).map
      (·.map (·.map Ctx.placing)) =
    some [some ([0, 0, 1], [0, 1, 3]), some ([0, 0], [0, 1]), some ([0, 1, 0], [0, 2, 4]),
      some ([0, 1], [0, 2]), some ([0], [0]), some ([1], [10]), some ([2, 1, 0], [20, 22, 21]),
      some ([2, 1], [20, 22]), some ([2], [20]), none] := by decide +kernel

/-- C26, owned postorder on binary nodes. -/
theorem C26_postorder_binary_owned [BinNode N V] (ns : List N) (hl : ns.length ≤ 2 ^ 64) :
    ∃ s, Coll.attachContext (Coll.new (S := Postorder.State N V) ns) = .ok s ∧
      ∀ k, nthCallE (Coll.ctxNext Postorder.OwnBinCtxState.new Postorder.ownBinCtxAdvance Postorder.ownBinCtxGet) k s =
        .ok (prefixed (fun n => (unfold2 n).located.toTree.postorder.map fun p => p.ctx2.noChildren) ns)[k]? := by
  refine ⟨_, rfl, fun k => ?_⟩
  refine Coll.ctxCalls _ _ _
    (fun n i => ((unfold2 n).located.toTree.postorder.map fun p => p.ctx2.noChildren).map (Ctx.under i)) ns hl
    (fun n hn i k => postorder_binary_owned_calls_at n i k) k

example : (answersE (Coll.ctxNext Postorder.OwnBinCtxState.new Postorder.ownBinCtxAdvance Postorder.ownBinCtxGet) 10 ⟨sampleBins, usizeMax, none⟩).map
      (·.map (·.map Ctx.placing)) =
    some [some ([0, 0, 1], [0, 1, 3]), some ([0, 0], [0, 1]), some ([0, 1, 0], [0, 2, 4]),
      some ([0, 1], [0, 2]), some ([0], [0]), some ([1], [10]), some ([2, 1, 0], [20, 22, 21]),
      some ([2, 1], [20, 22]), some ([2], [20]), none] := by decide +kernel

/-- C26, inorder (borrowed and mutably borrowed). -/
theorem C26_inorder [BinNode N V] (ns : List N) (hl : ns.length ≤ 2 ^ 64) :
    ∃ s, Coll.attachContext (Coll.new (S := Inorder.State N V) ns) = .ok s ∧
      ∀ k, nthCallE (Coll.ctxNext Inorder.CtxState.new Inorder.ctxAdvance Inorder.ctxGet) k s =
        .ok (prefixed (fun n => (unfold2 n).located.inorder.map Pos.ctx2) ns)[k]? := by
  refine ⟨_, rfl, fun k => ?_⟩
  exact Coll.ctxCalls _ _ _ (fun n i => ((unfold2 n).located.inorder.map Pos.ctx2).map (Ctx.under i)) ns hl
    (fun n hn i k => inorder_calls_at n i k) k

example : (answersE (Coll.ctxNext Inorder.CtxState.new Inorder.ctxAdvance Inorder.ctxGet) 10
      ⟨sampleBins, usizeMax, none⟩).map (·.map (·.map Ctx.brief2)) =
    some [some ⟨[0, 0], [0, 1], some (false, true)⟩, some ⟨[0, 0, 1], [0, 1, 3], some (false, false)⟩,
      some ⟨[0], [0], some (true, true)⟩, some ⟨[0, 1, 0], [0, 2, 4], some (false, false)⟩,
      some ⟨[0, 1], [0, 2], some (true, false)⟩, some ⟨[1], [10], some (false, false)⟩,
      some ⟨[2], [20], some (false, true)⟩, some ⟨[2, 1, 0], [20, 22, 21], some (false, false)⟩,
      some ⟨[2, 1], [20, 22], some (true, false)⟩, none] := by decide +kernel

/-- C26, owned inorder. -/
theorem C26_inorder_owned [BinNode N V] (ns : List N) (hl : ns.length ≤ 2 ^ 64) :
    ∃ s, Coll.attachContext (Coll.new (S := Inorder.State N V) ns) = .ok s ∧
      ∀ k, nthCallE (Coll.ctxNext Inorder.OwnCtxState.new Inorder.ownAdvance Inorder.ownGet) k s =
        .ok (prefixed (fun n => (unfold2 n).located.inorder.map fun p => p.ctx2.noChildren) ns)[k]? := by
  refine ⟨_, rfl, fun k => ?_⟩
  refine Coll.ctxCalls _ _ _
    (fun n i => ((unfold2 n).located.inorder.map fun p => p.ctx2.noChildren).map (Ctx.under i)) ns hl
    (fun n hn i k => inorder_owned_calls_at n i k) k

example : (answersE (Coll.ctxNext Inorder.OwnCtxState.new Inorder.ownAdvance Inorder.ownGet) 10 ⟨sampleBins, usizeMax, none⟩).map
      (·.map (·.map Ctx.placing)) =
    some [some ([0, 0], [0, 1]), some ([0, 0, 1], [0, 1, 3]), some ([0], [0]), some ([0, 1, 0], [0, 2, 4]),
      some ([0, 1], [0, 2]), some ([1], [10]), some ([2], [20]), some ([2, 1, 0], [20, 22, 21]),
      some ([2, 1], [20, 22]), none] := by decide +kernel

/-! ## C41 -/

theorem pull_inner {S : Type w} {O : Type x} (mk : N → S) (next : S → Option O × S) (ns : List N) :
    (Coll.pull mk next ns).2.inner.isSome = (Coll.pull mk next ns).1.isSome := by
  induction ns with
  | nil => rfl
  | cons n ns ih =>
    rw [Coll.pull]
    split
    · rfl
    · exact ih

/-- After a call of `next` there is a current tree exactly if the call returned something. -/
theorem coll_next_inner {S : Type w} {O : Type x} (mk : N → S) (next : S → Option O × S) (s : Coll.State N S) :
    (Coll.next mk next s).2.inner.isSome = (Coll.next mk next s).1.isSome := by
  rw [Coll.next]
  split
  · exact pull_inner mk next _
  · split
    · rfl
    · exact pull_inner mk next _

theorem stateAfter_last {S : Type w} {O : Type x} (next : S → Option O × S) (k : Nat) (s : S) :
    stateAfter next (k + 1) s = (next (stateAfter next k s)).2 := by
  induction k generalizing s with
  | zero => rfl
  | succ k ih => rw [stateAfter, ih]; rfl

/-- The guard of `attach_context`, for any single-tree iterator: with `total` the values the whole collection hands
out, attaching after `k` calls panics exactly if `0 < k ≤ total.length`. -/
theorem coll_guard {S : Type w} {T : Type y} {O : Type x} (mk : N → S) (next : S → Option O × S) (ns : List N)
    (total : List O) (h : ∀ k, nthCall (Coll.next mk next) k (Coll.new ns) = total[k]?) (k : Nat) :
    (0 < k ∧ k ≤ total.length →
      Coll.attachContext (T := T) (stateAfter (Coll.next mk next) k (Coll.new ns)) = .error .attachMidTraversal) ∧
    (¬ (0 < k ∧ k ≤ total.length) →
      ∃ s, Coll.attachContext (T := T) (stateAfter (Coll.next mk next) k (Coll.new ns)) = .ok s) := by
  cases k with
  | zero => exact ⟨fun h => absurd h.1 (by simp), fun _ => ⟨_, rfl⟩⟩
  | succ k =>
    have h1 : (stateAfter (Coll.next mk next) (k + 1) (Coll.new ns)).inner.isSome = total[k]?.isSome := by
      rw [stateAfter_last, coll_next_inner, ← h k, nthCall]
    refine ⟨fun hk => ?_, fun hk => ?_⟩
    · have : k < total.length := hk.2
      rw [Coll.attachContext, h1]
      simp [this]
    · have : ¬ k < total.length := fun hlt => hk ⟨by omega, hlt⟩
      rw [Coll.attachContext, h1]
      simp [this]

/-- C41, breadth first: `attach_context` panics exactly between the first value and the end. -/
theorem C41_bfs [TreeNode N V] {T : Type w} (ns : List N) (k : Nat) :
    (0 < k ∧ k ≤ (ns.flatMap fun n => (treeOf n).levelOrder).length →
      Coll.attachContext (T := T) (stateAfter (Coll.next Bfs.new Bfs.next) k (Coll.new ns)) =
        .error .attachMidTraversal) ∧
    (¬ (0 < k ∧ k ≤ (ns.flatMap fun n => (treeOf n).levelOrder).length) →
      ∃ s, Coll.attachContext (T := T) (stateAfter (Coll.next Bfs.new Bfs.next) k (Coll.new ns)) = .ok s) :=
  coll_guard _ _ ns _ (C25_bfs ns) k

example : ((List.range 13).map fun k => (Coll.attachContext (T := Nat)
      (stateAfter (Coll.next Bfs.new Bfs.next) k (Coll.new sampleTrees))).toBool) =
    [true, false, false, false, false, false, false, false, false, false, false, true, true] := by decide +kernel

/-- C41, preorder. -/
theorem C41_preorder [TreeNode N V] {T : Type w} (ns : List N) (k : Nat) :
    (0 < k ∧ k ≤ (ns.flatMap fun n => (treeOf n).preorder).length →
      Coll.attachContext (T := T) (stateAfter (Coll.next Preorder.new Preorder.next) k (Coll.new ns)) =
        .error .attachMidTraversal) ∧
    (¬ (0 < k ∧ k ≤ (ns.flatMap fun n => (treeOf n).preorder).length) →
      ∃ s, Coll.attachContext (T := T) (stateAfter (Coll.next Preorder.new Preorder.next) k (Coll.new ns)) = .ok s) :=
  coll_guard _ _ ns _ (C25_preorder ns) k

example : ((List.range 13).map fun k => (Coll.attachContext (T := Nat)
      (stateAfter (Coll.next Preorder.new Preorder.next) k (Coll.new sampleTrees))).toBool) =
    [true, false, false, false, false, false, false, false, false, false, false, true, true] := by decide +kernel

/-- C41, postorder. -/
theorem C41_postorder [TreeNode N V] {T : Type w} (ns : List N) (k : Nat) :
    (0 < k ∧ k ≤ (ns.flatMap fun n => (treeOf n).postorder).length →
      Coll.attachContext (T := T) (stateAfter (Coll.next Postorder.new Postorder.next) k (Coll.new ns)) =
        .error .attachMidTraversal) ∧
    (¬ (0 < k ∧ k ≤ (ns.flatMap fun n => (treeOf n).postorder).length) →
      ∃ s, Coll.attachContext (T := T) (stateAfter (Coll.next Postorder.new Postorder.next) k (Coll.new ns)) = .ok s) :=
  coll_guard _ _ ns _ (C25_postorder ns) k

example : ((List.range 13).map fun k => (Coll.attachContext (T := Nat)
      (stateAfter (Coll.next Postorder.new Postorder.next) k (Coll.new sampleTrees))).toBool) =
    [true, false, false, false, false, false, false, false, false, false, false, true, true] := by decide +kernel

/-- C41, inorder. -/
theorem C41_inorder [BinNode N V] {T : Type w} (ns : List N) (k : Nat) :
    (0 < k ∧ k ≤ (ns.flatMap fun n => (binTreeOf n).inorder).length →
      Coll.attachContext (T := T) (stateAfter (Coll.next Inorder.new Inorder.next) k (Coll.new ns)) =
        .error .attachMidTraversal) ∧
    (¬ (0 < k ∧ k ≤ (ns.flatMap fun n => (binTreeOf n).inorder).length) →
      ∃ s, Coll.attachContext (T := T) (stateAfter (Coll.next Inorder.new Inorder.next) k (Coll.new ns)) = .ok s) :=
  coll_guard _ _ ns _ (C25_inorder ns) k

example : ((List.range 12).map fun k => (Coll.attachContext (T := Nat)
      (stateAfter (Coll.next Inorder.new Inorder.next) k (Coll.new sampleBins))).toBool) =
    [true, false, false, false, false, false, false, false, false, false, true, true] := by decide +kernel

end TreeIter
