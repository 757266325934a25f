import Verif.Lemmas.PollColl
import Verif.Props.Collection

/-!
# C50: contexts of collections whose source need not be fused

The source answers with the trees `ns`, then `None`, then `ghosts`.  Up to and including the first `None` of the traversal
nothing of the `ghosts` is seen.
-/

universe u v

namespace TreeIter

variable {N : Type u} {V : Type v}

/-- C50, contexts of a collection, breadth-first. -/
theorem C50_collection_bfs_context [TreeNode N V] (ns : List N) (ghosts : List (Option N)) (hl : ns.length ≤ 2 ^ 64) (h : ∀ n ∈ ns, ArityLt n)
    (k : Nat) (hk : k ≤ (prefixed (fun n => (unfold n).located.levelOrder.map Pos.ctx) ns).length) :
    nthCallE (Poll.sourceCtxNext Bfs.CtxState.new Bfs.ctxAdvance Bfs.ctxGet) k
        (Poll.SourceCtx.new (ns.map some ++ none :: ghosts)) =
      .ok (prefixed (fun n => (unfold n).located.levelOrder.map Pos.ctx) ns)[k]? := by
  obtain ⟨s, hs, h2⟩ := C26_bfs ns hl h
  cases hs
  exact Poll.sourceCtx_calls_of _ _ _ ns ghosts h2 k hk

/-- C50, contexts of a collection, breadth-first, binary nodes. -/
theorem C50_collection_bfs_binary_context [BinNode N V] (ns : List N) (ghosts : List (Option N)) (hl : ns.length ≤ 2 ^ 64)
    (k : Nat) (hk : k ≤ (prefixed (fun n => (unfold2 n).located.toTree.levelOrder.map Pos.ctx2) ns).length) :
    nthCallE (Poll.sourceCtxNext Bfs.CtxState.binNew Bfs.binCtxAdvance Bfs.ctxGet) k
        (Poll.SourceCtx.new (ns.map some ++ none :: ghosts)) =
      .ok (prefixed (fun n => (unfold2 n).located.toTree.levelOrder.map Pos.ctx2) ns)[k]? := by
  obtain ⟨s, hs, h2⟩ := C26_bfs_binary ns hl
  cases hs
  exact Poll.sourceCtx_calls_of _ _ _ ns ghosts h2 k hk

/-- C50, contexts of a collection, preorder. -/
theorem C50_collection_preorder_context [TreeNode N V] (ns : List N) (ghosts : List (Option N)) (hl : ns.length ≤ 2 ^ 64) (h : ∀ n ∈ ns, ArityOk n)
    (k : Nat) (hk : k ≤ (prefixed (fun n => (unfold n).located.preorder.map Pos.ctx) ns).length) :
    nthCallE (Poll.sourceCtxNext Preorder.CtxState.new Preorder.ctxAdvance Preorder.ctxGet) k
        (Poll.SourceCtx.new (ns.map some ++ none :: ghosts)) =
      .ok (prefixed (fun n => (unfold n).located.preorder.map Pos.ctx) ns)[k]? := by
  obtain ⟨s, hs, h2⟩ := C26_preorder ns hl h
  cases hs
  exact Poll.sourceCtx_calls_of _ _ _ ns ghosts h2 k hk

/-- C50, contexts of a collection, preorder, binary nodes. -/
theorem C50_collection_preorder_binary_context [BinNode N V] (ns : List N) (ghosts : List (Option N)) (hl : ns.length ≤ 2 ^ 64)
    (k : Nat) (hk : k ≤ (prefixed (fun n => (unfold2 n).located.toTree.preorder.map Pos.ctx2) ns).length) :
    nthCallE (Poll.sourceCtxNext Preorder.BinCtxState.new Preorder.binCtxAdvance Preorder.binCtxGet) k
        (Poll.SourceCtx.new (ns.map some ++ none :: ghosts)) =
      .ok (prefixed (fun n => (unfold2 n).located.toTree.preorder.map Pos.ctx2) ns)[k]? := by
  obtain ⟨s, hs, h2⟩ := C26_preorder_binary ns hl
  cases hs
  exact Poll.sourceCtx_calls_of _ _ _ ns ghosts h2 k hk

/-- C50, contexts of a collection, postorder, borrowed and mutably borrowed. -/
theorem C50_collection_postorder_context [TreeNode N V] (ns : List N) (ghosts : List (Option N)) (hl : ns.length ≤ 2 ^ 64) (h : ∀ n ∈ ns, ArityOk n)
    (k : Nat) (hk : k ≤ (prefixed (fun n => (unfold n).located.postorder.map Pos.ctx) ns).length) :
    nthCallE (Poll.sourceCtxNext Postorder.CtxState.new Postorder.ctxAdvance Postorder.ctxGet) k
        (Poll.SourceCtx.new (ns.map some ++ none :: ghosts)) =
      .ok (prefixed (fun n => (unfold n).located.postorder.map Pos.ctx) ns)[k]? := by
  obtain ⟨s, hs, h2⟩ := C26_postorder ns hl h
  cases hs
  exact Poll.sourceCtx_calls_of _ _ _ ns ghosts h2 k hk

/-- C50, contexts of a collection, postorder, owned. -/
theorem C50_collection_postorder_owned_context [TreeNode N V] (ns : List N) (ghosts : List (Option N)) (hl : ns.length ≤ 2 ^ 64) (h : ∀ n ∈ ns, ArityOk n)
    (k : Nat) (hk : k ≤ (prefixed (fun n => (unfold n).located.postorder.map fun p => p.ctx.noChildren) ns).length) :
    nthCallE (Poll.sourceCtxNext Postorder.OwnCtxState.new Postorder.ownCtxAdvance Postorder.ownCtxGet) k
        (Poll.SourceCtx.new (ns.map some ++ none :: ghosts)) =
      .ok (prefixed (fun n => (unfold n).located.postorder.map fun p => p.ctx.noChildren) ns)[k]? := by
  obtain ⟨s, hs, h2⟩ := C26_postorder_owned ns hl h
  cases hs
  exact Poll.sourceCtx_calls_of _ _ _ ns ghosts h2 k hk

/-- C50, contexts of a collection, in-order, borrowed and mutably borrowed. -/
theorem C50_collection_inorder_context [BinNode N V] (ns : List N) (ghosts : List (Option N)) (hl : ns.length ≤ 2 ^ 64)
    (k : Nat) (hk : k ≤ (prefixed (fun n => (unfold2 n).located.inorder.map Pos.ctx2) ns).length) :
    nthCallE (Poll.sourceCtxNext Inorder.CtxState.new Inorder.ctxAdvance Inorder.ctxGet) k
        (Poll.SourceCtx.new (ns.map some ++ none :: ghosts)) =
      .ok (prefixed (fun n => (unfold2 n).located.inorder.map Pos.ctx2) ns)[k]? := by
  obtain ⟨s, hs, h2⟩ := C26_inorder ns hl
  cases hs
  exact Poll.sourceCtx_calls_of _ _ _ ns ghosts h2 k hk

/-- C50, contexts of a collection, in-order, owned. -/
theorem C50_collection_inorder_owned_context [BinNode N V] (ns : List N) (ghosts : List (Option N)) (hl : ns.length ≤ 2 ^ 64)
    (k : Nat) (hk : k ≤ (prefixed (fun n => (unfold2 n).located.inorder.map fun p => p.ctx2.noChildren) ns).length) :
    nthCallE (Poll.sourceCtxNext Inorder.OwnCtxState.new Inorder.ownAdvance Inorder.ownGet) k
        (Poll.SourceCtx.new (ns.map some ++ none :: ghosts)) =
      .ok (prefixed (fun n => (unfold2 n).located.inorder.map fun p => p.ctx2.noChildren) ns)[k]? := by
  obtain ⟨s, hs, h2⟩ := C26_inorder_owned ns hl
  cases hs
  exact Poll.sourceCtx_calls_of _ _ _ ns ghosts h2 k hk

/-- A source with two trees, a `None` and a third tree. -/
def ghostSource : List (Option (Tree Nat)) := [some (.node 10 []), some (.node 20 [.node 21 []]), none, some (.node 99 [])]

/-- The third tree is seen when the calls go on after the `None`, and the `None` has taken the number 2. -/
example : (answersE (Poll.sourceCtxNext Preorder.CtxState.new Preorder.ctxAdvance Preorder.ctxGet) 6
      (Poll.SourceCtx.new ghostSource)).map (·.map (·.map Ctx.placing)) =
    some [some ([0], [10]), some ([1], [20]), some ([1, 0], [20, 21]), none, some ([3], [99]), none] := by decide +kernel

example : (answersE (Poll.sourceCtxNext Bfs.CtxState.new Bfs.ctxAdvance Bfs.ctxGet) 4
      (Poll.SourceCtx.new ghostSource)).map (·.map (·.map Ctx.placing)) =
    some [some ([0], [10]), some ([1], [20]), some ([1, 0], [20, 21]), none] := by decide +kernel

example := C50_collection_preorder_context sampleTrees [some (.node 99 [])] (by decide +kernel) sampleTrees_arityOk 3
  (by decide +kernel)

example := C50_collection_bfs_context sampleTrees [none, some (.node 99 [])] (by decide +kernel) sampleTrees_arityLt 9
  (by decide +kernel)

end TreeIter
