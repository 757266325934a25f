import Verif.Lemmas.LazyBin
import Verif.Props.DepthFirst
import Verif.Props.BreadthFirstCtx
import Verif.Props.LazyPipe

/-!
# C47: contexts of infinite binary trees

`SplitNode2` does not require the tree below a node to be finite.  `cut2 d n` holds the nodes down to depth `d`.
-/

universe u v

namespace TreeIter

variable {N : Type u} {V : Type v}

theorem ctx2_list_strip [SplitNode2 N V] (d k : Nat) (h : k < d) (l : List (Pos (Cut2 N))) (l' : List (Pos N))
    (hl : l.map (Pos.map Cut2.node) = l') (hm : ∀ p ∈ l, p.item.budget + p.path.length = d)
    (hk : ∀ p, l'[k]? = some p → p.path.length ≤ k) :
    (l.map Pos.ctx2)[k]?.map Ctx.strip2 = (l'.map Pos.ctx2)[k]? := by
  subst hl
  simp only [List.getElem?_map] at hk ⊢
  cases hp : l[k]? with
  | none => rfl
  | some p =>
    have h1 := hm p (List.mem_of_getElem? hp)
    have h2 := hk (p.map Cut2.node) (by simp [hp])
    simp only [Pos.map] at h2
    simp only [Option.map_some]
    rw [Cut2.ctx_strip p (by omega)]

/-- C47, preorder with contexts, binary nodes: call `k` shows the `k`-th node of the tree cut at any depth above `k`,
with the two slots of the whole tree. -/
theorem C47_preorder_context_binary [SplitNode2 N V] (n : N) :
    ∃ s, Preorder.binAttachContext (Preorder.new n) = .ok s ∧ ∀ k d, k < d →
      nthCallE Preorder.binCtxNext k s = .ok ((cut2 d n).located.toTree.preorder.map Pos.ctx2)[k]? := by
  refine ⟨_, rfl, fun k d h => ?_⟩
  obtain ⟨s, h1, h2⟩ := C11_preorder_context_binary (⟨n, d⟩ : Cut2 N)
  cases h1
  have := nthCallE_lazy Preorder.BinCtxState.strip Ctx.strip2 Preorder.BinCtxState.good Preorder.binCtxNext_strip k
    (s := Preorder.BinCtxState.new (⟨n, d⟩ : Cut2 N) [])
    ⟨by simpa [Preorder.BinCtxState.new] using Nat.succ_le_of_lt h, by simp [Preorder.BinCtxState.new, Deep2],
      by simp [Preorder.BinCtxState.new]⟩
    (h2 k)
  rw [ctx2_list_strip d k h _ (cut2 d n).located.toTree.preorder
    (by rw [← Cut2.unfold_node, located2_map, BinTree.toTree_map, Tree.preorder_map])
    (fun p hp => by simpa using Cut2.budget_pos n d [] [] p hp)
    (fun p hp => preorder2_path_le _ k p hp)] at this
  exact this

/-- C47, breadth-first with contexts, binary nodes. -/
theorem C47_bfs_context_binary [SplitNode2 N V] (n : N) :
    ∃ s, Bfs.binAttachContext (Bfs.new n) = .ok s ∧ ∀ k d, k < d →
      nthCallE Bfs.binCtxNext k s = .ok ((cut2 d n).located.toTree.levelOrder.map Pos.ctx2)[k]? := by
  refine ⟨_, rfl, fun k d h => ?_⟩
  obtain ⟨s, h1, h2⟩ := C14_bfs_context_binary (⟨n, d⟩ : Cut2 N)
  cases h1
  have := nthCallE_lazy Bfs.CtxState.strip2 Ctx.strip2 Bfs.CtxState.good2 Bfs.binCtxNext_strip k
    (s := Bfs.CtxState.binNew (⟨n, d⟩ : Cut2 N) [])
    (by
      obtain ⟨d, rfl⟩ : ∃ e, d = e + 1 := ⟨d - 1, by omega⟩
      simp only [Bfs.CtxState.good2, Bfs.CtxState.binNew, Bool.toNat_true, Nat.add_sub_cancel]
      exact ⟨by simp [Deep2], by simpa using Cut2.kids_budget _ (by simpa using Nat.le_of_lt_succ h)⟩)
    (h2 k)
  rw [ctx2_list_strip d k h _ (cut2 d n).located.toTree.levelOrder
    (by rw [← Cut2.unfold_node, located2_map, BinTree.toTree_map, Tree.levelOrder_map])
    (fun p hp => by simpa using Cut2.budget_pos n d [] [] p ((levelOrder_perm_preorder _).mem_iff.1 hp))
    (fun p hp => levelOrder2_path_le _ k p hp)] at this
  rw [← this]
  congr 1
  obtain ⟨d, rfl⟩ : ∃ e, d = e + 1 := ⟨d - 1, by omega⟩
  simp [Bfs.CtxState.strip2, Bfs.CtxState.binNew, Cut2.val_eq, Cut2.kids_node]

/-- Path, ancestors and children shown on the infinite heap. -/
def heapBrief (c : Ctx Nat (Option BinHeap × Option BinHeap)) : List (List Nat) :=
  [c.path, c.ancestors, (c.children.toList.flatMap fun s => s.1.toList ++ s.2.toList).map BinHeap.index]

example : (answersE Preorder.binCtxNext 3 (Preorder.BinCtxState.new (⟨0⟩ : BinHeap) [])).map (·.map (·.map heapBrief)) =
    some [some [[], [0], [1, 2]], some [[0], [0, 1], [3, 4]], some [[0, 0], [0, 1, 3], [7, 8]]] := by decide +kernel

example : (answersE Bfs.binCtxNext 4 (Bfs.CtxState.binNew (⟨0⟩ : BinHeap) [])).map (·.map (·.map heapBrief)) =
    some [some [[], [0], [1, 2]], some [[0], [0, 1], [3, 4]], some [[1], [0, 2], [5, 6]],
      some [[0, 0], [0, 1, 3], [7, 8]]] := by decide +kernel

example := C47_preorder_context_binary (⟨0⟩ : BinHeap)

example := C47_bfs_context_binary (⟨0⟩ : BinHeap)

end TreeIter
