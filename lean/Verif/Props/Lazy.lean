import Verif.Lemmas.LazyPos
import Verif.Props.DepthFirst
import Verif.Props.BreadthFirstAnc
import Verif.Props.BreadthFirstCtx

/-!
# C47: preorder and breadth-first traversals of infinite trees

`SplitNode` does not require the tree below a node to be finite.  `cut d n` holds the nodes down to depth `d`.
-/

universe u v w

namespace TreeIter

variable {N : Type u} {V : Type v}

/-! ## What the calls return -/

/-- C47, preorder: call `k` returns the `k`-th value of the preorder of the tree cut at any depth above `k`. -/
theorem C47_preorder [SplitNode N V] (n : N) (k d : Nat) (h : k < d) :
    nthCall Preorder.next k (Preorder.new n) = ((cut d n).preorder.map val)[k]? := by
  have := nthCall_lazy Preorder.State.strip (id : V → V) Preorder.State.good Preorder.next_strip k
    (s := Preorder.new (⟨n, d⟩ : Cut N)) ⟨by simpa [Preorder.new] using Nat.succ_le_of_lt h, by simp [Preorder.new, Deep]⟩
  rw [C01_preorder, Cut.treeOf_eq, Tree.preorder_map, Option.map_id, id] at this
  exact this

/-- C47, breadth-first. -/
theorem C47_bfs [SplitNode N V] (n : N) (k d : Nat) (h : k < d) :
    nthCall Bfs.next k (Bfs.new n) = ((cut d n).levelOrder.map val)[k]? := by
  have := nthCall_lazy Bfs.State.strip (id : V → V) Bfs.State.good Bfs.next_lazy k
    (s := Bfs.new (⟨n, d⟩ : Cut N)) ⟨by simpa [Bfs.new] using Nat.succ_le_of_lt h, by simp [Bfs.new, Deep]⟩
  rw [C04_bfs, Cut.treeOf_eq, Tree.levelOrder_map, Option.map_id, id] at this
  exact this

/-- C47, preorder with ancestors. -/
theorem C47_preorder_ancestors [SplitNode N V] (n : N) :
    ∃ s, Preorder.attachAncestors (Preorder.new n) = .ok s ∧ ∀ k d, k < d →
      nthCall Preorder.ancNext k s = ((cut d n).located.preorder.map fun p => p.ancestors.map val)[k]? := by
  refine ⟨_, rfl, fun k d h => ?_⟩
  obtain ⟨s, h1, h2⟩ := C06_preorder_ancestors (⟨n, d⟩ : Cut N)
  cases h1
  have := nthCall_lazy Preorder.AncState.strip (id : List V → List V) Preorder.AncState.good Preorder.ancNext_strip k
    (s := Preorder.AncState.new (⟨n, d⟩ : Cut N))
    ⟨by simpa [Preorder.AncState.new] using Nat.succ_le_of_lt h, by simp [Preorder.AncState.new, Deep]⟩
  rw [h2, Cut.treeOf_eq, Tree.located_map, Tree.preorder_map, Option.map_id, id, List.map_map] at this
  exact this

/-- C47, breadth-first with ancestors; in a finite tree up to the first `None`, see C24. -/
theorem C47_bfs_ancestors [SplitNode N V] (n : N) :
    ∃ s, Bfs.attachAncestors (Bfs.new n) = .ok s ∧ ∀ k d, k < d → k ≤ (cut d n).size →
      nthCallE Bfs.ancNext k s = .ok ((cut d n).located.levelOrder.map fun p => p.ancestors.map val)[k]? := by
  refine ⟨_, rfl, fun k d h hs => ?_⟩
  obtain ⟨s, h1, h2⟩ := C09_bfs_ancestors (⟨n, d⟩ : Cut N)
  cases h1
  have := nthCallE_lazy Bfs.AncState.strip (id : List V → List V) Bfs.AncState.good Bfs.ancNext_strip k
    (s := Bfs.AncState.new (⟨n, d⟩ : Cut N))
    (by
      obtain ⟨d, rfl⟩ : ∃ e, d = e + 1 := ⟨d - 1, by omega⟩
      simp only [Bfs.AncState.good, Bfs.AncState.new, Bool.toNat_true, Nat.add_sub_cancel]
      exact Deep.cons (Cut.kids_budget _ (by simpa using Nat.le_of_lt_succ h)) (by simp [Deep]))
    (h2 k (by rwa [Cut.treeOf_eq, size_map]))
  rw [Cut.treeOf_eq, Tree.located_map, Tree.levelOrder_map, Option.map_id, id, List.map_map] at this
  refine Eq.trans ?_ this
  congr 1
  obtain ⟨d, rfl⟩ : ∃ e, d = e + 1 := ⟨d - 1, by omega⟩
  simp [Bfs.AncState.strip, Bfs.AncState.new, Cut.val_eq, strip, Cut.kids_node]

theorem ctx_list_strip [SplitNode N V] (d k : Nat) (h : k < d) (l : List (Pos (Cut N))) (l' : List (Pos N))
    (hl : l.map (Pos.map Cut.node) = l') (hm : ∀ p ∈ l, p.item.budget + p.path.length = d)
    (hk : ∀ p, l'[k]? = some p → p.path.length ≤ k) :
    (l.map Pos.ctx)[k]?.map Ctx.strip = (l'.map Pos.ctx)[k]? := by
  subst hl
  simp only [List.getElem?_map] at hk ⊢
  cases hp : l[k]? with
  | none => rfl
  | some p =>
    have h1 := hm p (List.mem_of_getElem? hp)
    have h2 := hk (p.map Cut.node) (by simp [hp])
    simp only [Pos.map] at h2
    simp only [Option.map_some]
    rw [Cut.ctx_strip p (by omega)]

/-- C47, preorder with contexts. -/
theorem C47_preorder_context [SplitNode N V] (n : N) (ha : DeepArityOk n) :
    ∃ s, Preorder.attachContext (Preorder.new n) = .ok s ∧ ∀ k d, k < d →
      nthCallE Preorder.ctxNext k s = .ok ((cut d n).located.preorder.map Pos.ctx)[k]? := by
  refine ⟨_, rfl, fun k d h => ?_⟩
  obtain ⟨s, h1, h2⟩ := C10_preorder_context (⟨n, d⟩ : Cut N) (Cut.arity n d _ (ha d))
  cases h1
  have := nthCallE_lazy Preorder.CtxState.strip Ctx.strip Preorder.CtxState.good Preorder.ctxNext_strip k
    (s := Preorder.CtxState.new (⟨n, d⟩ : Cut N) [])
    ⟨by simpa [Preorder.CtxState.new] using Nat.succ_le_of_lt h, by simp [Preorder.CtxState.new, Deep], by simp [Preorder.CtxState.new]⟩
    (h2 k)
  rw [ctx_list_strip d k h _ (cut d n).located.preorder
    (by rw [← Cut.unfold_node, Tree.located_map, Tree.preorder_map])
    (fun p hp => by simpa using Cut.budget_pos n d [] [] p hp)
    (fun p hp => preorder_path_le _ k p hp)] at this
  exact this

/-- C47, breadth-first with contexts. -/
theorem C47_bfs_context [SplitNode N V] (n : N) (ha : DeepArityLt n) :
    ∃ s, Bfs.attachContext (Bfs.new n) = .ok s ∧ ∀ k d, k < d →
      nthCallE Bfs.ctxNext k s = .ok ((cut d n).located.levelOrder.map Pos.ctx)[k]? := by
  refine ⟨_, rfl, fun k d h => ?_⟩
  obtain ⟨s, h1, h2⟩ := C14_bfs_context (⟨n, d⟩ : Cut N) (fun t ht =>
    Nat.lt_of_le_sub_one (by decide) (Cut.arity n d (2 ^ 64 - 1) (fun m hm => Nat.le_sub_one_of_lt (ha d m hm)) t ht))
  cases h1
  have := nthCallE_lazy Bfs.CtxState.strip Ctx.strip Bfs.CtxState.good Bfs.ctxNext_strip k
    (s := Bfs.CtxState.new (⟨n, d⟩ : Cut N) [])
    (by
      obtain ⟨d, rfl⟩ : ∃ e, d = e + 1 := ⟨d - 1, by omega⟩
      simp only [Bfs.CtxState.good, Bfs.CtxState.new, Bool.toNat_true, Nat.add_sub_cancel]
      exact ⟨by simp [Deep], by simpa using Cut.kids_budget _ (by simpa using Nat.le_of_lt_succ h)⟩)
    (h2 k)
  rw [ctx_list_strip d k h _ (cut d n).located.levelOrder
    (by rw [← Cut.unfold_node, Tree.located_map, Tree.levelOrder_map])
    (fun p hp => by simpa using Cut.budget_pos n d [] [] p ((levelOrder_perm_preorder _).mem_iff.1 hp))
    (fun p hp => levelOrder_path_le _ k p hp)] at this
  rw [← this]
  congr 1
  obtain ⟨d, rfl⟩ : ∃ e, d = e + 1 := ⟨d - 1, by omega⟩
  simp [Bfs.CtxState.strip, Bfs.CtxState.new, Cut.val_eq, Cut.kids_node]

/-! ## Consequences -/

/-- C47: the first `d` calls look no deeper than `d` levels. Trees that agree there, whatever their node types,
cannot be told apart. -/
theorem C47_lazy {M : Type w} [SplitNode N V] [SplitNode M V] (n : N) (m : M) (d : Nat)
    (h : (cut d n).map val = (cut d m).map val) (k : Nat) (hk : k < d) :
    nthCall Preorder.next k (Preorder.new n) = nthCall Preorder.next k (Preorder.new m) ∧
      nthCall Bfs.next k (Bfs.new n) = nthCall Bfs.next k (Bfs.new m) := by
  rw [C47_preorder n k d hk, C47_preorder m k d hk, C47_bfs n k d hk, C47_bfs m k d hk, ← Tree.preorder_map,
    ← Tree.preorder_map, ← Tree.levelOrder_map, ← Tree.levelOrder_map, h]
  exact ⟨rfl, rfl⟩

/-- C47: a breadth-first traversal reaches every node, however deep, even if the tree is infinite. -/
theorem C47_bfs_reaches [SplitNode N V] (n m : N) (p : List Nat) (h : below n p = some m) (ha : DeepArityLt n) :
    ∃ s, Bfs.attachContext (Bfs.new n) = .ok s ∧ ∃ k c, nthCallE Bfs.ctxNext k s = .ok (some c) ∧
      c.path = p ∧ c.children = some (kids m) := by
  obtain ⟨s, h1, h2⟩ := C47_bfs_context n ha
  refine ⟨s, h1, ?_⟩
  obtain ⟨q, h3, h4, h5⟩ := mem_cut n m p h
  obtain ⟨k, h6⟩ := List.mem_iff_getElem?.1 h3
  refine ⟨k, Pos.ctx q, ?_, h4, by simp [Pos.ctx, h5]⟩
  rw [h2 k (max p.length (k + 1)) (by omega)]
  obtain ⟨r, hr⟩ := levelOrder_cut p.length (max p.length (k + 1)) (by omega) n
  rw [← hr, List.getElem?_map, List.getElem?_append_left (List.getElem?_eq_some_iff.1 h6).1, h6]
  rfl

theorem size_cut [SplitNode N V] (h : ∀ m : N, kids m ≠ []) (d : Nat) (n : N) : d < (cut d n).size := by
  induction d generalizing n with
  | zero => simp [cut, Tree.size, Tree.sizeL]
  | succ d ih =>
    rw [cut, Tree.size]
    obtain ⟨c, cs, hc⟩ := List.exists_cons_of_ne_nil (h n)
    have := ih c
    rw [hc, List.map_cons, Tree.sizeL]
    omega

/-- C47: where every node has a child, the traversals never end. -/
theorem C47_endless [SplitNode N V] (h : ∀ m : N, kids m ≠ []) (n : N) (k : Nat) :
    nthCall Preorder.next k (Preorder.new n) ≠ none ∧ nthCall Bfs.next k (Bfs.new n) ≠ none := by
  have hs := size_cut h (k + 1) n
  have hl : (cut (k + 1) n).levelOrder.length = (cut (k + 1) n).size := by
    rw [← bfsF_singleton, bfsF_length]
    simp
  have hp : (cut (k + 1) n).preorder.length = (cut (k + 1) n).size := by
    rw [← hl, (levelOrder_perm_preorder _).length_eq]
  rw [C47_preorder n k (k + 1) (by omega), C47_bfs n k (k + 1) (by omega)]
  simp only [ne_eq, List.getElem?_eq_none_iff, List.length_map, hl, hp]
  omega

/-! ## An infinite tree -/

/-- The nodes of the infinite heap: node `i` has the children `2 i + 1` and `2 i + 2`. -/
structure Heap where
  index : Nat
  deriving DecidableEq

instance : SplitNode Heap Nat where
  split h := (h.index, [⟨2 * h.index + 1⟩, ⟨2 * h.index + 2⟩])

example : answers Preorder.next 5 (Preorder.new (⟨0⟩ : Heap)) = [some 0, some 1, some 3, some 7, some 15] ∧
    answers Bfs.next 7 (Bfs.new (⟨0⟩ : Heap)) = (List.range 7).map some := by decide +kernel

theorem heap_arity (d : Nat) (n : Heap) : ∀ m ∈ (cut d n).preorder, (kids m).length = 2 := fun _ _ => rfl

theorem heap_arityOk : DeepArityOk (⟨0⟩ : Heap) := fun d m hm => by rw [heap_arity d _ m hm]; decide

theorem heap_arityLt : DeepArityLt (⟨0⟩ : Heap) := fun d m hm => by rw [heap_arity d _ m hm]; decide

example := C47_preorder (⟨0⟩ : Heap) 3 4 (by decide)

example := C47_bfs (⟨0⟩ : Heap) 3 4 (by decide)

example := C47_preorder_context (⟨0⟩ : Heap) heap_arityOk

example := C47_bfs_context (⟨0⟩ : Heap) heap_arityLt

example := C47_lazy (⟨0⟩ : Heap) (Tree.node 0 [.node 1 [.node 3 [], .node 4 [.node 9 []]], .node 2 [.node 5 [], .node 6 []]]) 2 rfl 1 (by decide)

example := C47_bfs_reaches (⟨0⟩ : Heap) ⟨5⟩ [1, 0] rfl heap_arityLt

/-- The hypotheses of the context theorems hold of the heap. -/
example : DeepArityOk (⟨0⟩ : Heap) ∧ DeepArityLt (⟨0⟩ : Heap) ∧ below (⟨0⟩ : Heap) [1, 0] = some ⟨5⟩ ∧
    ∀ m : Heap, kids m ≠ [] :=
  ⟨fun d m hm => by rw [heap_arity d _ m hm]; decide, fun d m hm => by rw [heap_arity d _ m hm]; decide, rfl,
    fun m => by simp [kids, split]⟩

theorem heap_preorder_odd (k a : Nat) (st : List (List Heap)) :
    ∃ b, nthCall Preorder.next k (⟨none, kids (⟨a⟩ : Heap) :: st⟩ : Preorder.State Heap) = some (2 * b + 1) := by
  induction k generalizing a st with
  | zero => exact ⟨a, rfl⟩
  | succ k ih => exact ih (2 * a + 1) ([⟨2 * a + 2⟩] :: st)

/-- In contrast, a preorder traversal of the heap never reaches the right child of the root. -/
theorem C47_preorder_misses :
    nthCall Bfs.next 2 (Bfs.new (⟨0⟩ : Heap)) = some 2 ∧
      ∀ k, nthCall Preorder.next k (Preorder.new (⟨0⟩ : Heap)) ≠ some 2 := by
  refine ⟨rfl, fun k => ?_⟩
  cases k with
  | zero => decide
  | succ k =>
    obtain ⟨b, hb⟩ := heap_preorder_odd k 0 []
    have : nthCall Preorder.next (k + 1) (Preorder.new (⟨0⟩ : Heap)) = some (2 * b + 1) := hb
    rw [this]
    simp only [ne_eq, Option.some.injEq]
    omega

end TreeIter
