import Verif.Lemmas.FailSource
import Verif.Props.Collection
import Verif.Props.Fail

/-!
# C76: traversals of collections when panics of the collection's iterator are caught
-/

universe u v

namespace TreeIter

variable {N : Type u} {V : Type v}

/-- A collection whose iterator panics before, between and after two trees. -/
def panicTrees : List (Option (Tree Nat)) := [none, some sampleTree, none, some (.node 7 [.node 8 []]), none]

/-- The same for binary trees. -/
def panicBins : List (Option (BinTree Nat)) :=
  [none, some sampleBin, none, some (.node 7 none (some (.node 8 none none))), none]

theorem panicTrees_arityLt : ∀ n, some n ∈ panicTrees → ArityLt n := by
  intro n hn
  have : n = sampleTree ∨ n = .node 7 [.node 8 []] := by simpa [panicTrees] using hn
  rcases this with rfl | rfl
  · exact sampleTree_arityLt
  · intro m hm
    refine Nat.lt_of_le_of_lt ?_ (by decide : 1 < 2 ^ 64)
    revert m
    decide +kernel

theorem panicTrees_arity : ∀ n, some n ∈ panicTrees → ArityOk n := fun n hn m hm =>
  Nat.le_of_lt (panicTrees_arityLt n hn m hm)

/-! ## Without context

Both the collection's iterator and `get_value_and_children` may panic. -/

/-- C76, preorder. -/
theorem C76_preorder [TreeNode N V] (bad : N → Bool) (ns : List (Option N)) (k : Nat) :
    nthCall (Fail.srcNext Preorder.new (Fail.preNext bad)) k (Coll.new ns) =
      (sourceReplies (fun n _ => ((unfold n).crop bad).preorder.map (replyAt bad val)) 0 ns)[k]? :=
  Fail.srcCalls _ _ _ ns (C62_preorder bad) k

example : answers (Fail.srcNext Preorder.new (Fail.preNext sampleBad)) 11 (Coll.new panicTrees) =
    [some none, some (some 0), some none, some (some 2), some none, some none, some (some 7), some (some 8), some
      none, none, none] := by decide +kernel

/-- C76, postorder. -/
theorem C76_postorder [TreeNode N V] (bad : N → Bool) (ns : List (Option N)) (k : Nat) :
    nthCall (Fail.srcNext Postorder.new (Fail.postNext bad)) k (Coll.new ns) =
      (sourceReplies (fun n _ => ((unfold n).crop bad).postorder.map (replyAt bad val)) 0 ns)[k]? :=
  Fail.srcCalls _ _ _ ns (C62_postorder bad) k

example : answers (Fail.srcNext Postorder.new (Fail.postNext sampleBad)) 11 (Coll.new panicTrees) =
    [some none, some none, some none, some (some 2), some (some 0), some none, some (some 8), some (some 7), some
      none, none, none] := by decide +kernel

/-- C76, breadth first. -/
theorem C76_bfs [TreeNode N V] (bad : N → Bool) (ns : List (Option N)) (k : Nat) :
    nthCall (Fail.srcNext Bfs.new (Fail.bfsNext bad)) k (Coll.new ns) =
      (sourceReplies (fun n _ => ((unfold n).crop bad).levelOrder.map (replyAt bad val)) 0 ns)[k]? :=
  Fail.srcCalls _ _ _ ns (C62_bfs bad) k

example : answers (Fail.srcNext Bfs.new (Fail.bfsNext sampleBad)) 11 (Coll.new panicTrees) =
    [some none, some (some 0), some none, some (some 2), some none, some none, some (some 7), some (some 8), some
      none, none, none] := by decide +kernel

/-- C76, in-order. -/
theorem C76_inorder [BinNode N V] (bad : N → Bool) (ns : List (Option N)) (k : Nat) :
    nthCall (Fail.srcNext Inorder.new (Fail.inNext bad)) k (Coll.new ns) =
      (sourceReplies (fun n _ => ((unfold2 n).crop bad).inorder.map (replyAt bad val2)) 0 ns)[k]? :=
  Fail.srcCalls _ _ _ ns (C62_inorder bad) k

example : answers (Fail.srcNext Inorder.new (Fail.inNext sampleBadBin)) 11 (Coll.new panicBins) =
    [some none, some (some 1), some none, some (some 0), some none, some none, some (some 7), some (some 8), some
      none, none, none] := by decide +kernel

/-! ## Contexts: panics of `get_value_and_children` too

In-order contexts only; the others are wrong for a single tree already (C62). -/

theorem fail_inorder_calls_at [BinNode N V] (bad : N → Bool) (n : N) (i k : Nat) :
    nthCallE (Fail.inCtxNext bad) k (Inorder.CtxState.new n [i]) =
      .ok ((((unfold2 n).crop bad).located.inorder.map (replyPos bad Pos.ctx2)).map (Option.map (Ctx.under i)))[k]? := by
  have e : (((unfold2 n).crop bad).located.inorder.map (replyPos bad Pos.ctx2)).map (Option.map (Ctx.under (V := V) i)) =
      (Fail.failB bad [i] [] (unfold2 n)).inorder := by
    rw [← List.map_nil (f := (val2 : N → V)), ← Fail.replyPos_withPos2, BinTree.withPos_cons, BinTree.map_map, BinTree.inorder_map, List.map_map,
      BinTree.located]
    congr 1
    funext p
    by_cases hb : bad p.item <;> simp [replyPos, Pos.under, hb, Pos.ctx2, Ctx.under]
  rw [nthCallE_spec Inorder.CtxInv (Fail.inCtxRem bad) (Fail.inCtxNext_spec bad)
    (by simp [Inorder.CtxInv, Inorder.CtxState.new]), e]
  simp [Inorder.CtxState.new, Fail.inCtxRem, Fail.remC, Fail.inC]

theorem fail_inorder_owned_calls_at [BinNode N V] (bad : N → Bool) (n : N) (i k : Nat) :
    nthCallE (Fail.inOwnNext bad) k (Inorder.OwnCtxState.new n [i]) =
      .ok ((((unfold2 n).crop bad).located.inorder.map (replyPos bad fun p => p.ctx2.noChildren)).map
        (Option.map (Ctx.under i)))[k]? := by
  have := nthCallE_sim (next' := Fail.inOwnNext bad) Inorder.CtxState.own (Option.map Ctx.noChildren)
    (fun s o s1 => Fail.inOwnNext_sim bad s s1 o) k _ _ (fail_inorder_calls_at bad n i k)
  have e : (Option.map Ctx.noChildren ∘ Option.map (Ctx.under i)) ∘ replyPos bad (Pos.ctx2 (N := N) (V := V)) =
      Option.map (Ctx.under i) ∘ replyPos bad fun p => p.ctx2.noChildren := by
    funext p
    simp only [Function.comp, replyPos]
    split <;> rfl
  rw [← List.getElem?_map, List.map_map, List.map_map, e] at this
  rw [List.map_map]
  exact this

/-- C76, in-order contexts. -/
theorem C76_inorder_context [BinNode N V] (bad : N → Bool) (ns : List (Option N)) (hl : (ns.filterMap id).length ≤ 2 ^ 64) :
    ∃ s, Coll.attachContext (Coll.new (S := Inorder.State N V) ns) = .ok s ∧
      ∀ k, nthCallE (Fail.srcCtxNext (fun n p => some (Inorder.CtxState.new n p)) (Fail.inCtxNext bad)) k s =
        .ok (sourceReplies (fun n i =>
          (((unfold2 n).crop bad).located.inorder.map (replyPos bad Pos.ctx2)).map (Option.map (Ctx.under i))) 0 ns)[k]? :=
  ⟨_, rfl, Fail.srcCtxCalls _ _ _ ns hl fun n _ i k => fail_inorder_calls_at bad n i k⟩

example : (answersE (Fail.srcCtxNext (fun n p => some (Inorder.CtxState.new n p)) (Fail.inCtxNext sampleBadBin)) 11
      ⟨panicBins, usizeMax, none⟩).map (·.map (·.map (·.map Ctx.placing))) =
    some [some none, some (some ([0, 0], [0, 1])), some none, some (some ([0], [0])), some none, some none, some (some
      ([1], [7])), some (some ([1, 1], [7, 8])), some none, none, none] := by decide +kernel

/-- C76, in-order contexts of owned nodes. -/
theorem C76_inorder_context_owned [BinNode N V] (bad : N → Bool) (ns : List (Option N))
    (hl : (ns.filterMap id).length ≤ 2 ^ 64) :
    ∃ s, Coll.attachContext (Coll.new (S := Inorder.State N V) ns) = .ok s ∧
      ∀ k, nthCallE (Fail.srcCtxNext (fun n p => some (Inorder.OwnCtxState.new n p)) (Fail.inOwnNext bad)) k s =
        .ok (sourceReplies (fun n i => (((unfold2 n).crop bad).located.inorder.map
          (replyPos bad fun p => p.ctx2.noChildren)).map (Option.map (Ctx.under i))) 0 ns)[k]? :=
  ⟨_, rfl, Fail.srcCtxCalls _ _ _ ns hl fun n _ i k => fail_inorder_owned_calls_at bad n i k⟩

example : (answersE (Fail.srcCtxNext (fun n p => some (Inorder.OwnCtxState.new n p)) (Fail.inOwnNext sampleBadBin)) 11
      ⟨panicBins, usizeMax, none⟩).map (·.map (·.map (·.map Ctx.placing))) =
    some [some none, some (some ([0, 0], [0, 1])), some none, some (some ([0], [0])), some none, some none, some (some
      ([1], [7])), some (some ([1, 1], [7, 8])), some none, none, none] := by decide +kernel

/-! ## Contexts: panics of the collection's iterator only

For breadth-first contexts `get_value_and_children` of the root of a tree, which the constructor calls, may panic too; such a tree
takes one call and keeps its number. -/

/-- C76, preorder contexts. -/
theorem C76_preorder_context [TreeNode N V] (ns : List (Option N)) (hl : (ns.filterMap id).length ≤ 2 ^ 64) (h : ∀ n, some n ∈ ns → ArityOk n) :
    ∃ s, Coll.attachContext (Coll.new (S := Preorder.State N) ns) = .ok s ∧
      ∀ k, nthCallE (Fail.srcCtxNext (fun n p => some (Preorder.CtxState.new n p))
          (Fail.lift (streamNextE Preorder.ctxAdvance Preorder.ctxGet))) k s =
        .ok (sourceReplies (fun n i =>
          (((unfold n).located.preorder.map Pos.ctx).map (Ctx.under (V := V) i)).map some) 0 ns)[k]? :=
  ⟨_, rfl, Fail.srcCtxCalls _ _ _ ns hl fun n hn i => Fail.lift_calls _ _ _ (preorder_calls_at n (h n hn) i)⟩

example : (∀ n, some n ∈ panicTrees → ArityOk n) ∧ (answersE (Fail.srcCtxNext (fun n p => some (Preorder.CtxState.new n p))
      (Fail.lift (streamNextE Preorder.ctxAdvance Preorder.ctxGet))) 12 ⟨panicTrees, usizeMax, none⟩).map
      (·.map (·.map (·.map Ctx.placing))) =
    some [some none, some (some ([0], [0])), some (some ([0, 0], [0, 1])), some (some ([0, 0, 0], [0, 1, 3])), some
      (some ([0, 0, 1], [0, 1, 4])), some (some ([0, 1], [0, 2])), some (some ([0, 1, 0], [0, 2, 5])), some none, some
      (some ([1], [7])), some (some ([1, 0], [7, 8])), some none, none] :=
  ⟨panicTrees_arity, by decide +kernel⟩

/-- C76, preorder contexts of binary nodes. -/
theorem C76_preorder_binary_context [BinNode N V] (ns : List (Option N)) (hl : (ns.filterMap id).length ≤ 2 ^ 64) :
    ∃ s, Coll.attachContext (Coll.new (S := Preorder.State N) ns) = .ok s ∧
      ∀ k, nthCallE (Fail.srcCtxNext (fun n p => some (Preorder.BinCtxState.new n p))
          (Fail.lift (streamNextE Preorder.binCtxAdvance Preorder.binCtxGet))) k s =
        .ok (sourceReplies (fun n i =>
          (((unfold2 n).located.toTree.preorder.map Pos.ctx2).map (Ctx.under (V := V) i)).map some) 0 ns)[k]? :=
  ⟨_, rfl, Fail.srcCtxCalls _ _ _ ns hl fun n _ i => Fail.lift_calls _ _ _ (preorder_binary_calls_at n i)⟩

example : (answersE (Fail.srcCtxNext (fun n p => some (Preorder.BinCtxState.new n p))
      (Fail.lift (streamNextE Preorder.binCtxAdvance Preorder.binCtxGet))) 12 ⟨panicBins, usizeMax, none⟩).map
      (·.map (·.map (·.map Ctx.placing))) =
    some [some none, some (some ([0], [0])), some (some ([0, 0], [0, 1])), some (some ([0, 0, 1], [0, 1, 3])), some
      (some ([0, 1], [0, 2])), some (some ([0, 1, 0], [0, 2, 4])), some none, some (some ([1], [7])), some (some ([1,
      1], [7, 8])), some none, none, none] := by decide +kernel

/-- C76, postorder contexts. -/
theorem C76_postorder_context [TreeNode N V] (ns : List (Option N)) (hl : (ns.filterMap id).length ≤ 2 ^ 64) (h : ∀ n, some n ∈ ns → ArityOk n) :
    ∃ s, Coll.attachContext (Coll.new (S := Postorder.State N V) ns) = .ok s ∧
      ∀ k, nthCallE (Fail.srcCtxNext (fun n p => some (Postorder.CtxState.new n p))
          (Fail.lift (streamNextE Postorder.ctxAdvance Postorder.ctxGet))) k s =
        .ok (sourceReplies (fun n i =>
          (((unfold n).located.postorder.map Pos.ctx).map (Ctx.under (V := V) i)).map some) 0 ns)[k]? :=
  ⟨_, rfl, Fail.srcCtxCalls _ _ _ ns hl fun n hn i => Fail.lift_calls _ _ _ (postorder_calls_at n (h n hn) i)⟩

example : (∀ n, some n ∈ panicTrees → ArityOk n) ∧ (answersE (Fail.srcCtxNext (fun n p => some (Postorder.CtxState.new n p))
      (Fail.lift (streamNextE Postorder.ctxAdvance Postorder.ctxGet))) 12 ⟨panicTrees, usizeMax, none⟩).map
      (·.map (·.map (·.map Ctx.placing))) =
    some [some none, some (some ([0, 0, 0], [0, 1, 3])), some (some ([0, 0, 1], [0, 1, 4])), some (some ([0, 0], [0,
      1])), some (some ([0, 1, 0], [0, 2, 5])), some (some ([0, 1], [0, 2])), some (some ([0], [0])), some none, some
      (some ([1, 0], [7, 8])), some (some ([1], [7])), some none, none] :=
  ⟨panicTrees_arity, by decide +kernel⟩

/-- C76, postorder contexts of owned nodes. -/
theorem C76_postorder_owned_context [TreeNode N V] (ns : List (Option N)) (hl : (ns.filterMap id).length ≤ 2 ^ 64) (h : ∀ n, some n ∈ ns → ArityOk n) :
    ∃ s, Coll.attachContext (Coll.new (S := Postorder.State N V) ns) = .ok s ∧
      ∀ k, nthCallE (Fail.srcCtxNext (fun n p => some (Postorder.OwnCtxState.new n p))
          (Fail.lift (streamNextE Postorder.ownCtxAdvance Postorder.ownCtxGet))) k s =
        .ok (sourceReplies (fun n i =>
          (((unfold n).located.postorder.map fun p => p.ctx.noChildren).map (Ctx.under (V := V) i)).map some) 0 ns)[k]? :=
  ⟨_, rfl, Fail.srcCtxCalls _ _ _ ns hl fun n hn i => Fail.lift_calls _ _ _ (postorder_owned_calls_at n (h n hn) i)⟩

example : (∀ n, some n ∈ panicTrees → ArityOk n) ∧ (answersE (Fail.srcCtxNext (fun n p => some (Postorder.OwnCtxState.new n p))
      (Fail.lift (streamNextE Postorder.ownCtxAdvance Postorder.ownCtxGet))) 12 ⟨panicTrees, usizeMax, none⟩).map
      (·.map (·.map (·.map Ctx.placing))) =
    some [some none, some (some ([0, 0, 0], [0, 1, 3])), some (some ([0, 0, 1], [0, 1, 4])), some (some ([0, 0], [0,
      1])), some (some ([0, 1, 0], [0, 2, 5])), some (some ([0, 1], [0, 2])), some (some ([0], [0])), some none, some
      (some ([1, 0], [7, 8])), some (some ([1], [7])), some none, none] :=
  ⟨panicTrees_arity, by decide +kernel⟩

/-- C76, postorder contexts of borrowed binary nodes. -/
theorem C76_postorder_binary_context [BinNode N V] (ns : List (Option N)) (hl : (ns.filterMap id).length ≤ 2 ^ 64) :
    ∃ s, Coll.attachContext (Coll.new (S := Postorder.State N V) ns) = .ok s ∧
      ∀ k, nthCallE (Fail.srcCtxNext (fun n p => some (Postorder.BinCtxState.new n p))
          (Fail.lift (streamNextE Postorder.binCtxAdvance Postorder.binCtxGet))) k s =
        .ok (sourceReplies (fun n i =>
          (((unfold2 n).located.toTree.postorder.map Pos.ctx2).map (Ctx.under (V := V) i)).map some) 0 ns)[k]? :=
  ⟨_, rfl, Fail.srcCtxCalls _ _ _ ns hl fun n _ i => Fail.lift_calls _ _ _ (postorder_binary_calls_at n i)⟩

example : (answersE (Fail.srcCtxNext (fun n p => some (Postorder.BinCtxState.new n p))
      (Fail.lift (streamNextE Postorder.binCtxAdvance Postorder.binCtxGet))) 12 ⟨panicBins, usizeMax, none⟩).map
      (·.map (·.map (·.map Ctx.placing))) =
    some [some none, some (some ([0, 0, 1], [0, 1, 3])), some (some ([0, 0], [0, 1])), some (some ([0, 1, 0], [0, 2,
      4])), some (some ([0, 1], [0, 2])), some (some ([0], [0])), some none, some (some ([1, 1], [7, 8])), some (some
      ([1], [7])), some none, none, none] := by decide +kernel

/-- C76, postorder contexts of mutably borrowed binary nodes. -/
theorem C76_postorder_binary_mut_context [BinNode N V] (ns : List (Option N)) (hl : (ns.filterMap id).length ≤ 2 ^ 64) :
    ∃ s, Coll.attachContext (Coll.new (S := Postorder.State N V) ns) = .ok s ∧
      ∀ k, nthCallE (Fail.srcCtxNext (fun n p => some (Postorder.BinCtxState.new n p))
          (Fail.lift (streamNextE Postorder.mutBinCtxAdvance Postorder.binCtxGet))) k s =
        .ok (sourceReplies (fun n i =>
          (((unfold2 n).located.toTree.postorder.map Pos.ctx2).map (Ctx.under (V := V) i)).map some) 0 ns)[k]? :=
  ⟨_, rfl, Fail.srcCtxCalls _ _ _ ns hl fun n _ i => Fail.lift_calls _ _ _ (postorder_binary_mut_calls_at n i)⟩

example : (answersE (Fail.srcCtxNext (fun n p => some (Postorder.BinCtxState.new n p))
      (Fail.lift (streamNextE Postorder.mutBinCtxAdvance Postorder.binCtxGet))) 12 ⟨panicBins, usizeMax, none⟩).map
      (·.map (·.map (·.map Ctx.placing))) =
    some [some none, some (some ([0, 0, 1], [0, 1, 3])), some (some ([0, 0], [0, 1])), some (some ([0, 1, 0], [0, 2,
      4])), some (some ([0, 1], [0, 2])), some (some ([0], [0])), some none, some (some ([1, 1], [7, 8])), some (some
      ([1], [7])), some none, none, none] := by decide +kernel

/-- C76, postorder contexts of owned binary nodes. -/
theorem C76_postorder_binary_owned_context [BinNode N V] (ns : List (Option N)) (hl : (ns.filterMap id).length ≤ 2 ^ 64) :
    ∃ s, Coll.attachContext (Coll.new (S := Postorder.State N V) ns) = .ok s ∧
      ∀ k, nthCallE (Fail.srcCtxNext (fun n p => some (Postorder.OwnBinCtxState.new n p))
          (Fail.lift (streamNextE Postorder.ownBinCtxAdvance Postorder.ownBinCtxGet))) k s =
        .ok (sourceReplies (fun n i =>
          (((unfold2 n).located.toTree.postorder.map fun p => p.ctx2.noChildren).map (Ctx.under (V := V) i)).map some) 0 ns)[k]? :=
  ⟨_, rfl, Fail.srcCtxCalls _ _ _ ns hl fun n _ i => Fail.lift_calls _ _ _ (postorder_binary_owned_calls_at n i)⟩

example : (answersE (Fail.srcCtxNext (fun n p => some (Postorder.OwnBinCtxState.new n p))
      (Fail.lift (streamNextE Postorder.ownBinCtxAdvance Postorder.ownBinCtxGet))) 12 ⟨panicBins, usizeMax, none⟩).map
      (·.map (·.map (·.map Ctx.placing))) =
    some [some none, some (some ([0, 0, 1], [0, 1, 3])), some (some ([0, 0], [0, 1])), some (some ([0, 1, 0], [0, 2,
      4])), some (some ([0, 1], [0, 2])), some (some ([0], [0])), some none, some (some ([1, 1], [7, 8])), some (some
      ([1], [7])), some none, none, none] := by decide +kernel

/-- C76, breadth-first contexts. -/
theorem C76_bfs_context [TreeNode N V] (bad : N → Bool) (ns : List (Option N))
    (hl : (ns.filterMap id).length ≤ 2 ^ 64) (h : ∀ n, some n ∈ ns → ArityLt n) :
    ∃ s, Coll.attachContext (Coll.new (S := Bfs.State N) ns) = .ok s ∧
      ∀ k, nthCallE (Fail.srcCtxNext (fun n p => if bad n then none else some (Bfs.CtxState.new n p))
          (Fail.lift (streamNextE Bfs.ctxAdvance Bfs.ctxGet))) k s =
        .ok (sourceReplies (fun n i => if bad n then [none] else
          (((unfold n).located.levelOrder.map Pos.ctx).map (Ctx.under (V := V) i)).map some) 0 ns)[k]? := by
  refine ⟨_, rfl, Fail.srcCtxCalls _ _ _ ns hl fun n hn i => ?_⟩
  by_cases hb : bad n
  · simp [hb]
  · simp only [hb, Bool.false_eq_true, if_false]
    exact Fail.lift_calls _ _ _ (bfs_calls_at n (h n hn) i)

example : (∀ n, some n ∈ panicTrees → ArityLt n) ∧ (answersE (Fail.srcCtxNext (fun (n : Tree Nat) p => if val n == 7 then none else some (Bfs.CtxState.new n p))
      (Fail.lift (streamNextE Bfs.ctxAdvance Bfs.ctxGet))) 12 ⟨panicTrees, usizeMax, none⟩).map
      (·.map (·.map (·.map Ctx.placing))) =
    some [some none, some (some ([0], [0])), some (some ([0, 0], [0, 1])), some (some ([0, 1], [0, 2])), some (some
      ([0, 0, 0], [0, 1, 3])), some (some ([0, 0, 1], [0, 1, 4])), some (some ([0, 1, 0], [0, 2, 5])), some none, some
      none, some none, none, none] :=
  ⟨panicTrees_arityLt, by decide +kernel⟩

/-- C76, breadth-first contexts of binary nodes. -/
theorem C76_bfs_binary_context [BinNode N V] (bad : N → Bool) (ns : List (Option N))
    (hl : (ns.filterMap id).length ≤ 2 ^ 64) :
    ∃ s, Coll.attachContext (Coll.new (S := Bfs.State N) ns) = .ok s ∧
      ∀ k, nthCallE (Fail.srcCtxNext (fun n p => if bad n then none else some (Bfs.CtxState.binNew n p))
          (Fail.lift (streamNextE Bfs.binCtxAdvance Bfs.ctxGet))) k s =
        .ok (sourceReplies (fun n i => if bad n then [none] else
          (((unfold2 n).located.toTree.levelOrder.map Pos.ctx2).map (Ctx.under (V := V) i)).map some) 0 ns)[k]? := by
  refine ⟨_, rfl, Fail.srcCtxCalls _ _ _ ns hl fun n _ i => ?_⟩
  by_cases hb : bad n
  · simp [hb]
  · simp only [hb, Bool.false_eq_true, if_false]
    exact Fail.lift_calls _ _ _ (bfs_binary_calls_at n i)

example : (answersE (Fail.srcCtxNext (fun (n : BinTree Nat) p => if val2 n == 7 then none else some (Bfs.CtxState.binNew n p))
      (Fail.lift (streamNextE Bfs.binCtxAdvance Bfs.ctxGet))) 12 ⟨panicBins, usizeMax, none⟩).map
      (·.map (·.map (·.map Ctx.placing))) =
    some [some none, some (some ([0], [0])), some (some ([0, 0], [0, 1])), some (some ([0, 1], [0, 2])), some (some
      ([0, 0, 1], [0, 1, 3])), some (some ([0, 1, 0], [0, 2, 4])), some none, some none, some none, none, none, none] := by decide +kernel

/-- C76 fails for breadth-first contexts if `get_value_and_children` panics below a root: the tree after it is never reached, since
every later call panics at an `unwrap` in the iterator of the first tree, before it has changed anything. -/
theorem C76_bfs_context_false :
    (answersE (Fail.srcCtxNext (fun n p => some (Bfs.CtxState.new n p)) (Fail.bfsCtxNext badNine)) 2
        ⟨[some (.node 0 [.node 9 []] : Tree Nat), some (.node 1 [])], usizeMax, none⟩).map (·.map (·.map (·.map Ctx.placing))) =
      some [some (some ([0], [0])), some none] ∧
    (match nthCallE (Fail.srcCtxNext (fun n p => some (Bfs.CtxState.new n p)) (Fail.bfsCtxNext badNine)) 2
        ⟨[some (.node 0 [.node 9 []] : Tree Nat), some (.node 1 [])], usizeMax, none⟩ with
      | .error .unwrapNone => true
      | _ => false) = true ∧
    ((sourceReplies (fun n i => (((unfold n).crop badNine).located.levelOrder.map (replyPos badNine Pos.ctx)).map
        (Option.map (Ctx.under i))) 0 [some (.node 0 [.node 9 []] : Tree Nat), some (.node 1 [])]).map
          (·.map Ctx.placing)) =
      [some ([0], [0]), none, some ([1], [1])] := by decide +kernel

end TreeIter
