import Verif.Props.BreadthFirstAnc
import Verif.Props.BreadthFirstCtx

/-! # C24: ancestor and context iterators stay finished -/

universe u v

namespace TreeIter

variable {N : Type u} {V : Type v}

/-- What C24 asks of an iterator that cannot panic. -/
def StaysFinished {S : Type u} {O : Type v} (next : S → Option O × S) (s : S) : Prop :=
  (∃ k, nthCall next k s = none) ∧ ∀ k j, nthCall next k s = none → k ≤ j → nthCall next j s = none

/-- What C24 asks of an iterator that might panic: no call does, and after a `None` there are only `None`s. -/
def StaysFinishedE {S : Type u} {O : Type v} (next : S → Except Panic (Option O × S)) (s : S) : Prop :=
  (∃ k, nthCallE next k s = .ok none) ∧
    ∀ k j, nthCallE next k s = .ok none → k ≤ j → nthCallE next j s = .ok none

theorem staysFinished_of {S : Type u} {O : Type v} {next : S → Option O × S} {s : S} {l : List O}
    (h : ∀ k, nthCall next k s = l[k]?) : StaysFinished next s := by
  refine ⟨⟨l.length, by rw [h]; simp⟩, fun k j hk hkj => ?_⟩
  rw [h] at hk ⊢
  rw [List.getElem?_eq_none_iff] at hk ⊢
  omega

theorem staysFinishedE_of {S : Type u} {O : Type v} {next : S → Except Panic (Option O × S)} {s : S} {l : List O}
    (h : ∀ k, nthCallE next k s = .ok l[k]?) : StaysFinishedE next s := by
  refine ⟨⟨l.length, by rw [h]; simp⟩, fun k j hk hkj => ?_⟩
  rw [h] at hk ⊢
  have hk := Except.ok.inj hk
  congr 1
  rw [List.getElem?_eq_none_iff] at hk ⊢
  omega

/-- C24, `Preorder.ancNext`. -/
theorem C24_preorder_ancestors_partial [TreeNode N V] (n : N) :
    ∃ s, Preorder.attachAncestors (Preorder.new n) = .ok s ∧ StaysFinished Preorder.ancNext s := by
  obtain ⟨s, h1, h2⟩ := C06_preorder_ancestors n
  exact ⟨s, h1, staysFinished_of h2⟩

/-- C24, `Postorder.ancNext`. -/
theorem C24_postorder_ancestors_partial [TreeNode N V] (n : N) :
    ∃ s, Postorder.attachAncestors (Postorder.new n) = .ok s ∧ StaysFinished Postorder.ancNext s := by
  obtain ⟨s, h1, h2⟩ := C07_postorder_ancestors n
  exact ⟨s, h1, staysFinished_of h2⟩

/-- C24, `Inorder.ancNext`. -/
theorem C24_inorder_ancestors_partial [BinNode N V] (n : N) :
    ∃ s, Inorder.attachAncestors (Inorder.new n) = .ok s ∧ StaysFinishedE Inorder.ancNext s := by
  obtain ⟨s, h1, h2⟩ := C08_inorder_ancestors n
  exact ⟨s, h1, staysFinishedE_of h2⟩

/-- C24, `Preorder.ctxNext`. -/
theorem C24_preorder_context_partial [TreeNode N V] (n : N) (h : ArityOk n) :
    ∃ s, Preorder.attachContext (Preorder.new n) = .ok s ∧ StaysFinishedE Preorder.ctxNext s := by
  obtain ⟨s, h1, h2⟩ := C10_preorder_context n h
  exact ⟨s, h1, staysFinishedE_of h2⟩

example := C24_preorder_context_partial sampleTree sampleTree_arity

/-- C24, `Preorder.binCtxNext`. -/
theorem C24_preorder_context_binary_partial [BinNode N V] (n : N) :
    ∃ s, Preorder.binAttachContext (Preorder.new n) = .ok s ∧ StaysFinishedE Preorder.binCtxNext s := by
  obtain ⟨s, h1, h2⟩ := C11_preorder_context_binary n
  exact ⟨s, h1, staysFinishedE_of h2⟩

/-- C24, `Postorder.ctxNext`. -/
theorem C24_postorder_context_partial [TreeNode N V] (n : N) (h : ArityOk n) :
    ∃ s, Postorder.attachContext (Postorder.new n) = .ok s ∧ StaysFinishedE Postorder.ctxNext s := by
  obtain ⟨s, h1, h2⟩ := C12_postorder_context n h
  exact ⟨s, h1, staysFinishedE_of h2⟩

example := C24_postorder_context_partial sampleTree sampleTree_arity

/-- C24, `Postorder.ownCtxNext`. -/
theorem C24_postorder_context_owned_partial [TreeNode N V] (n : N) (h : ArityOk n) :
    ∃ s, Postorder.ownAttachContext (Postorder.new n) = .ok s ∧ StaysFinishedE Postorder.ownCtxNext s := by
  obtain ⟨s, h1, h2⟩ := C12_postorder_context_owned n h
  exact ⟨s, h1, staysFinishedE_of h2⟩

example := C24_postorder_context_owned_partial sampleTree sampleTree_arity

/-- C24, `Postorder.binCtxNext`. -/
theorem C24_postorder_context_binary_partial [BinNode N V] (n : N) :
    ∃ s, Postorder.binAttachContext (Postorder.new n) = .ok s ∧ StaysFinishedE Postorder.binCtxNext s := by
  obtain ⟨s, h1, h2⟩ := C12_postorder_context_binary n
  exact ⟨s, h1, staysFinishedE_of h2⟩

/-- C24, `Postorder.mutBinCtxNext`. -/
theorem C24_postorder_context_binary_mut_partial [BinNode N V] (n : N) :
    ∃ s, Postorder.binAttachContext (Postorder.new n) = .ok s ∧ StaysFinishedE Postorder.mutBinCtxNext s := by
  obtain ⟨s, h1, h2⟩ := C12_postorder_context_binary_mut n
  exact ⟨s, h1, staysFinishedE_of h2⟩

/-- C24, `Postorder.ownBinCtxNext`. -/
theorem C24_postorder_context_binary_owned_partial [BinNode N V] (n : N) :
    ∃ s, Postorder.ownBinAttachContext (Postorder.new n) = .ok s ∧ StaysFinishedE Postorder.ownBinCtxNext s := by
  obtain ⟨s, h1, h2⟩ := C12_postorder_context_binary_owned n
  exact ⟨s, h1, staysFinishedE_of h2⟩

/-- C24, `Inorder.ctxNext`. -/
theorem C24_inorder_context_partial [BinNode N V] (n : N) :
    ∃ s, Inorder.attachContext (Inorder.new n) = .ok s ∧ StaysFinishedE Inorder.ctxNext s := by
  obtain ⟨s, h1, h2⟩ := C13_inorder_context n
  exact ⟨s, h1, staysFinishedE_of h2⟩

/-- C24, `Inorder.ownNext`. -/
theorem C24_inorder_context_owned_partial [BinNode N V] (n : N) :
    ∃ s, Inorder.ownAttachContext (Inorder.new n) = .ok s ∧ StaysFinishedE Inorder.ownNext s := by
  obtain ⟨s, h1, h2⟩ := C13_inorder_context_owned n
  exact ⟨s, h1, staysFinishedE_of h2⟩

/-- C24, `Bfs.ctxNext`. -/
theorem C24_bfs_context_partial [TreeNode N V] (n : N) (h : ArityLt n) :
    ∃ s, Bfs.attachContext (Bfs.new n) = .ok s ∧ StaysFinishedE Bfs.ctxNext s := by
  obtain ⟨s, h1, h2⟩ := C14_bfs_context n h
  exact ⟨s, h1, staysFinishedE_of h2⟩

example := C24_bfs_context_partial sampleTree sampleTree_arityLt

/-- C24, `Bfs.binCtxNext`. -/
theorem C24_bfs_context_binary_partial [BinNode N V] (n : N) :
    ∃ s, Bfs.binAttachContext (Bfs.new n) = .ok s ∧ StaysFinishedE Bfs.binCtxNext s := by
  obtain ⟨s, h1, h2⟩ := C14_bfs_context_binary n
  exact ⟨s, h1, staysFinishedE_of h2⟩

/-- Seven nodes' worth of calls on a tree of six, then two more. -/
example : answers Preorder.ancNext 9 (Preorder.AncState.new sampleTree) =
    [some [0], some [0, 1], some [0, 1, 3], some [0, 1, 4], some [0, 2], some [0, 2, 5], none, none, none] := by
  decide +kernel

/-- The breadth-first context iterator on a tree with one node. -/
example : (answersE Bfs.ctxNext 4 (Bfs.CtxState.new (Tree.node 7 []) [])).map (·.map (·.map Ctx.brief)) =
    some [some ⟨[], [7], some 0⟩, none, none, none] := by decide +kernel

end TreeIter
