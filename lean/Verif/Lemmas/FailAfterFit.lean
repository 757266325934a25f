import Mathlib.Data.List.Forall2
import Verif.Spec.FailAfter

/-! # The calls after a panic still go through the nodes in order -/

universe u v w

namespace TreeIter

variable {N : Type u} {V : Type v} [SplitNode N V]

namespace Fail

/-- The call is for the node at `q`; the ancestors may lack some. -/
def Fits (bad : N → Bool) (e : List V × Option (List Nat × List N)) (q : Pos N) : Prop :=
  e.2 = replyPos bad (fun q => (q.path, kids q.item)) q ∧ e.1.Sublist (q.ancestors.map val)

theorem sublist_dropLast {α : Type u} {l l' : List α} (h : l.Sublist l') : l.dropLast.Sublist l'.dropLast := by
  have := h.reverse.tail.reverse
  simpa using this

mutual
theorem lossyPreCtx_fits (bad : N → Bool) (p : List Nat) (anc : List V) (A : List N) (h : anc.Sublist (A.map val)) :
    ∀ t : Tree N, List.Forall₂ (Fits bad) (t.lossyPreCtx bad p anc).1 ((t.crop bad).withPos p A).preorder ∧
      (t.lossyPreCtx bad p anc).2.Sublist (A.map val)
  | .node n cs => by
    rw [Tree.lossyPreCtx, Tree.crop, Tree.withPos, Tree.preorder]
    by_cases hb : bad n
    · simp only [hb, if_true, Tree.withPosL, Tree.preorderL]
      refine ⟨.cons ⟨by simp [replyPos, hb], ?_⟩ .nil, (List.dropLast_sublist _).trans h⟩
      simpa using h.trans (List.sublist_append_left _ _)
    · have h' : (anc ++ [val n]).Sublist ((A ++ [n]).map val) := by simpa using h.append (List.Sublist.refl [val n])
      obtain ⟨i1, i2⟩ := lossyPreCtxL_fits bad p 0 (anc ++ [val n]) (A ++ [n]) h' cs
      simp only [hb]
      refine ⟨.cons ⟨by simp [replyPos, hb], h'⟩ i1, ?_⟩
      have := sublist_dropLast i2
      simpa using this
theorem lossyPreCtxL_fits (bad : N → Bool) (p : List Nat) (i : Nat) (anc : List V) (A : List N)
    (h : anc.Sublist (A.map val)) :
    ∀ ts : List (Tree N), List.Forall₂ (Fits bad) (Tree.lossyPreCtxL bad p i anc ts).1
        (Tree.preorderL (Tree.withPosL p A i (Tree.cropL bad ts))) ∧
      (Tree.lossyPreCtxL bad p i anc ts).2.Sublist (A.map val)
  | [] => by simpa [Tree.lossyPreCtxL, Tree.cropL, Tree.withPosL, Tree.preorderL] using h
  | t :: ts => by
    obtain ⟨i1, i2⟩ := lossyPreCtx_fits bad (p ++ [i]) anc A h t
    obtain ⟨j1, j2⟩ := lossyPreCtxL_fits bad p (i + 1) _ A i2 ts
    rw [Tree.lossyPreCtxL, Tree.cropL, Tree.withPosL, Tree.preorderL]
    exact ⟨List.rel_append i1 j1, j2⟩
end

mutual
theorem lossyPostCtx_fits (bad : N → Bool) (p : List Nat) (anc : List V) (A : List N) (h : anc.Sublist (A.map val)) :
    ∀ t : Tree N, List.Forall₂ (Fits bad) (t.lossyPostCtx bad p anc).1 ((t.crop bad).withPos p A).postorder ∧
      (t.lossyPostCtx bad p anc).2.Sublist (A.map val)
  | .node n cs => by
    rw [Tree.lossyPostCtx, Tree.crop, Tree.withPos, Tree.postorder]
    by_cases hb : bad n
    · simp only [hb, if_true, Tree.withPosL, Tree.postorderL]
      refine ⟨.cons ⟨by simp [replyPos, hb], ?_⟩ .nil, (List.dropLast_sublist _).trans h⟩
      simpa using h.trans (List.sublist_append_left _ _)
    · have h' : (anc ++ [val n]).Sublist ((A ++ [n]).map val) := by simpa using h.append (List.Sublist.refl [val n])
      obtain ⟨i1, i2⟩ := lossyPostCtxL_fits bad p 0 (anc ++ [val n]) (A ++ [n]) h' cs
      simp only [hb]
      refine ⟨List.rel_append i1 (.cons ⟨by simp [replyPos, hb], i2⟩ .nil), ?_⟩
      have := sublist_dropLast i2
      simpa using this
theorem lossyPostCtxL_fits (bad : N → Bool) (p : List Nat) (i : Nat) (anc : List V) (A : List N)
    (h : anc.Sublist (A.map val)) :
    ∀ ts : List (Tree N), List.Forall₂ (Fits bad) (Tree.lossyPostCtxL bad p i anc ts).1
        (Tree.postorderL (Tree.withPosL p A i (Tree.cropL bad ts))) ∧
      (Tree.lossyPostCtxL bad p i anc ts).2.Sublist (A.map val)
  | [] => by simpa [Tree.lossyPostCtxL, Tree.cropL, Tree.withPosL, Tree.postorderL] using h
  | t :: ts => by
    obtain ⟨i1, i2⟩ := lossyPostCtx_fits bad (p ++ [i]) anc A h t
    obtain ⟨j1, j2⟩ := lossyPostCtxL_fits bad p (i + 1) _ A i2 ts
    rw [Tree.lossyPostCtxL, Tree.cropL, Tree.withPosL, Tree.postorderL]
    exact ⟨List.rel_append i1 j1, j2⟩
end

mutual
theorem lossyPost_fst (bad : N → Bool) (p : List Nat) (anc : List V) :
    ∀ t : Tree N, (t.lossyPost bad anc).1 = (t.lossyPostCtx bad p anc).1.map (fun e => e.2.map fun _ => e.1) ∧
      (t.lossyPost bad anc).2 = (t.lossyPostCtx bad p anc).2
  | .node n cs => by
    obtain ⟨i1, i2⟩ := lossyPostL_fst bad p 0 (anc ++ [val n]) cs
    rw [Tree.lossyPost, Tree.lossyPostCtx]
    by_cases hb : bad n <;> simp [hb, i1, i2]
theorem lossyPostL_fst (bad : N → Bool) (p : List Nat) (i : Nat) (anc : List V) :
    ∀ ts : List (Tree N),
      (Tree.lossyPostL bad anc ts).1 = (Tree.lossyPostCtxL bad p i anc ts).1.map (fun e => e.2.map fun _ => e.1) ∧
      (Tree.lossyPostL bad anc ts).2 = (Tree.lossyPostCtxL bad p i anc ts).2
  | [] => by simp [Tree.lossyPostL, Tree.lossyPostCtxL]
  | t :: ts => by
    obtain ⟨i1, i2⟩ := lossyPost_fst bad (p ++ [i]) anc t
    obtain ⟨j1, j2⟩ := lossyPostL_fst bad p (i + 1) (t.lossyPostCtx bad (p ++ [i]) anc).2 ts
    rw [Tree.lossyPostL, Tree.lossyPostCtxL, i1, i2, j1, j2]
    simp
end

omit [SplitNode N V] in
theorem upTo_take {C : Type w} (stop : List V → Bool) (l : List (List V × Option (List Nat × C))) :
    ∃ m, upTo stop l = (l.take m).map fun e => e.2.map fun x => (⟨x.1, e.1, some x.2⟩ : Ctx V C) := by
  induction l with
  | nil => exact ⟨0, rfl⟩
  | cons e l ih =>
    obtain ⟨anc, o⟩ := e
    by_cases h : stop anc
    · exact ⟨1, by simp [upTo, h]⟩
    · obtain ⟨m, hm⟩ := ih
      exact ⟨m + 1, by simp [upTo, h, hm]⟩

section
omit [SplitNode N V]
variable [SplitNode2 N V]

/-- `Fits` for binary nodes. -/
def Fits2 (bad : N → Bool) (e : List V × Option (List Nat × (Option N × Option N))) (q : Pos N) : Prop :=
  e.2 = replyPos bad (fun q => (q.path, (split2 q.item).2)) q ∧ e.1.Sublist (q.ancestors.map val2)

mutual
theorem lossyPreCtx_fits2 (bad : N → Bool) (p : List Nat) (anc : List V) (A : List N) (h : anc.Sublist (A.map val2)) :
    ∀ t : BinTree N, List.Forall₂ (Fits2 bad) (t.lossyPreCtx bad p anc).1 ((t.crop bad).withPos p A).toTree.preorder ∧
      (t.lossyPreCtx bad p anc).2.Sublist (A.map val2)
  | .node n l r => by
    rw [BinTree.lossyPreCtx, BinTree.crop, BinTree.withPos, BinTree.toTree, Tree.preorder_node, List.flatMap_append]
    by_cases hb : bad n
    · simp only [hb, if_true, BinTree.withPosO, BinTree.slotTrees]
      refine ⟨.cons ⟨by simp [replyPos, hb], ?_⟩ .nil, (List.dropLast_sublist _).trans h⟩
      simpa using h.trans (List.sublist_append_left _ _)
    · have h' : (anc ++ [val2 n]).Sublist ((A ++ [n]).map val2) := by simpa using h.append (List.Sublist.refl [val2 n])
      obtain ⟨i1, i2⟩ := lossyPreCtxO_fits2 bad (p ++ [0]) (anc ++ [val2 n]) (A ++ [n]) h' l
      obtain ⟨j1, j2⟩ := lossyPreCtxO_fits2 bad (p ++ [1]) _ (A ++ [n]) i2 r
      simp only [hb]
      refine ⟨.cons ⟨by simp [replyPos, hb], h'⟩ (List.rel_append i1 j1), ?_⟩
      have := sublist_dropLast j2
      simpa using this
theorem lossyPreCtxO_fits2 (bad : N → Bool) (p : List Nat) (anc : List V) (A : List N) (h : anc.Sublist (A.map val2)) :
    ∀ o : Option (BinTree N), List.Forall₂ (Fits2 bad) (BinTree.lossyPreCtxO bad p anc o).1
        ((BinTree.slotTrees (BinTree.withPosO p A (BinTree.cropO bad o))).flatMap Tree.preorder) ∧
      (BinTree.lossyPreCtxO bad p anc o).2.Sublist (A.map val2)
  | none => by simpa [BinTree.lossyPreCtxO, BinTree.cropO, BinTree.withPosO, BinTree.slotTrees] using h
  | some t => by
    have := lossyPreCtx_fits2 bad p anc A h t
    simpa [BinTree.lossyPreCtxO, BinTree.cropO, BinTree.withPosO, BinTree.slotTrees] using this
end

end

theorem forall₂_getElem {α : Type u} {β : Type v} {R : α → β → Prop} {l : List α} {l' : List β}
    (h : List.Forall₂ R l l') (k : Nat) : (l[k]? = none ∧ l'[k]? = none) ∨ ∃ a b, l[k]? = some a ∧ l'[k]? = some b ∧ R a b := by
  induction h generalizing k with
  | nil => simp
  | cons h _ ih => cases k with
    | zero => simpa using h
    | succ k => simpa using ih k

end Fail

end TreeIter
