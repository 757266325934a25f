import Verif.Lemmas.FailIn
import Verif.Lemmas.FailGet

/-! # Lemmas about what `get` shows in order after a caught panic -/

universe u v w

namespace TreeIter

namespace Fail

variable {N : Type u} {V : Type v}

/-- What is shown, without the children, if a node below `anc` at the path cannot be opened. -/
def shutB {C : Type w} (path : List Nat) (anc : List V) : Option (Ctx V C) :=
  if anc = [] then none else some ⟨path.dropLast, anc, none⟩

mutual
/-- What is shown at a subtree, without the children. -/
def showB [BinNode N V] (bad : N → Bool) (path : List Nat) (anc : List V) :
    BinTree N → BinTree (Option (Ctx V (Option N × Option N)))
  | .node n l r =>
    if bad n then .node (shutB path anc) none none
    else .node (some ⟨path, anc ++ [val2 n], none⟩)
      (showBO bad (path ++ [0]) (anc ++ [val2 n]) l) (showBO bad (path ++ [1]) (anc ++ [val2 n]) r)
/-- Slot version. -/
def showBO [BinNode N V] (bad : N → Bool) (path : List Nat) (anc : List V) :
    Option (BinTree N) → Option (BinTree (Option (Ctx V (Option N × Option N))))
  | none => none
  | some t => some (showB bad path anc t)
end

/-- What is shown at a position, without the children. -/
def shownPos2 [BinNode N V] (bad : N → Bool) (p : Pos N) : Option (Ctx V (Option N × Option N)) :=
  if bad p.item then p.parentCtx2 none else some p.ctx2.noChildren

theorem shownPos2_withPos [BinNode N V] (bad : N → Bool) (t : BinTree N) (path : List Nat) (anc : List N)
    (hp : path = [] ↔ anc = []) :
    ((t.crop bad).withPos path anc).map (shownPos2 bad) = showB bad path (anc.map val2) t := by
  induction t using BinTree.ind generalizing path anc with
  | h n l r ihl ihr =>
    rw [BinTree.crop, BinTree.withPos, BinTree.map, showB, shownPos2]
    by_cases hb : bad n
    · simp [hb, BinTree.withPosO, BinTree.mapO, Pos.parentCtx2, shutB, hp]
    · simp only [hb, Bool.false_eq_true, if_false]
      congr 1
      · simp [Pos.ctx2, Ctx.noChildren]
      · cases l with
        | none => rfl
        | some l => simp [BinTree.cropO, BinTree.withPosO, BinTree.mapO, showBO, ihl l rfl]
      · cases r with
        | none => rfl
        | some r => simp [BinTree.cropO, BinTree.withPosO, BinTree.mapO, showBO, ihr r rfl]

/-- What is shown at the subtree in a slot, in order. -/
def inS [BinNode N V] (bad : N → Bool) (path : List Nat) (anc : List V) :
    Option N → List (Option (Ctx V (Option N × Option N)))
  | none => []
  | some n => (showB bad path anc (unfold2 n)).inorder

theorem inS_some [BinNode N V] (bad : N → Bool) (path : List Nat) (anc : List V) (n : N) :
    inS bad path anc (some n) =
      if bad n then [shutB path anc]
      else inS bad (path ++ [0]) (anc ++ [val2 n]) (split2 n).2.1 ++
        some ⟨path, anc ++ [val2 n], none⟩ ::
        inS bad (path ++ [1]) (anc ++ [val2 n]) (split2 n).2.2 := by
  rw [inS, unfold2_eq, showB]
  split
  · simp [BinTree.inorder, BinTree.inorderO]
  · rw [BinTree.inorder]
    cases (split2 n).2.1 <;> cases (split2 n).2.2 <;>
      simp [showBO, BinTree.inorderO, inS]

/-- Contexts still to be shown.  `path` is the path of the top ancestor. -/
def remS [BinNode N V] (bad : N → Bool) :
    List Inorder.Status → List V → List Nat → List (Option N) → List (Option (Ctx V (Option N × Option N)))
  | [], _, _, [] => []
  | [], _, path, r :: _ => inS bad path.reverse [] r
  | .wentRight :: ss, anc, path, right => remS bad ss anc.tail path.tail right
  | .returnedSelf :: ss, anc, path, right =>
    inS bad (path.reverse ++ [1]) anc.reverse right.head?.join ++ remS bad ss anc.tail path.tail right.tail
  | .wentLeft :: ss, anc, path, right =>
    some ⟨path.reverse, anc.reverse, none⟩ ::
      (inS bad (path.reverse ++ [1]) anc.reverse right.head?.join ++ remS bad ss anc.tail path.tail right.tail)

/-- Contexts still to be shown. -/
def inShwRem [BinNode N V] (bad : N → Bool) (s : Inorder.CtxState N V) : List (Option (Ctx V (Option N × Option N))) :=
  remS bad s.status s.ancestors s.path s.right

/-- What is shown, without the children. -/
def ctxShow (s : Inorder.CtxState N V) : Option (Ctx V (Option N × Option N)) := (Inorder.ctxGet s).map Ctx.noChildren

theorem ctxShow_eq (s : Inorder.CtxState N V) :
    ctxShow s = if s.ancestors = [] then none else some ⟨s.path.reverse, s.ancestors.reverse, none⟩ := by
  rw [ctxShow, Inorder.ctxGet]
  cases s.ancestors <;> rfl

theorem inCtxDescend_show [BinNode N V] (bad : N → Bool) (cur : Option N) (s : Inorder.CtxState N V)
    (hne : s.status ≠ []) (h : Inorder.InvR s.status s.ancestors s.right s.into) :
    inS bad (Inorder.pushSegment s.status s.path).reverse s.ancestors.reverse cur ++ inShwRem bad s =
        (if (inCtxDescend bad cur s).1 then [ctxShow (inCtxDescend bad cur s).2] else []) ++
          inShwRem bad (inCtxDescend bad cur s).2 := by
  fun_induction inCtxDescend bad cur s with
  | case1 s => simp [inS]
  | case2 n s hb =>
    obtain ⟨right, path, anc, ch, into, status⟩ := s
    cases status with
    | nil => exact absurd rfl hne
    | cons st ss =>
      have ha : anc ≠ [] := by cases st <;> exact h.1
      cases st <;> simp [inS_some, hb, shutB, ctxShow_eq, Inorder.pushSegment, ha]
  | case3 n s hb ih =>
    have h2 := ih (by simp) ⟨by simp, by simp, by simp, h⟩
    rw [← h2, inS_some]
    obtain ⟨right, path, anc, ch, into, status⟩ := s
    cases status with
    | nil => exact absurd rfl hne
    | cons st ss => cases st <;> simp [inShwRem, remS, Inorder.pushSegment, hb]

/-- Descending from the root. -/
theorem inCtxDescend_show_root [BinNode N V] (bad : N → Bool) (n : N) (path : List Nat)
    (ch : Option (Option N × Option N)) :
    ∀ d, d = inCtxDescend bad (some n) ⟨[], path, ([] : List V), ch, [], []⟩ →
    inS bad path.reverse ([] : List V) (some n) = (if d.1 then [ctxShow d.2] else []) ++ inShwRem bad d.2 := by
  intro d hd
  by_cases hb : bad n
  · have e : d = (true, ⟨[], path, ([] : List V), ch, [], []⟩) := by
      rw [hd, inCtxDescend, if_pos hb]
    rw [e]
    simp [inS_some, hb, inShwRem, remS, shutB, ctxShow_eq]
  · have e : d = inCtxDescend bad (split2 n).2.1
        ⟨[(split2 n).2.2], path, [val2 n], ch, [(split2 n).2], [.wentLeft]⟩ := by
      rw [hd, inCtxDescend, if_neg hb]
      rfl
    have h2 := inCtxDescend_show bad (split2 n).2.1
      ⟨[(split2 n).2.2], path, [val2 n], ch, [(split2 n).2], [.wentLeft]⟩ (by simp) (by simp [Inorder.InvR])
    rw [← e] at h2
    rw [← h2, inS_some]
    simp [inShwRem, remS, Inorder.pushSegment, hb]

/-- The result of the search loop. -/
theorem inCtxFind_show [BinNode N V] (bad : N → Bool) (ch : Option (Option N × Option N)) (st : List Inorder.Status)
    (anc : List V) (path : List Nat) (right : List (Option N)) (into : List (Option N × Option N))
    (h : Inorder.InvR st anc right into) :
    (∃ s, Inorder.ctxFind ch st anc path right into = .ok (.inl s) ∧
      (Inorder.ctxGet s).map (fun _ => ctxShow s) = (remS bad st anc path right).head? ∧
      inShwRem bad s = (remS bad st anc path right).tail ∧ Inorder.InvR s.status s.ancestors s.right s.into) ∨
    (∃ n s, Inorder.ctxFind ch st anc path right into = .ok (.inr (n, s)) ∧ s.status ≠ [] ∧
      Inorder.InvR s.status s.ancestors s.right s.into ∧ s.children = ch ∧
      remS bad st anc path right =
        inS bad (Inorder.pushSegment s.status s.path).reverse s.ancestors.reverse (some n) ++ inShwRem bad s) := by
  fun_induction Inorder.ctxFind ch st anc path right into with
  | case1 ss anc path right into ih =>
    obtain ⟨h1, h2⟩ := h
    simpa only [remS] using ih h2
  | case2 ss anc path right c into =>
    left
    refine ⟨_, rfl, ?_⟩
    obtain ⟨h1, h2, h3, h4⟩ := h
    have : anc.isEmpty = false := by simpa using h1
    simp only [Inorder.ctxGet, this, inShwRem, remS, ctxShow]
    exact ⟨rfl, rfl, h1, h2, h4⟩
  | case3 => exact absurd rfl h.2.2.1
  | case4 => exact absurd rfl h.2.1
  | case5 ss anc path n right into =>
    right
    refine ⟨n, _, rfl, by simp, ⟨h.1, h.2.2⟩, rfl, ?_⟩
    simp [remS, inShwRem, Inorder.pushSegment]
  | case6 ss anc path right into ih =>
    have := ih ⟨h.1, h.2.2⟩
    simpa [remS, inS] using this
  | case7 =>
    left
    refine ⟨_, rfl, ?_⟩
    obtain ⟨h1, h2, h3⟩ := h
    simp [Inorder.ctxGet, inShwRem, remS, Inorder.InvR, h3]
  | case8 => exact absurd h.2.1 (by simp)
  | case9 => exact absurd h.2.1 (by simp)

theorem inCtxDescend_children [BinNode N V] (bad : N → Bool) (cur : Option N) (s : Inorder.CtxState N V) :
    (inCtxDescend bad cur s).2.children = s.children := by
  fun_induction inCtxDescend bad cur s with
  | case1 s => rfl
  | case2 s n hb => rfl
  | case3 n s hb ih => exact ih

/-- `next` followed by `get`, while there are nodes. -/
def inShowNext [BinNode N V] (bad : N → Bool) (s : Inorder.CtxState N V) :
    Except Panic (Option (Option (Ctx V (Option N × Option N))) × Inorder.CtxState N V) :=
  match inCtxNext bad s with
  | .error e => .error e
  | .ok (o, s') => .ok (o.map fun _ => ctxShow s', s')

/-- What the end of `advance` does with the result of descending. -/
theorem inCtx_descended_show [BinNode N V] (bad : N → Bool) (d : Bool × Inorder.CtxState N V)
    (l : List (Option (Ctx V (Option N × Option N))))
    (h1 : Inorder.InvR d.2.status d.2.ancestors d.2.right d.2.into)
    (h2 : l = (if d.1 then [ctxShow d.2] else []) ++ inShwRem bad d.2)
    (h3 : d.1 = false → ∃ ss, d.2.status = .wentLeft :: ss) :
    ∃ b s', (match d with
        | (true, s'') => (.ok (true, s'') : Except Panic (Bool × Inorder.CtxState N V))
        | (false, s'') =>
          match s''.status, s''.into with
          | [], _ => .error .indexOutOfRange
          | _ :: _, [] => .error .unwrapNone
          | _ :: ss, c :: into =>
            .ok (false, { s'' with status := .returnedSelf :: ss, into := into, children := some c })) = .ok (b, s') ∧
      (if b then some (ctxShow s') else (Inorder.ctxGet s').map fun _ => ctxShow s') = l.head? ∧
      inShwRem bad s' = l.tail ∧ Inorder.InvR s'.status s'.ancestors s'.right s'.into ∧
      (b = true → s'.children = d.2.children) := by
  obtain ⟨b, s⟩ := d
  cases b with
  | true => exact ⟨true, s, rfl, by simp [h2], by simp [h2], h1, fun _ => rfl⟩
  | false =>
    obtain ⟨ss, hss⟩ := h3 rfl
    obtain ⟨right, path, anc, ch, into, status⟩ := s
    simp only at hss
    subst hss
    obtain ⟨i1, i2, i3, i4⟩ := h1
    obtain ⟨c, into, rfl⟩ := List.exists_cons_of_ne_nil i3
    have : anc.isEmpty = false := by simpa using i1
    refine ⟨false, _, rfl, ?_, ?_, ⟨i1, i2, i4⟩, by simp⟩
    · simp [h2, Inorder.ctxGet, this, inShwRem, remS, ctxShow, Ctx.noChildren]
    · simp [h2, inShwRem, remS]

theorem inShowNext_spec [BinNode N V] (bad : N → Bool) (s : Inorder.CtxState N V) (h : Inorder.CtxInv s) :
    ∃ s', inShowNext bad s = .ok ((inShwRem bad s).head?, s') ∧ inShwRem bad s' = (inShwRem bad s).tail ∧
      Inorder.CtxInv s' ∧ (∀ s'', inCtxNext bad s = .ok (some none, s'') → s''.children = s.children) := by
  have fin : ∀ (s : Inorder.CtxState N V) (b : Bool) (s2 : Inorder.CtxState N V), inCtxAdvance bad s = .ok (b, s2) →
      ∀ l : List (Option (Ctx V (Option N × Option N))),
      (if b then some (ctxShow s2) else (Inorder.ctxGet s2).map fun _ => ctxShow s2) = l.head? →
      (b = true → s2.children = s.children) →
      inShowNext bad s = .ok (l.head?, s2) ∧ (∀ s'', inCtxNext bad s = .ok (some none, s'') → s''.children = s.children) := by
    intro s b s2 e l hl hc
    rw [inShowNext, inCtxNext, streamNextE, e]
    cases b with
    | true =>
      simp only [if_true] at hl
      refine ⟨by simp [← hl], ?_⟩
      intro s'' h
      cases h
      exact hc rfl
    | false =>
      simp only [Bool.false_eq_true, if_false] at hl
      refine ⟨by simp [← hl, Option.map_map]; rfl, ?_⟩
      intro s'' h
      simp only [Except.ok.injEq, Prod.mk.injEq] at h
      cases hg : Inorder.ctxGet s2 <;> rw [hg] at h <;> simp at h
  obtain ⟨right, path, anc, ch, into, status⟩ := s
  rcases h with h | ⟨root, h1, h2, h3, h4⟩
  · rcases inCtxFind_show bad ch status anc path right into h with ⟨s', e, i1, i2, i3⟩ | ⟨n, s', e, i1, i2, ic, i3⟩
    · obtain ⟨f1, f2⟩ := fin ⟨right, path, anc, ch, into, status⟩ false s' (by rw [inCtxAdvance]; simp only [e]) _ i1 (by simp)
      exact ⟨s', f1, i2, Or.inl i3, f2⟩
    · obtain ⟨j1, -, j3⟩ := inCtxDescend_spec bad (some n) s' i1 i2
      have j2 := inCtxDescend_show bad (some n) s' i1 i2
      obtain ⟨b, s2, k0, k1, k2, k3, k4⟩ := inCtx_descended_show bad _ _ j1 (i3.trans j2) (fun hd => j3 hd n rfl)
      have e' : inCtxAdvance bad ⟨right, path, anc, ch, into, status⟩ = .ok (b, s2) := by
        rw [inCtxAdvance]
        simp only [e]
        exact k0
      obtain ⟨f1, f2⟩ := fin _ b s2 e' _ k1 (fun hb => by rw [k4 hb, inCtxDescend_children, ic])
      exact ⟨s2, f1, k2, Or.inl k3, f2⟩
  · simp only at h1 h2 h3 h4
    subst h1 h2 h3 h4
    obtain ⟨j1, -, j3⟩ := inCtxDescend_root (V := V) bad root path ch
    have j2 := inCtxDescend_show_root (V := V) bad root path ch _ rfl
    obtain ⟨b, s2, k0, k1, k2, k3, k4⟩ := inCtx_descended_show bad _ _ j1 j2 j3
    have e' : inCtxAdvance (V := V) bad ⟨[some root], path, [], ch, [], []⟩ = .ok (b, s2) := by
      rw [inCtxAdvance]
      simp only [Inorder.ctxFind]
      exact k0
    obtain ⟨f1, f2⟩ := fin _ b s2 e' _ k1 (fun hb => by rw [k4 hb, inCtxDescend_children])
    exact ⟨s2, f1, k2, Or.inl k3, f2⟩

end Fail

end TreeIter
