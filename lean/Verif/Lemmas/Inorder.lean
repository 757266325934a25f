import Verif.Model.Inorder
import Verif.Lemmas.Postorder

/-! # Lemmas about the in-order machines -/

universe u v w

namespace TreeIter

namespace Inorder

variable {N : Type u} {V : Type v}

/-! ## Plain iterator -/

/-- In-order listing of an optional node. -/
def inO [BinNode N V] : Option N → List V
  | none => []
  | some n => (binTreeOf n).inorder

theorem inorder_binTreeOf [BinNode N V] (n : N) :
    (binTreeOf n).inorder = inO (split2 n).2.1 ++ val2 n :: inO (split2 n).2.2 := by
  rw [binTreeOf, unfold2_eq, BinTree.map, BinTree.inorder]
  cases (split2 n).2.1 <;> cases (split2 n).2.2 <;>
    simp [BinTree.mapO, BinTree.inorderO, inO, binTreeOf]

/-- Values still to come when each right entry belongs to a pending item. -/
def remZ [BinNode N V] : List (Option N) → List V → List V
  | r :: rs, a :: items => a :: (inO r ++ remZ rs items)
  | _, _ => []

/-- Values still to come. -/
def rem [BinNode N V] (s : State N V) : List V :=
  match s.right with
  | [] => []
  | r :: rs => inO r ++ remZ rs s.items

/-- Reachable states: one more right entry than items, or finished. -/
def Inv (s : State N V) : Prop :=
  s.right.length = s.items.length + 1 ∨ (s.right = [] ∧ s.items = [])

theorem descend_spec [BinNode N V] (cur : Option N) (right : List (Option N)) (items : List V)
    (h : right.length = items.length) :
    remZ (descend cur right items).1 (descend cur right items).2 = inO cur ++ remZ right items ∧
      (descend cur right items).1.length = (descend cur right items).2.length := by
  fun_induction descend cur right items with
  | case1 right items => exact ⟨rfl, h⟩
  | case2 right items n ih =>
    obtain ⟨h1, h2⟩ := ih (by simpa using h)
    refine ⟨?_, h2⟩
    rw [h1, remZ, inO, inorder_binTreeOf]
    simp

theorem remZ_finish [BinNode N V] (right : List (Option N)) (items : List V)
    (h : right.length = items.length) :
    items.head? = (remZ right items).head? ∧
      rem ⟨right, items.tail, true⟩ = (remZ right items).tail ∧
      Inv (N := N) ⟨right, items.tail, true⟩ := by
  cases items with
  | nil =>
    obtain rfl : right = [] := by simpa using h
    simp [remZ, rem, Inv]
  | cons a items =>
    cases right with
    | nil => simp at h
    | cons r rs => simpa [remZ, rem, Inv] using h

theorem next_spec [BinNode N V] (s : State N V) (h : Inv s) :
    (next s).1 = (rem s).head? ∧ rem (next s).2 = (rem s).tail ∧ Inv (next s).2 := by
  obtain ⟨right, items, moved⟩ := s
  rcases h with h | ⟨h1, h2⟩
  · cases right with
    | nil => simp at h
    | cons r rs =>
      have h' : rs.length = items.length := by simpa using h
      have hne : ¬ (rs.length + 1 = items.length) := by omega
      have e0 : rem ⟨r :: rs, items, moved⟩ = inO r ++ remZ rs items := rfl
      rw [e0]
      have key : ∀ cur, let d := descend cur rs items
          (d.2.head?) = (inO cur ++ remZ rs items).head? ∧
          rem ⟨d.1, d.2.tail, true⟩ = (inO cur ++ remZ rs items).tail ∧
          Inv (N := N) ⟨d.1, d.2.tail, true⟩ := by
        intro cur d
        obtain ⟨k1, k2⟩ := descend_spec cur rs items h'
        obtain ⟨j1, j2, j3⟩ := remZ_finish d.1 d.2 k2
        rw [k1] at j1 j2
        exact ⟨j1, j2, j3⟩
      by_cases hrs : rs.isEmpty = true
      · simpa [next, find, hne, hrs] using key r
      · cases r with
        | some n => simpa [next, find, hne, hrs] using key (some n)
        | none =>
          cases rs with
          | nil => simp at hrs
          | cons r' rs' =>
            have := remZ_finish (r' :: rs') items h'
            simp only [List.length_cons] at h'
            have e1 : inO (none : Option N) ++ remZ (r' :: rs') items = remZ (r' :: rs') items := rfl
            rw [e1]
            simpa [next, find, hne, h'] using this
  · simp only at h1 h2
    subst h1 h2
    simp [next, find, rem, Inv]

/-! ## Context, borrowed -/

/-- Contexts of the subtree in a slot, in order. -/
def inCtx [BinNode N V] (path : List Nat) (anc : List V) : Option N → List (Ctx V (Option N × Option N))
  | none => []
  | some n => (ctxB path anc (unfold2 n)).inorder

theorem inCtx_some [BinNode N V] (path : List Nat) (anc : List V) (n : N) :
    inCtx path anc (some n) =
      inCtx (path ++ [0]) (anc ++ [val2 n]) (split2 n).2.1 ++
        ⟨path, anc ++ [val2 n], some (split2 n).2⟩ ::
        inCtx (path ++ [1]) (anc ++ [val2 n]) (split2 n).2.2 := by
  rw [inCtx, unfold2_eq, ctxB, BinTree.inorder]
  cases (split2 n).2.1 <;> cases (split2 n).2.2 <;>
    simp [ctxBO, BinTree.inorderO, inCtx]

/-- Contexts still to come. `path` is the path of the top ancestor. -/
def remR [BinNode N V] : List Status → List V → List Nat → List (Option N) → List (Option N × Option N) →
    List (Ctx V (Option N × Option N))
  | [], _, _, [], _ => []
  | [], _, path, r :: _, _ => inCtx path.reverse [] r
  | .wentRight :: ss, anc, path, right, into => remR ss anc.tail path.tail right into
  | .returnedSelf :: ss, anc, path, right, into =>
    inCtx (path.reverse ++ [1]) anc.reverse right.head?.join ++ remR ss anc.tail path.tail right.tail into
  | .wentLeft :: ss, anc, path, right, into =>
    ⟨path.reverse, anc.reverse, into.head?⟩ ::
      (inCtx (path.reverse ++ [1]) anc.reverse right.head?.join ++
        remR ss anc.tail path.tail right.tail into.tail)

/-- The stacks fit together (once the root has been taken). -/
def InvR : List Status → List V → List (Option N) → List (Option N × Option N) → Prop
  | [], anc, right, into => anc = [] ∧ right = [] ∧ into = []
  | .wentRight :: ss, anc, right, into => anc ≠ [] ∧ InvR ss anc.tail right into
  | .returnedSelf :: ss, anc, right, into => anc ≠ [] ∧ right ≠ [] ∧ InvR ss anc.tail right.tail into
  | .wentLeft :: ss, anc, right, into =>
    anc ≠ [] ∧ right ≠ [] ∧ into ≠ [] ∧ InvR ss anc.tail right.tail into.tail

/-- Contexts still to come. -/
def ctxRem [BinNode N V] (s : CtxState N V) : List (Ctx V (Option N × Option N)) :=
  remR s.status s.ancestors s.path s.right s.into

/-- Reachable states: fresh, or the stacks fit together. -/
def CtxInv (s : CtxState N V) : Prop :=
  InvR s.status s.ancestors s.right s.into ∨
    (∃ root, s.status = [] ∧ s.ancestors = [] ∧ s.right = [some root] ∧ s.into = [])

/-- The path below the last frame does not matter once everything is popped. -/
theorem remR_nil [BinNode N V] (anc : List V) (path : List Nat) (into : List (Option N × Option N)) :
    remR (N := N) [] anc path [] into = [] := by
  rw [remR]

theorem ctxDescend_spec [BinNode N V] (cur : Option N) (s : CtxState N V) (hne : s.status ≠ [])
    (h : InvR s.status s.ancestors s.right s.into) :
    InvR (ctxDescend cur s).status (ctxDescend cur s).ancestors (ctxDescend cur s).right
        (ctxDescend cur s).into ∧
      ctxRem (ctxDescend cur s) =
        inCtx (pushSegment s.status s.path).reverse s.ancestors.reverse cur ++ ctxRem s ∧
      (∀ n, cur = some n → ∃ ss, (ctxDescend cur s).status = .wentLeft :: ss) := by
  fun_induction ctxDescend cur s with
  | case1 s => exact ⟨h, by simp [inCtx], by simp⟩
  | case2 n s ih =>
    obtain ⟨h1, h2, h3⟩ := ih (by simp) ⟨by simp, by simp, by simp, h⟩
    refine ⟨h1, ?_, ?_⟩
    · rw [h2, inCtx_some]
      obtain ⟨right, path, anc, ch, into, status⟩ := s
      cases status with
      | nil => exact absurd rfl hne
      | cons st ss => cases st <;> simp [ctxRem, remR, pushSegment]
    · intro _ _
      cases hl : (split2 n).2.1 with
      | none => rw [ctxDescend]; exact ⟨_, rfl⟩
      | some c => rw [hl] at h3; exact h3 c rfl

/-- Descending from the root. -/
theorem ctxDescend_root [BinNode N V] (n : N) (path : List Nat) (ch : Option (Option N × Option N)) :
    let s := ctxDescend (some n) ⟨[], path, ([] : List V), ch, [], []⟩
    InvR s.status s.ancestors s.right s.into ∧ ctxRem s = inCtx path.reverse [] (some n) ∧
      ∃ ss, s.status = .wentLeft :: ss := by
  intro s
  have e : s = ctxDescend (split2 n).2.1
      ⟨[(split2 n).2.2], path, [val2 n], ch, [(split2 n).2], [.wentLeft]⟩ := by
    show ctxDescend _ _ = _
    rw [ctxDescend]
    rfl
  obtain ⟨h1, h2, h3⟩ := ctxDescend_spec (split2 n).2.1
    ⟨[(split2 n).2.2], path, [val2 n], ch, [(split2 n).2], [.wentLeft]⟩ (by simp) (by simp [InvR])
  rw [← e] at h1 h2
  refine ⟨h1, ?_, ?_⟩
  · rw [h2, inCtx_some]
    simp [ctxRem, remR, pushSegment]
  · cases hl : (split2 n).2.1 with
    | none => rw [e, hl, ctxDescend]; exact ⟨_, rfl⟩
    | some c => rw [e]; exact h3 c hl

theorem ctxFinish_spec [BinNode N V] (s : CtxState N V) (h : InvR s.status s.ancestors s.right s.into)
    {ss : List Status} (hs : s.status = .wentLeft :: ss) :
    ∃ c into, s.into = c :: into ∧
      let s' : CtxState N V := { s with status := .returnedSelf :: ss, into := into, children := some c }
      ctxGet s' = (ctxRem s).head? ∧ ctxRem s' = (ctxRem s).tail ∧
        InvR s'.status s'.ancestors s'.right s'.into := by
  obtain ⟨right, path, anc, ch, into, status⟩ := s
  simp only at hs
  subst hs
  obtain ⟨h1, h2, h3, h4⟩ := h
  obtain ⟨c, into, rfl⟩ := List.exists_cons_of_ne_nil h3
  refine ⟨c, into, rfl, ?_⟩
  have : anc.isEmpty = false := by simpa using h1
  simp only [ctxGet, this, ctxRem, remR]
  exact ⟨rfl, rfl, h1, h2, h4⟩

/-- The result of the search loop. -/
theorem ctxFind_spec [BinNode N V] (ch : Option (Option N × Option N)) (st : List Status) (anc : List V)
    (path : List Nat) (right : List (Option N)) (into : List (Option N × Option N))
    (h : InvR st anc right into) :
    (∃ s, ctxFind ch st anc path right into = .ok (.inl s) ∧
      ctxGet s = (remR st anc path right into).head? ∧ ctxRem s = (remR st anc path right into).tail ∧
      InvR s.status s.ancestors s.right s.into) ∨
    (∃ n s, ctxFind ch st anc path right into = .ok (.inr (n, s)) ∧ s.status ≠ [] ∧
      InvR s.status s.ancestors s.right s.into ∧
      remR st anc path right into =
        inCtx (pushSegment s.status s.path).reverse s.ancestors.reverse (some n) ++ ctxRem s) := by
  fun_induction ctxFind ch st anc path right into with
  | case1 ss anc path right into ih =>
    obtain ⟨h1, h2⟩ := h
    simpa only [remR] using ih h2
  | case2 ss anc path right c into =>
    left
    refine ⟨_, rfl, ?_⟩
    obtain ⟨h1, h2, h3, h4⟩ := h
    have : anc.isEmpty = false := by simpa using h1
    simp only [ctxGet, this, ctxRem, remR]
    exact ⟨rfl, rfl, h1, h2, h4⟩
  | case3 => exact absurd rfl h.2.2.1
  | case4 => exact absurd rfl h.2.1
  | case5 ss anc path n right into =>
    right
    refine ⟨n, _, rfl, by simp, ⟨h.1, h.2.2⟩, ?_⟩
    simp [remR, ctxRem, pushSegment]
  | case6 ss anc path right into ih =>
    have := ih ⟨h.1, h.2.2⟩
    simpa [remR, inCtx] using this
  | case7 =>
    left
    refine ⟨_, rfl, ?_⟩
    obtain ⟨h1, h2, h3⟩ := h
    simp [ctxGet, ctxRem, remR, InvR, h3]
  | case8 => exact absurd h.2.1 (by simp)
  | case9 => exact absurd h.2.1 (by simp)

theorem ctxNext_spec [BinNode N V] (s : CtxState N V) (h : CtxInv s) :
    ∃ s', ctxNext s = .ok ((ctxRem s).head?, s') ∧ ctxRem s' = (ctxRem s).tail ∧ CtxInv s' := by
  obtain ⟨right, path, anc, ch, into, status⟩ := s
  rcases h with h | ⟨root, h1, h2, h3, h4⟩
  · rcases ctxFind_spec ch status anc path right into h with ⟨s', e, i1, i2, i3⟩ | ⟨n, s', e, i1, i2, i3⟩
    · refine ⟨s', ?_, i2, Or.inl i3⟩
      simp only [ctxNext, streamNextE, ctxAdvance, e, i1]
      rfl
    · obtain ⟨j1, j2, j3⟩ := ctxDescend_spec (some n) s' i1 i2
      obtain ⟨ss, hss⟩ := j3 n rfl
      obtain ⟨c, into', hinto, k1, k2, k3⟩ := ctxFinish_spec _ j1 hss
      rw [j2, ← i3] at k1 k2
      refine ⟨_, ?_, k2, Or.inl k3⟩
      simp only [ctxNext, streamNextE, ctxAdvance, e, hss, hinto, k1]
      rfl
  · simp only at h1 h2 h3 h4
    subst h1 h2 h3 h4
    obtain ⟨j1, j2, ss, hss⟩ := ctxDescend_root (V := V) root path ch
    obtain ⟨c, into', hinto, k1, k2, k3⟩ := ctxFinish_spec _ j1 hss
    rw [j2] at k1 k2
    refine ⟨_, ?_, k2, Or.inl k3⟩
    simp only [ctxNext, streamNextE, ctxAdvance, ctxFind, hss, hinto, k1]
    rfl

/-! ## Context, owned: forget the children -/

/-- Forget the saved children. -/
def CtxState.own (s : CtxState N V) : OwnCtxState N V := ⟨s.right, s.path, s.ancestors, s.status⟩

theorem ownFind_sim (ch : Option (Option N × Option N)) (st : List Status) (anc : List V)
    (path : List Nat) (right : List (Option N)) (into : List (Option N × Option N)) :
    (∀ s, ctxFind ch st anc path right into = .ok (.inl s) → ownFind st anc path right = .inl s.own) ∧
    (∀ n s, ctxFind ch st anc path right into = .ok (.inr (n, s)) →
      ownFind st anc path right = .inr (n, s.own)) := by
  fun_induction ctxFind ch st anc path right into with
  | case1 ss anc path right into ih => rw [ownFind]; exact ih
  | case2 ss anc path right c into => rw [ownFind]; simp [CtxState.own]
  | case3 => simp
  | case4 => rw [ownFind]; simp [CtxState.own]
  | case5 => rw [ownFind]; simp [CtxState.own]
  | case6 ss anc path right into ih => rw [ownFind]; exact ih
  | case7 => rw [ownFind]; simp [CtxState.own]
  | case8 => rw [ownFind]; simp [CtxState.own]
  | case9 anc path right into ih => rw [ownFind]; exact ih

theorem ownDescend_sim [LeftNode N V] (cur : Option N) (s : CtxState N V) :
    ownDescend cur s.own = (ctxDescend cur s).own := by
  fun_induction ctxDescend cur s with
  | case1 s => rw [ownDescend]
  | case2 n s ih => rw [ownDescend]; exact ih

theorem ownNext_sim [LeftNode N V] (s s' : CtxState N V) (o : Option (Ctx V (Option N × Option N)))
    (h : ctxNext s = .ok (o, s')) : ownNext s.own = .ok (o.map Ctx.noChildren, s'.own) := by
  have key : ∀ a b : CtxState N V, ctxAdvance a = .ok b → ownAdvance a.own = .ok b.own := by
    intro a b hab
    obtain ⟨f1, f2⟩ := ownFind_sim a.children a.status a.ancestors a.path a.right a.into
    unfold ctxAdvance at hab
    unfold ownAdvance
    cases hf : ctxFind a.children a.status a.ancestors a.path a.right a.into with
    | error e => rw [hf] at hab; cases hab
    | ok r =>
      rw [hf] at hab
      cases r with
      | inl s1 =>
        cases hab
        simp only [CtxState.own, f1 _ hf]
      | inr p =>
        obtain ⟨n, s1⟩ := p
        simp only at hab
        have e : ownFind a.own.status a.own.ancestors a.own.path a.own.right = .inr (n, s1.own) := f2 n s1 hf
        rw [e]
        simp only [ownDescend_sim]
        generalize ctxDescend (some n) s1 = s2 at hab
        obtain ⟨right, path, anc, ch, into, status⟩ := s2
        cases status with
        | nil => cases hab
        | cons st ss =>
          cases into with
          | nil => cases hab
          | cons c into => cases hab; rfl
  simp only [ctxNext, streamNextE, ownNext] at h ⊢
  cases hs : ctxAdvance s with
  | error e => rw [hs] at h; cases h
  | ok b =>
    rw [hs] at h
    cases h
    rw [key s s' hs]
    by_cases hc : s'.ancestors.isEmpty = true <;>
      simp [ownGet, ctxGet, CtxState.own, hc, Ctx.noChildren]

/-! ## Ancestors: also forget the path -/

/-- Forget the path. -/
def OwnCtxState.anc (s : OwnCtxState N V) : AncState N V := ⟨s.right, s.ancestors, s.status⟩

theorem ancFind_sim (st : List Status) (anc : List V) (path : List Nat) (right : List (Option N)) :
    ancFind st anc right =
      match ownFind st anc path right with
      | .inl s => .inl s.anc
      | .inr (n, s) => .inr (n, s.anc) := by
  fun_induction ownFind st anc path right with
  | case1 ss anc path right ih => rw [ancFind]; exact ih
  | case2 => rw [ancFind]; rfl
  | case3 => rw [ancFind]; rfl
  | case4 => rw [ancFind]; rfl
  | case5 ss anc path right ih => rw [ancFind]; exact ih
  | case6 => rw [ancFind]; rfl
  | case7 => rw [ancFind]; rfl
  | case8 anc path right ih => rw [ancFind]; exact ih

theorem ancDescend_sim [LeftNode N V] (cur : Option N) (s : OwnCtxState N V) :
    ancDescend cur s.anc = (ownDescend cur s).anc := by
  fun_induction ownDescend cur s with
  | case1 s => rw [ancDescend]
  | case2 n s ih => rw [ancDescend]; exact ih

theorem ancNext_sim [LeftNode N V] (s s' : OwnCtxState N V) (o : Option (Ctx V (Option N × Option N)))
    (h : ownNext s = .ok (o, s')) : ancNext s.anc = .ok (o.map Ctx.ancestors, s'.anc) := by
  have key : ∀ a b : OwnCtxState N V, ownAdvance a = .ok b → ancAdvance a.anc = .ok b.anc := by
    intro a b hab
    unfold ownAdvance at hab
    unfold ancAdvance
    have e := ancFind_sim a.status a.ancestors a.path a.right
    have e' : ancFind a.anc.status a.anc.items a.anc.right = _ := e
    rw [e']
    cases hf : ownFind a.status a.ancestors a.path a.right with
    | inl s1 => rw [hf] at hab; cases hab; rfl
    | inr p =>
      obtain ⟨n, s1⟩ := p
      rw [hf] at hab
      simp only at hab
      simp only [ancDescend_sim]
      generalize ownDescend (some n) s1 = s2 at hab
      obtain ⟨right, path, anc, status⟩ := s2
      cases status with
      | nil => cases hab
      | cons st ss => cases hab; rfl
  simp only [ownNext, streamNextE, ancNext] at h ⊢
  cases hs : ownAdvance s with
  | error e => rw [hs] at h; cases h
  | ok b =>
    rw [hs] at h
    cases h
    rw [key s s' hs]
    cases hc : s'.ancestors <;> simp [ancGet, ownGet, OwnCtxState.anc, hc]

end Inorder

end TreeIter
