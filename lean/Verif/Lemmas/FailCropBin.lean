import Verif.Lemmas.FailCrop

/-! # Binary preorder contexts up to the first panic of the user's code -/

universe u v w x

namespace TreeIter

namespace Fail

variable {N : Type u} {V : Type v}

/-- A binary node of which nothing is known if it is bad. -/
structure CropB (bad : N → Bool) where
  node : N

instance CropB.instBinNode [BinNode N V] (bad : N → Bool) : BinNode (CropB bad) N where
  split2 c := (c.node, if bad c.node then (none, none) else
    ((split2 c.node).2.1.map CropB.mk, (split2 c.node).2.2.map CropB.mk))
  size2 c := BinNode.size2 c.node
  size2_left := by
    intro n c h
    simp only at h
    split at h
    · simp at h
    · simp only [Option.map_eq_some_iff] at h
      obtain ⟨m, hm, rfl⟩ := h
      exact BinNode.size2_left hm
  size2_right := by
    intro n c h
    simp only at h
    split at h
    · simp at h
    · simp only [Option.map_eq_some_iff] at h
      obtain ⟨m, hm, rfl⟩ := h
      exact BinNode.size2_right hm

theorem val2_crop [BinNode N V] {bad : N → Bool} (c : CropB bad) : val2 c = c.node := rfl

/-- The nodes in a pair of slots. -/
abbrev pairNodes {bad : N → Bool} (p : Option (CropB bad) × Option (CropB bad)) : Option N × Option N :=
  (p.1.map CropB.node, p.2.map CropB.node)

/-- The nodes in a stack of slots. -/
abbrev slotNodes {bad : N → Bool} (st : List (List (Option (CropB bad)))) : List (List (Option N)) :=
  st.map (List.map (Option.map CropB.node))

theorem split2_crop [BinNode N V] {bad : N → Bool} (c : CropB bad) :
    (split2 c).2 = if bad c.node then (none, none) else
      ((split2 c.node).2.1.map CropB.mk, (split2 c.node).2.2.map CropB.mk) := rfl

theorem split2_good [BinNode N V] {bad : N → Bool} (c : CropB bad) (h : bad c.node = false) :
    pairNodes (split2 c).2 = (split2 c.node).2 := by
  have e : ∀ o : Option N, (o.map (CropB.mk : N → CropB bad)).map CropB.node = o := by
    intro o; cases o <;> rfl
  rw [split2_crop, h, if_neg (by simp), pairNodes, e, e]

theorem unfold2_crop [BinNode N V] (bad : N → Bool) (n : N) :
    unfold2 (CropB.mk n : CropB bad) = ((unfold2 n).crop bad).map CropB.mk := by
  induction n using binNode_ind with
  | h n ihl ihr =>
    rw [unfold2_eq, unfold2_eq, BinTree.crop, BinTree.map, split2_crop]
    simp only
    split
    · rfl
    · congr 1
      · cases hl : (split2 n).2.1 with
        | none => rfl
        | some c => simp [BinTree.cropO, BinTree.mapO, ihl c hl]
      · cases hr : (split2 n).2.2 with
        | none => rfl
        | some c => simp [BinTree.cropO, BinTree.mapO, ihr c hr]

/-- The reply for a context. -/
def repC2 [BinNode N V] (bad : N → Bool) (c : Ctx N (Option (CropB bad) × Option (CropB bad))) :
    Option (Ctx V (Option N × Option N)) :=
  if c.ancestors.getLast?.any bad then none
  else some ⟨c.path, c.ancestors.map val2, c.children.map pairNodes⟩

theorem repC2_pos [BinNode N V] (bad : N → Bool) (p : Pos N) (h : p.ancestors.getLast? = some p.item) :
    repC2 bad (p.map (CropB.mk : N → CropB bad)).ctx2 = replyPos bad Pos.ctx2 p := by
  have e : (p.map (CropB.mk : N → CropB bad)).ctx2 =
      ⟨p.path, p.ancestors, some (split2 (CropB.mk p.item : CropB bad)).2⟩ := by
    simp only [Pos.map, Pos.ctx2, List.map_map, Ctx.mk.injEq, true_and]
    exact ⟨List.map_id _, trivial⟩
  rw [e, repC2, replyPos]
  simp only [h, Option.any_some, Option.map_some]
  split
  · rfl
  · rename_i hb
    rw [split2_good _ (by simpa using hb)]
    rfl

theorem map_withPos2_congr {α : Type u} {β : Type v} (F G : Pos α → β)
    (h : ∀ p : Pos α, p.ancestors.getLast? = some p.item → F p = G p) (t : BinTree α) (path : List Nat) (anc : List α) :
    (t.withPos path anc).map F = (t.withPos path anc).map G := by
  induction t using BinTree.ind generalizing path anc with
  | h a l r ihl ihr =>
    rw [BinTree.withPos, BinTree.map, BinTree.map, h _ (by simp)]
    congr 1
    · cases l with
      | none => rfl
      | some l => simp [BinTree.withPosO, BinTree.mapO, ihl l rfl]
    · cases r with
      | none => rfl
      | some r => simp [BinTree.withPosO, BinTree.mapO, ihr r rfl]

theorem located_repC2 [BinNode N V] (bad : N → Bool) (n : N) :
    ((unfold2 (CropB.mk n : CropB bad)).located.map Pos.ctx2).map (repC2 bad) =
      ((unfold2 n).crop bad).located.map (replyPos bad Pos.ctx2) := by
  rw [unfold2_crop, BinTree.located_map, BinTree.map_map, BinTree.map_map, BinTree.located]
  exact map_withPos2_congr _ _ (fun p hp => repC2_pos bad p hp) _ _ _

/-- States of the two iterators before any panic. -/
def PreBinCtxR [BinNode N V] (bad : N → Bool) (c : Preorder.BinCtxState (CropB bad) N) (s : Preorder.BinCtxState N V) :
    Prop :=
  s = ⟨c.root.map CropB.node, slotNodes c.stack, c.path, c.ancestors.map val2, c.children.map pairNodes⟩ ∧
    ∀ x ∈ c.ancestors, bad x = false

theorem preBinCtxLoop_sim [BinNode N V] (bad : N → Bool) (stack : List (List (Option (CropB bad)))) (path : List Nat)
    (anc : List N) (h : ∀ x ∈ anc, bad x = false)
    (r : Option (CropB bad) × List (List (Option (CropB bad))) × List Nat × List N)
    (hr : Preorder.binCtxLoop stack path anc = .ok r) :
    Preorder.binCtxLoop (slotNodes stack) path (anc.map (val2 : N → V)) =
      .ok (r.1.map CropB.node, slotNodes r.2.1, r.2.2.1, r.2.2.2.map val2) ∧ ∀ x ∈ r.2.2.2, bad x = false := by
  fun_induction Preorder.binCtxLoop stack path anc with
  | case1 path anc => cases hr; exact ⟨by simp [Preorder.binCtxLoop], h⟩
  | case2 rest path anc ih =>
    have := ih (fun x hx => h x (List.mem_of_mem_tail hx)) hr
    rw [List.map_tail] at this
    simpa [Preorder.binCtxLoop] using this
  | case3 n ns rest p path anc => cases hr; exact ⟨by simp [Preorder.binCtxLoop], h⟩
  | case4 ss rest p path anc ih =>
    have := ih h hr
    simpa [Preorder.binCtxLoop] using this
  | case5 => cases hr

/-- What `advance` makes of the result of its loop. -/
def preBinDone [BinNode N V] (bad : N → Bool) :
    Except Panic (Option N × List (List (Option N)) × List Nat × List V) →
      Except Panic (Bool × Preorder.BinCtxState N V)
  | .error e => .error e
  | .ok (none, st, path, anc) => .ok (false, Preorder.binCtxFinish (none, st, path, anc))
  | .ok (some n, st, path, anc) =>
    if bad n then .ok (true, ⟨none, st, path, anc, none⟩)
    else .ok (false, Preorder.binCtxFinish (some n, st, path, anc))

theorem preBinDone_some [BinNode N V] (bad : N → Bool) (stack : List (List (Option N))) (path : List Nat) (anc : List V)
    (cs : Option N × Option N) (h : anc.isEmpty = false) :
    preBinCtxAdvance bad ⟨none, stack, path, anc, some cs⟩ =
      preBinDone bad (Preorder.binCtxLoop ([cs.1, cs.2] :: stack) (usizeMax :: path) anc) := by
  simp only [preBinCtxAdvance, h, Bool.false_eq_true, if_false]
  rcases Preorder.binCtxLoop ([cs.1, cs.2] :: stack) (usizeMax :: path) anc with e | ⟨_ | n, st, p, a⟩ <;> rfl

theorem preBinDone_none [BinNode N V] (bad : N → Bool) (stack : List (List (Option N))) (path : List Nat) (anc : List V)
    (h : anc.isEmpty = false) :
    preBinCtxAdvance bad ⟨none, stack, path, anc, none⟩ =
      preBinDone bad (Preorder.binCtxLoop stack (if path.head? = some usizeMax then path.tail else path) anc.tail) := by
  simp only [preBinCtxAdvance, h, Bool.false_eq_true, if_false]
  rcases Preorder.binCtxLoop stack (if path.head? = some usizeMax then path.tail else path) anc.tail with
    e | ⟨_ | n, st, p, a⟩ <;> rfl

theorem preBinCtx_step [BinNode N V] (bad : N → Bool) (c : Preorder.BinCtxState (CropB bad) N)
    (s : Preorder.BinCtxState N V) (o : Option (Ctx N (Option (CropB bad) × Option (CropB bad))))
    (c' : Preorder.BinCtxState (CropB bad) N) (h : PreBinCtxR bad c s)
    (hc : Preorder.binCtxNext c = .ok (o, c')) :
    ∃ s', preBinCtxNext bad s = .ok (o.map (repC2 bad), s') ∧
      (o.map (repC2 bad) ≠ some none → PreBinCtxR bad c' s') := by
  have fin : ∀ (c' : Preorder.BinCtxState (CropB bad) N) (s s' : Preorder.BinCtxState N V) (b : Bool),
      preBinCtxAdvance bad s = .ok (b, s') →
      (b = true → ∃ x xs, c'.ancestors = x :: xs ∧ bad x = true) → (b = false → PreBinCtxR bad c' s') →
      ∃ s', preBinCtxNext bad s = .ok ((Preorder.binCtxGet c').map (repC2 bad), s') ∧
        ((Preorder.binCtxGet c').map (repC2 bad) ≠ some (none : Option (Ctx V (Option N × Option N))) →
          PreBinCtxR bad c' s') := by
    intro c' s s' b hs h1 h2
    refine ⟨s', ?_⟩
    rw [preBinCtxNext, streamNextE, hs]
    cases b with
    | true =>
      obtain ⟨x, xs, e1, e2⟩ := h1 rfl
      simp [Preorder.binCtxGet, e1, repC2, e2]
    | false =>
      obtain ⟨rfl, e2⟩ := h2 rfl
      refine ⟨?_, fun _ => h2 rfl⟩
      cases hr : c'.ancestors with
      | nil => simp [Preorder.binCtxGet, hr]
      | cons x xs =>
        have := e2 x (by simp [hr])
        simp [Preorder.binCtxGet, repC2, this, hr]
  have hadv : ∃ c1, Preorder.binCtxAdvance c = .ok c1 ∧ c' = c1 ∧ o = Preorder.binCtxGet c1 := by
    rw [Preorder.binCtxNext, TreeIter.streamNextE] at hc
    cases ha : Preorder.binCtxAdvance c with
    | error e => rw [ha] at hc; cases hc
    | ok c1 => rw [ha] at hc; cases hc; exact ⟨_, rfl, rfl, rfl⟩
  obtain ⟨c1, ha, rfl, rfl⟩ := hadv
  have tail : ∀ (stack : List (List (Option (CropB bad)))) (path : List Nat) (anc : List N)
      (s : Preorder.BinCtxState N V),
      (∀ x ∈ anc, bad x = false) → (∃ r, Preorder.binCtxLoop stack path anc = .ok r ∧ c' = Preorder.binCtxFinish r) →
      preBinCtxAdvance bad s = preBinDone bad (Preorder.binCtxLoop (slotNodes stack) path (anc.map (val2 : N → V))) →
      ∃ s', preBinCtxNext bad s = .ok ((Preorder.binCtxGet c').map (repC2 bad), s') ∧
        ((Preorder.binCtxGet c').map (repC2 bad) ≠ some (none : Option (Ctx V (Option N × Option N))) →
          PreBinCtxR bad c' s') := by
    intro stack path anc s hg hr hs
    obtain ⟨r, hl, rfl⟩ := hr
    obtain ⟨e1, e2⟩ := preBinCtxLoop_sim (V := V) bad stack path anc hg r hl
    rw [e1] at hs
    obtain ⟨o, st, pa, an⟩ := r
    cases o with
    | none => exact fin _ _ _ false hs (by simp) (fun _ => ⟨rfl, by simp [Preorder.binCtxFinish]⟩)
    | some m =>
      simp only [Option.map_some, preBinDone] at hs
      by_cases hb : bad m.node = true
      · rw [if_pos hb] at hs
        exact fin _ _ _ true hs (fun _ => ⟨_, _, rfl, hb⟩) (by simp)
      · rw [if_neg hb] at hs
        have hb' : bad m.node = false := by simpa using hb
        refine fin _ _ _ false hs (by simp) (fun _ => ⟨?_, ?_⟩)
        · have := split2_good m hb'
          simp only [Preorder.binCtxFinish, Option.map_none, Option.map_some, this, val2_crop, List.map_cons]
        · simpa [Preorder.binCtxFinish, val2_crop, hb'] using e2
  obtain ⟨root, stack, path, anc, ch⟩ := c
  obtain ⟨rfl, hg⟩ := h
  simp only at hg
  cases root with
  | none =>
    simp only [Preorder.binCtxAdvance] at ha
    by_cases he : anc.isEmpty
    · rw [if_pos he] at ha
      cases ha
      refine fin _ _ ⟨none, slotNodes stack, path, anc.map val2, ch.map pairNodes⟩ false ?_ (by simp)
        (fun _ => ⟨rfl, hg⟩)
      simp only [preBinCtxAdvance, Option.map_none]
      rw [if_pos (by simpa using he)]
    · rw [if_neg he] at ha
      have he' : (anc.map (val2 : N → V)).isEmpty = false := by simpa using he
      cases ch with
      | some cs =>
        simp only at ha
        cases hl : Preorder.binCtxLoop ([cs.1, cs.2] :: stack) (usizeMax :: path) anc with
        | error e => rw [hl] at ha; cases ha
        | ok r => rw [hl] at ha; cases ha; exact tail _ _ _ _ hg ⟨r, hl, rfl⟩ (preBinDone_some bad _ _ _ _ he')
      | none =>
        simp only at ha
        cases hl : Preorder.binCtxLoop stack (if path.head? = some usizeMax then path.tail else path) anc.tail with
        | error e => rw [hl] at ha; cases ha
        | ok r =>
          rw [hl] at ha
          cases ha
          refine tail _ _ _ _ (fun x hx => hg x (List.mem_of_mem_tail hx)) ⟨r, hl, rfl⟩ ?_
          rw [List.map_tail]
          exact preBinDone_none bad _ _ _ he'
  | some r =>
    simp only [Preorder.binCtxAdvance] at ha
    rw [val2_crop] at ha
    cases ha
    by_cases hb : bad r.node = true
    · refine fin _ _ ⟨none, slotNodes stack, path, anc.map val2, ch.map pairNodes⟩ true ?_
        (fun _ => ⟨_, _, rfl, hb⟩) (by simp)
      simp [preBinCtxAdvance, hb]
    · have hb' : bad r.node = false := by simpa using hb
      refine fin _ _ ⟨none, slotNodes stack, path, val2 r.node :: anc.map val2, some (split2 r.node).2⟩ false ?_ (by simp)
        (fun _ => ⟨?_, by simpa [hb'] using hg⟩)
      · simp [preBinCtxAdvance, hb']
      · have := split2_good r hb'
        simp only [Option.map_none, Option.map_some, this, List.map_cons]

end Fail

end TreeIter
