import Verif.Lemmas.FailCropCtx
import Verif.Lemmas.FailBfsBin
import Verif.Lemmas.FailCropBin
import Verif.Spec.FailGet

/-! # What the states that a panic of the user's code leaves show -/

universe u v w x

namespace TreeIter

namespace Fail

variable {N : Type u} {V : Type v}

/-- What is left of a context over the cropped tree. -/
def leftC [TreeNode N V] {bad : N → Bool} (ch : Option (List N)) (x : Ctx N (List (Crop bad))) : Option (Ctx V (List N)) :=
  if x.ancestors.length ≤ 1 then none else some ⟨x.path, x.ancestors.dropLast.map val, ch⟩

/-- What is left of a context over the cropped binary tree. -/
def leftC2 [BinNode N V] {bad : N → Bool} (ch : Option (Option N × Option N))
    (x : Ctx N (Option (CropB bad) × Option (CropB bad))) : Option (Ctx V (Option N × Option N)) :=
  if x.ancestors.length ≤ 1 then none else some ⟨x.path, x.ancestors.dropLast.map val2, ch⟩

theorem streamNextE_failed {S : Type u} {O : Type v} {advance : S → Except Panic (Bool × S)} {get : S → Option O}
    {s s' : S} (hs : streamNextE advance get s = .ok (some none, s')) : advance s = .ok (true, s') := by
  rw [streamNextE] at hs
  cases ha : advance s with
  | error e => rw [ha] at hs; cases hs
  | ok r =>
    obtain ⟨b, s1⟩ := r
    rw [ha] at hs
    cases b with
    | true => simp only [Except.ok.injEq, Prod.mk.injEq] at hs; rw [hs.2]
    | false =>
      exfalso
      simp only [Except.ok.injEq, Prod.mk.injEq] at hs
      have := hs.1
      cases hg : get s1 <;> rw [hg] at this <;> simp at this

theorem streamNextE_some {S : Type u} {O : Type v} {advance : S → Except Panic S} {get : S → Option O} {s s' : S}
    {o : Option O} (hs : TreeIter.streamNextE advance get s = .ok (o, s')) : advance s = .ok s' ∧ get s' = o := by
  rw [TreeIter.streamNextE] at hs
  cases ha : advance s with
  | error e => rw [ha] at hs; cases hs
  | ok s1 =>
    rw [ha] at hs
    simp only [Except.ok.injEq, Prod.mk.injEq] at hs
    exact ⟨by rw [hs.2], by rw [← hs.1, hs.2]⟩

/-! ## Preorder with context -/

/-- States before any panic; nothing has been handed out while the root is there. -/
def PreCtxR' [TreeNode N V] (bad : N → Bool) (c : Preorder.CtxState (Crop bad) N) (s : Preorder.CtxState N V) : Prop :=
  PreCtxR bad c s ∧ (c.root ≠ none → c.ancestors = [])

theorem preCtx_root [TreeNode N V] (c c' : Preorder.CtxState N V) (o : Option (Ctx V (List N)))
    (hc : Preorder.ctxNext c = .ok (o, c')) : c'.root = none := by
  obtain ⟨ha, -⟩ := streamNextE_some hc
  obtain ⟨root, stack, path, anc, ch⟩ := c
  cases root with
  | some r => cases ha; rfl
  | none =>
    simp only [Preorder.ctxAdvance] at ha
    split at ha
    · cases ha; rfl
    · cases ch with
      | some cs =>
        simp only at ha
        revert ha
        rcases Preorder.ctxLoop (cs :: stack) (usizeMax :: path) anc with e | ⟨_ | n, st, p, a⟩ <;> intro ha <;> cases ha <;>
          rfl
      | none =>
        simp only at ha
        revert ha
        rcases Preorder.ctxLoop stack (if path.head? = some usizeMax then path.tail else path) anc.tail with
          e | ⟨_ | n, st, p, a⟩ <;> intro ha <;> cases ha <;> rfl

theorem preCtx_step' [TreeNode N V] (bad : N → Bool) (c : Preorder.CtxState (Crop bad) N) (s : Preorder.CtxState N V)
    (o : Option (Ctx N (List (Crop bad)))) (c' : Preorder.CtxState (Crop bad) N) (h : PreCtxR' bad c s)
    (hc : Preorder.ctxNext c = .ok (o, c')) :
    ∃ s', preCtxNext bad s = .ok (o.map (repC bad), s') ∧ (o.map (repC bad) ≠ some none → PreCtxR' bad c' s') := by
  obtain ⟨s', h1, h2⟩ := preCtx_step bad c s o c' h.1 hc
  exact ⟨s', h1, fun h3 => ⟨h2 h3, fun h4 => absurd (preCtx_root _ _ _ hc) h4⟩⟩

/-- What a panic leaves to be seen. -/
theorem preCtx_left [TreeNode N V] (bad : N → Bool) (c : Preorder.CtxState (Crop bad) N) (s s' : Preorder.CtxState N V)
    (x : Ctx N (List (Crop bad))) (c' : Preorder.CtxState (Crop bad) N) (h : PreCtxR' bad c s)
    (hc : Preorder.ctxNext c = .ok (some x, c')) (hs : preCtxNext bad s = .ok (some none, s')) :
    Preorder.ctxGet s' = leftC none x := by
  obtain ⟨ha, hx⟩ := streamNextE_some hc
  have hs' := streamNextE_failed hs
  obtain ⟨⟨rfl, hg⟩, hr⟩ := h
  obtain ⟨root, stack, path, anc, ch⟩ := c
  simp only at hg hr hs'
  have tail : ∀ (stack : List (List (Crop bad))) (path : List Nat) (anc : List N),
      (∀ x ∈ anc, bad x = false) → (∃ r, Preorder.ctxLoop stack path anc = .ok r ∧ c' = Preorder.ctxFinish r) →
      preDone bad (Preorder.ctxLoop (nodes stack) path (anc.map (val : N → V))) = .ok (true, s') →
      Preorder.ctxGet s' = leftC none x := by
    intro stack path anc hg hr hs
    obtain ⟨r, hl, rfl⟩ := hr
    obtain ⟨e1, e2⟩ := preCtxLoop_sim (V := V) bad stack path anc hg r hl
    rw [e1] at hs
    obtain ⟨o, st, pa, an⟩ := r
    cases o with
    | none => simp [preDone] at hs
    | some m =>
      simp only [Option.map_some, preDone] at hs
      by_cases hb : bad m.node = true
      · rw [if_pos hb] at hs
        cases hs
        simp only [Preorder.ctxGet, Preorder.ctxFinish, List.isEmpty_cons, Bool.false_eq_true, if_false,
          Option.some.injEq] at hx
        subst hx
        cases an <;> simp [Preorder.ctxGet, leftC]
      · rw [if_neg hb] at hs
        simp at hs
  cases root with
  | none =>
    simp only [Preorder.ctxAdvance] at ha
    by_cases he : anc.isEmpty
    · rw [if_pos he] at ha
      cases ha
      simp [Preorder.ctxGet, he] at hx
    · rw [if_neg he] at ha
      have he' : (anc.map (val : N → V)).isEmpty = false := by simpa using he
      cases ch with
      | some cs =>
        simp only at ha
        simp only [Option.map_none, Option.map_some] at hs'
        rw [preDone_some bad _ _ _ _ he'] at hs'
        cases hl : Preorder.ctxLoop (cs :: stack) (usizeMax :: path) anc with
        | error e => rw [hl] at ha; cases ha
        | ok r => rw [hl] at ha; cases ha; exact tail _ _ _ hg ⟨r, hl, rfl⟩ hs'
      | none =>
        simp only at ha
        simp only [Option.map_none] at hs'
        rw [preDone_none bad _ _ _ he', ← List.map_tail] at hs'
        cases hl : Preorder.ctxLoop stack (if path.head? = some usizeMax then path.tail else path) anc.tail with
        | error e => rw [hl] at ha; cases ha
        | ok r =>
          rw [hl] at ha
          cases ha
          exact tail _ _ _ (fun x hx => hg x (List.mem_of_mem_tail hx)) ⟨r, hl, rfl⟩ hs'
  | some r =>
    obtain rfl := hr (by simp)
    simp only [Preorder.ctxAdvance] at ha
    cases ha
    by_cases hb : bad r.node = true
    · simp [preCtxAdvance, hb] at hs'
      subst hs'
      simp [Preorder.ctxGet] at hx
      subst hx
      simp [Preorder.ctxGet, leftC]
    · simp [preCtxAdvance, hb] at hs'

/-! ## Binary preorder with context -/

/-- States before any panic; nothing has been handed out while the root is there. -/
def PreBinCtxR' [BinNode N V] (bad : N → Bool) (c : Preorder.BinCtxState (CropB bad) N) (s : Preorder.BinCtxState N V) :
    Prop :=
  PreBinCtxR bad c s ∧ (c.root ≠ none → c.ancestors = [])

theorem preBinCtx_root [BinNode N V] (c c' : Preorder.BinCtxState N V) (o : Option (Ctx V (Option N × Option N)))
    (hc : Preorder.binCtxNext c = .ok (o, c')) : c'.root = none := by
  obtain ⟨ha, -⟩ := streamNextE_some hc
  obtain ⟨root, stack, path, anc, ch⟩ := c
  cases root with
  | some r => cases ha; rfl
  | none =>
    simp only [Preorder.binCtxAdvance] at ha
    split at ha
    · cases ha; rfl
    · cases ch with
      | some cs =>
        simp only at ha
        revert ha
        rcases Preorder.binCtxLoop ([cs.1, cs.2] :: stack) (usizeMax :: path) anc with e | ⟨_ | n, st, p, a⟩ <;> intro ha <;> cases ha <;>
          rfl
      | none =>
        simp only at ha
        revert ha
        rcases Preorder.binCtxLoop stack (if path.head? = some usizeMax then path.tail else path) anc.tail with
          e | ⟨_ | n, st, p, a⟩ <;> intro ha <;> cases ha <;> rfl

theorem preBinCtx_step' [BinNode N V] (bad : N → Bool) (c : Preorder.BinCtxState (CropB bad) N)
    (s : Preorder.BinCtxState N V) (o : Option (Ctx N (Option (CropB bad) × Option (CropB bad))))
    (c' : Preorder.BinCtxState (CropB bad) N) (h : PreBinCtxR' bad c s) (hc : Preorder.binCtxNext c = .ok (o, c')) :
    ∃ s', preBinCtxNext bad s = .ok (o.map (repC2 bad), s') ∧
      (o.map (repC2 bad) ≠ some none → PreBinCtxR' bad c' s') := by
  obtain ⟨s', h1, h2⟩ := preBinCtx_step bad c s o c' h.1 hc
  exact ⟨s', h1, fun h3 => ⟨h2 h3, fun h4 => absurd (preBinCtx_root _ _ _ hc) h4⟩⟩

/-- What a panic leaves to be seen. -/
theorem preBinCtx_left [BinNode N V] (bad : N → Bool) (c : Preorder.BinCtxState (CropB bad) N)
    (s s' : Preorder.BinCtxState N V) (x : Ctx N (Option (CropB bad) × Option (CropB bad)))
    (c' : Preorder.BinCtxState (CropB bad) N) (h : PreBinCtxR' bad c s)
    (hc : Preorder.binCtxNext c = .ok (some x, c')) (hs : preBinCtxNext bad s = .ok (some none, s')) :
    Preorder.binCtxGet s' = leftC2 none x := by
  obtain ⟨ha, hx⟩ := streamNextE_some hc
  have hs' := streamNextE_failed hs
  obtain ⟨⟨rfl, hg⟩, hr⟩ := h
  obtain ⟨root, stack, path, anc, ch⟩ := c
  simp only at hg hr hs'
  have tail : ∀ (stack : List (List (Option (CropB bad)))) (path : List Nat) (anc : List N),
      (∀ x ∈ anc, bad x = false) → (∃ r, Preorder.binCtxLoop stack path anc = .ok r ∧ c' = Preorder.binCtxFinish r) →
      preBinDone bad (Preorder.binCtxLoop (slotNodes stack) path (anc.map (val2 : N → V))) = .ok (true, s') →
      Preorder.binCtxGet s' = leftC2 none x := by
    intro stack path anc hg hr hs
    obtain ⟨r, hl, rfl⟩ := hr
    obtain ⟨e1, e2⟩ := preBinCtxLoop_sim (V := V) bad stack path anc hg r hl
    rw [e1] at hs
    obtain ⟨o, st, pa, an⟩ := r
    cases o with
    | none => simp [preBinDone] at hs
    | some m =>
      simp only [Option.map_some, preBinDone] at hs
      by_cases hb : bad m.node = true
      · rw [if_pos hb] at hs
        cases hs
        simp only [Preorder.binCtxGet, Preorder.binCtxFinish, List.isEmpty_cons, Bool.false_eq_true, if_false,
          Option.some.injEq] at hx
        subst hx
        cases an <;> simp [Preorder.binCtxGet, leftC2]
      · rw [if_neg hb] at hs
        simp at hs
  cases root with
  | none =>
    simp only [Preorder.binCtxAdvance] at ha
    by_cases he : anc.isEmpty
    · rw [if_pos he] at ha
      cases ha
      simp [Preorder.binCtxGet, he] at hx
    · rw [if_neg he] at ha
      have he' : (anc.map (val2 : N → V)).isEmpty = false := by simpa using he
      cases ch with
      | some cs =>
        simp only at ha
        simp only [Option.map_none, Option.map_some] at hs'
        rw [preBinDone_some bad _ _ _ _ he'] at hs'
        cases hl : Preorder.binCtxLoop ([cs.1, cs.2] :: stack) (usizeMax :: path) anc with
        | error e => rw [hl] at ha; cases ha
        | ok r => rw [hl] at ha; cases ha; exact tail _ _ _ hg ⟨r, hl, rfl⟩ hs'
      | none =>
        simp only at ha
        simp only [Option.map_none] at hs'
        rw [preBinDone_none bad _ _ _ he', ← List.map_tail] at hs'
        cases hl : Preorder.binCtxLoop stack (if path.head? = some usizeMax then path.tail else path) anc.tail with
        | error e => rw [hl] at ha; cases ha
        | ok r =>
          rw [hl] at ha
          cases ha
          exact tail _ _ _ (fun x hx => hg x (List.mem_of_mem_tail hx)) ⟨r, hl, rfl⟩ hs'
  | some r =>
    obtain rfl := hr (by simp)
    simp only [Preorder.binCtxAdvance] at ha
    cases ha
    by_cases hb : bad r.node = true
    · simp [preBinCtxAdvance, hb] at hs'
      subst hs'
      simp [Preorder.binCtxGet] at hx
      subst hx
      simp [Preorder.binCtxGet, leftC2]
    · simp [preBinCtxAdvance, hb] at hs'

/-! ## Breadth-first with context -/

/-- What a panic leaves to be seen. -/
theorem bfsCtx_left [TreeNode N V] (bad : N → Bool) (c : Bfs.CtxState N (List (Crop bad)) (Crop bad))
    (s s' : Bfs.CtxState V (List N) N) (x : Ctx N (List (Crop bad))) (c' : Bfs.CtxState N (List (Crop bad)) (Crop bad))
    (h : BfsCtxR bad c s) (hc : Bfs.ctxNext c = .ok (some x, c')) (hs : bfsCtxNext bad s = .ok (some none, s')) :
    Bfs.ctxGet s' = leftC none x := by
  obtain ⟨ha, hx⟩ := streamNextE_some hc
  have hs' := streamNextE_failed hs
  obtain ⟨isRoot, cc, ch, q, ct⟩ := c
  obtain ⟨rfl, hg⟩ := h
  cases isRoot with
  | true => simp [bfsCtxAdvance, Bfs.CtxState.mapG] at hs'
  | false =>
    simp only [Bfs.ctxAdvance, Bool.false_eq_true, if_false] at ha
    by_cases he : cc.ancestors.isEmpty
    · rw [if_pos he] at ha
      cases ha
      simp [Bfs.ctxGet, he] at hx
    · rw [if_neg he] at ha
      cases ch with
      | none => cases ha
      | some cs =>
        simp only at ha
        obtain ⟨b, s1, e1, e2, e3, e4, e5⟩ := bfsCtxLoop_sim (V := V) bad _ _ _ _ ha
        have he' : ¬ (cc.map (val : N → V)).ancestors.isEmpty = true := by simpa [Bfs.CtxCache.map] using he
        have hq : nodes (q ++ [cs]) = nodes q ++ [cs.map Crop.node] := by simp
        rw [hq] at e1
        change bfsCtxAdvance bad ⟨false, cc.map val, some (cs.map Crop.node), nodes q, ct⟩ = _ at hs'
        rw [bfsCtxAdvance, if_neg (by simp), if_neg he'] at hs'
        simp only [e1, Except.ok.injEq, Prod.mk.injEq] at hs'
        obtain ⟨rfl, rfl⟩ := hs'
        obtain ⟨h1, h2, h3, h4⟩ := e5 rfl
        rw [Bfs.ctxGet] at hx ⊢
        split at hx
        · cases hx
        · cases hx
          rw [h2, h3, h4]
          rcases c'.cc.ancestors with _ | ⟨a, _ | ⟨b, as⟩⟩ <;> simp [leftC]

/-- What a panic leaves to be seen. -/
theorem bfsBinCtx_left [BinNode N V] (bad : N → Bool)
    (c : Bfs.CtxState N (Option (CropB bad) × Option (CropB bad)) (Option (CropB bad)))
    (s s' : Bfs.CtxState V (Option N × Option N) (Option N)) (x : Ctx N (Option (CropB bad) × Option (CropB bad)))
    (c' : Bfs.CtxState N (Option (CropB bad) × Option (CropB bad)) (Option (CropB bad)))
    (h : BfsBinCtxR bad c s) (hc : Bfs.binCtxNext c = .ok (some x, c')) (hs : bfsBinCtxNext bad s = .ok (some none, s')) :
    Bfs.ctxGet s' = leftC2 none x := by
  obtain ⟨ha, hx⟩ := streamNextE_some hc
  have hs' := streamNextE_failed hs
  obtain ⟨isRoot, cc, ch, q, ct⟩ := c
  obtain ⟨rfl, hg⟩ := h
  cases isRoot with
  | true => simp [bfsBinCtxAdvance, binMapG] at hs'
  | false =>
    simp only [Bfs.binCtxAdvance, Bool.false_eq_true, if_false] at ha
    by_cases he : cc.ancestors.isEmpty
    · rw [if_pos he] at ha
      cases ha
      simp [Bfs.ctxGet, he] at hx
    · rw [if_neg he] at ha
      cases ch with
      | none => cases ha
      | some cs =>
        simp only at ha
        obtain ⟨b, s1, e1, e2, e3, e4, -, e5⟩ := bfsBinCtxLoop_sim (V := V) bad _ _ _ _ ha
        have he' : ¬ (cc.map (val2 : N → V)).ancestors.isEmpty = true := by simpa [Bfs.CtxCache.map] using he
        have hq : slotNodes (q ++ [[cs.1, cs.2]]) = slotNodes q ++ [[cs.1.map CropB.node, cs.2.map CropB.node]] := by simp
        rw [hq] at e1
        change bfsBinCtxAdvance bad ⟨false, cc.map val2, some (pairNodes cs), slotNodes q, ct⟩ = _ at hs'
        rw [bfsBinCtxAdvance, if_neg (by simp), if_neg he'] at hs'
        simp only [e1, Except.ok.injEq, Prod.mk.injEq] at hs'
        obtain ⟨rfl, rfl⟩ := hs'
        obtain ⟨h1, h2, h3, h4⟩ := e5 rfl
        rw [Bfs.ctxGet] at hx ⊢
        split at hx
        · cases hx
        · cases hx
          rw [h2, h3, h4]
          rcases c'.cc.ancestors with _ | ⟨a, _ | ⟨b, as⟩⟩ <;> simp [leftC2]

/-! ## Postorder with context -/

/-- States before any panic; nothing has been handed out while the root is there. -/
def PostCtxR' [TreeNode N V] (bad : N → Bool) (c : Postorder.CtxState (Crop bad) N) (s : Postorder.CtxState N V) : Prop :=
  PostCtxR bad c s ∧ (c.root ≠ none → c.ancestors = [])

theorem postCtxLoop_root [TreeNode N V] (stack into : List (List N)) (path : List Nat) (anc : List V)
    (r : Postorder.CtxState N V) (hr : Postorder.ctxLoop stack into path anc = .ok r) : r.root = none := by
  fun_induction Postorder.ctxLoop stack into path anc with
  | case1 n ns rest into p path anc ih => exact ih hr
  | case2 => cases hr
  | case3 => cases hr; rfl
  | case4 => cases hr; rfl
  | case5 => cases hr
  | case6 => cases hr

theorem postCtx_root [TreeNode N V] (c c' : Postorder.CtxState N V) (o : Option (Ctx V (List N)))
    (hc : Postorder.ctxNext c = .ok (o, c')) : c'.root = none := by
  obtain ⟨ha, -⟩ := streamNextE_some hc
  obtain ⟨root, stack, into, path, anc, ch⟩ := c
  cases root with
  | some r => exact postCtxLoop_root _ _ _ _ _ ha
  | none =>
    simp only [Postorder.ctxAdvance] at ha
    split at ha
    · cases ha; rfl
    · exact postCtxLoop_root _ _ _ _ _ ha

theorem postCtx_step' [TreeNode N V] (bad : N → Bool) (c : Postorder.CtxState (Crop bad) N) (s : Postorder.CtxState N V)
    (o : Option (Ctx N (List (Crop bad)))) (c' : Postorder.CtxState (Crop bad) N) (h : PostCtxR' bad c s)
    (hc : Postorder.ctxNext c = .ok (o, c')) :
    ∃ s', postCtxNext bad s = .ok (o.map (repC bad), s') ∧ (o.map (repC bad) ≠ some none → PostCtxR' bad c' s') := by
  obtain ⟨s', h1, h2⟩ := postCtx_step bad c s o c' h.1 hc
  exact ⟨s', h1, fun h3 => ⟨h2 h3, fun h4 => absurd (postCtx_root _ _ _ hc) h4⟩⟩

theorem postCtxLoop_left [TreeNode N V] (bad : N → Bool) (ch : Option (List N)) (stack into : List (List (Crop bad)))
    (path : List Nat) (anc : List N) (h : ∀ x ∈ anc, bad x = false) (r : Postorder.CtxState (Crop bad) N)
    (hr : Postorder.ctxLoop stack into path anc = .ok r) (s : Postorder.CtxState N V)
    (hs : postCtxLoop bad ch (nodes stack) (nodes into) path (anc.map (val : N → V)) = .ok (true, s)) :
    s.path = r.path ∧ s.ancestors = r.ancestors.tail.map val ∧ s.children = ch := by
  fun_induction Postorder.ctxLoop stack into path anc with
  | case1 n ns rest into p path anc ih =>
    rw [val_crop] at ih hr
    by_cases hb : bad n.node = true
    · rw [kids_bad n hb, Postorder.ctxLoop] at hr
      cases hr
      simp only [List.map_cons] at hs
      rw [postCtxLoop, if_pos hb] at hs
      cases hs
      simp
    · have hb' : bad n.node = false := by simpa using hb
      refine ih (by simpa [hb'] using h) hr ?_
      simpa [postCtxLoop, hb', kids_good n hb'] using hs
  | case2 => cases hr
  | case3 rest c into path anc =>
    simp only [List.map_cons, List.map_nil] at hs
    rw [postCtxLoop] at hs
    cases hs
  | case4 c into path anc =>
    simp only [List.map_cons, List.map_nil] at hs
    rw [postCtxLoop] at hs
    cases hs
  | case5 => cases hr
  | case6 => cases hr

/-- What a panic leaves to be seen: the children are those of the state before. -/
theorem postCtx_left [TreeNode N V] (bad : N → Bool) (c : Postorder.CtxState (Crop bad) N) (s s' : Postorder.CtxState N V)
    (x : Ctx N (List (Crop bad))) (c' : Postorder.CtxState (Crop bad) N) (h : PostCtxR' bad c s)
    (hc : Postorder.ctxNext c = .ok (some x, c')) (hs : postCtxNext bad s = .ok (some none, s')) :
    Postorder.ctxGet s' = leftC (c.children.map (List.map Crop.node)) x := by
  obtain ⟨ha, hx⟩ := streamNextE_some hc
  have hs' := streamNextE_failed hs
  obtain ⟨⟨rfl, hg⟩, hr⟩ := h
  obtain ⟨root, stack, into, path, anc, ch⟩ := c
  simp only at hg hr hs'
  have fin : s'.path = c'.path ∧ s'.ancestors = c'.ancestors.tail.map val ∧ s'.children = ch.map (List.map Crop.node) →
      Postorder.ctxGet s' = leftC (ch.map (List.map Crop.node)) x := by
    rintro ⟨e1, e2, e3⟩
    rw [Postorder.ctxGet] at hx ⊢
    split at hx
    · cases hx
    · cases hx
      rw [e1, e2, e3]
      rcases c'.ancestors with _ | ⟨a, _ | ⟨b, as⟩⟩ <;> simp [leftC]
  cases root with
  | none =>
    simp only [Postorder.ctxAdvance] at ha
    simp only [postCtxAdvance, Option.map_none] at hs'
    by_cases he : anc.tail.isEmpty
    · rw [if_pos (by rw [List.isEmpty_iff] at he ⊢; rw [← List.map_tail, he]; rfl)] at hs'
      cases hs'
    · rw [if_neg he] at ha
      rw [← List.map_tail, if_neg (fun hh => he (by
        rw [List.isEmpty_iff] at hh ⊢
        exact List.map_eq_nil_iff.1 hh))] at hs'
      exact fin (postCtxLoop_left bad _ _ _ _ _ (fun x hx => hg x (List.mem_of_mem_tail hx)) _ ha _ hs')
  | some r =>
    obtain rfl := hr (by simp)
    simp only [Postorder.ctxAdvance] at ha
    rw [val_crop] at ha
    by_cases hb : bad r.node = true
    · rw [kids_bad r hb, Postorder.ctxLoop] at ha
      cases ha
      simp only [postCtxAdvance, Option.map_some, hb, if_true, Except.ok.injEq, Prod.mk.injEq, true_and] at hs'
      subst hs'
      simp [Postorder.ctxGet] at hx
      subst hx
      simp [Postorder.ctxGet, leftC]
    · have hb' : bad r.node = false := by simpa using hb
      refine fin (postCtxLoop_left bad _ (kids r :: stack) (kids r :: into) _ [r.node] (by simpa using hb') _ ha _ ?_)
      simpa [postCtxAdvance, hb', kids_good r hb'] using hs'

/-! ## From calls to positions -/

/-- Like `stateAfterE_until_fail`, with the number of calls of the ordinary iterator. -/
theorem statesE_until_fail {S : Type u} {C : Type v} {P : Type w} {O : Type x}
    {next : S → Except Panic (Option (Option O) × S)} {nextC : C → Except Panic (Option P × C)} (f : P → Option O)
    (R : C → S → Prop) (step : ∀ c s o c', R c s → nextC c = .ok (o, c') →
      ∃ s', next s = .ok (o.map f, s') ∧ (o.map f ≠ some none → R c' s'))
    (k : Nat) (c : C) (s : S) (h : R c s) (l : List P) (hl : ∀ j, nthCallE nextC j c = .ok l[j]?)
    (hg : ∀ j < k, (l.map f)[j]? ≠ some none) :
    ∃ c' c'' s' s'', stateAfterE nextC k c = .ok c' ∧ R c' s' ∧ nextC c' = .ok (l[k]?, c'') ∧
      stateAfterE next (k + 1) s = .ok s'' ∧ next s' = .ok ((l.map f)[k]?, s'') := by
  have first : ∀ (c : C) (l : List P), (∀ j, nthCallE nextC j c = .ok l[j]?) → ∃ c', nextC c = .ok (l[0]?, c') := by
    intro c l hl
    have h0 := hl 0
    rw [nthCallE, stateAfterE] at h0
    simp only at h0
    cases hn : nextC c with
    | error e => rw [hn] at h0; cases h0
    | ok r =>
      rw [hn] at h0
      simp only [Except.ok.injEq] at h0
      exact ⟨r.2, by rw [← h0]⟩
  induction k generalizing c s l with
  | zero =>
    obtain ⟨c', hc'⟩ := first c l hl
    obtain ⟨s', h1, -⟩ := step c s _ c' h hc'
    refine ⟨c, c', s, s', rfl, h, hc', ?_, by rw [h1, List.getElem?_map]⟩
    rw [stateAfterE, h1]
    rfl
  | succ k ih =>
    obtain ⟨c', hc'⟩ := first c l hl
    obtain ⟨s', h1, h2⟩ := step c s _ c' h hc'
    obtain ⟨c1, c2, s1, s2, e0, e1, e2, e3, e4⟩ := ih c' s'
      (h2 (by rw [← List.getElem?_map]; exact hg 0 (by omega))) l.tail
      (fun j => by
        rw [List.getElem?_tail, ← hl (j + 1), nthCallE, nthCallE, stateAfterE, hc'])
      (fun j hj => by rw [List.map_tail, List.getElem?_tail]; exact hg (j + 1) (by omega))
    rw [List.getElem?_tail] at e2
    rw [List.map_tail, List.getElem?_tail] at e4
    refine ⟨c1, c2, s1, s2, ?_, e1, e2, ?_, e4⟩
    · rw [stateAfterE, hc']
      exact e0
    · rw [stateAfterE, h1]
      exact e3

/-- A node has one ancestor more than its path has segments, itself last. -/
theorem withPos_shape {α : Type u} (t : Tree α) (path : List Nat) (anc : List α) :
    ∀ p ∈ (t.withPos path anc).preorder,
      p.ancestors.length + path.length = p.path.length + anc.length + 1 ∧ p.ancestors.getLast? = some p.item := by
  induction t using Tree.ind generalizing path anc with
  | h a cs ih =>
    rw [Tree.withPos, Tree.preorder_node]
    intro p hp
    rcases List.mem_cons.1 hp with rfl | hp
    · simp only [List.length_append, List.length_cons, List.length_nil, List.getLast?_append, List.getLast?_singleton,
        Option.some_or, and_true]
      omega
    · clear * - ih hp
      have key : ∀ (i : Nat) (anc' : List α), p ∈ (Tree.withPosL path anc' i cs).flatMap Tree.preorder →
          p.ancestors.length + path.length + 1 = p.path.length + anc'.length + 1 ∧ p.ancestors.getLast? = some p.item := by
        clear hp
        induction cs with
        | nil => intro i anc' hp; simp [Tree.withPosL] at hp
        | cons c cs ih' =>
          intro i anc' hp
          rw [Tree.withPosL, List.flatMap_cons, List.mem_append] at hp
          rcases hp with hp | hp
          · obtain ⟨h1, h2⟩ := ih c (by simp) _ _ p hp
            rw [List.length_append, List.length_cons, List.length_nil] at h1
            exact ⟨by omega, h2⟩
          · exact ih' (fun c hc => ih c (by simp [hc])) _ _ hp
      obtain ⟨h1, h2⟩ := key _ _ hp
      rw [List.length_append, List.length_cons, List.length_nil] at h1
      exact ⟨by omega, h2⟩

theorem located_shape {α : Type u} (t : Tree α) (p : Pos α) (hp : p ∈ t.located.preorder) :
    p.ancestors.length = p.path.length + 1 ∧ p.ancestors.getLast? = some p.item := by
  have := withPos_shape t [] [] p hp
  exact ⟨by simpa using this.1, this.2⟩

theorem withPos2_shape {α : Type u} (t : BinTree α) (path : List Nat) (anc : List α) :
    ∀ p ∈ (t.withPos path anc).toTree.preorder,
      p.ancestors.length + path.length = p.path.length + anc.length + 1 ∧ p.ancestors.getLast? = some p.item := by
  induction t using BinTree.ind generalizing path anc with
  | h a l r ihl ihr =>
    intro p hp
    rw [BinTree.withPos, BinTree.toTree, Tree.preorder_node] at hp
    rcases List.mem_cons.1 hp with rfl | hp
    · simp only [List.length_append, List.length_cons, List.length_nil, List.getLast?_append, List.getLast?_singleton,
        Option.some_or, and_true]
      omega
    · have key : ∀ (c : BinTree α) (i : Nat), (l = some c ∨ r = some c) →
          p ∈ (c.withPos (path ++ [i]) (anc ++ [a])).toTree.preorder →
          p.ancestors.length + path.length = p.path.length + anc.length + 1 ∧ p.ancestors.getLast? = some p.item := by
        intro c i hc hp
        have := hc.elim (fun hc => ihl c hc _ _ p hp) (fun hc => ihr c hc _ _ p hp)
        obtain ⟨h1, h2⟩ := this
        simp only [List.length_append, List.length_cons, List.length_nil] at h1
        exact ⟨by omega, h2⟩
      cases l with
      | none =>
        cases r with
        | none => simp [BinTree.withPosO, BinTree.slotTrees] at hp
        | some r => exact key r 1 (.inr rfl) (by simpa [BinTree.withPosO, BinTree.slotTrees] using hp)
      | some l =>
        cases r with
        | none => exact key l 0 (.inl rfl) (by simpa [BinTree.withPosO, BinTree.slotTrees] using hp)
        | some r =>
          have hp' : p ∈ (l.withPos (path ++ [0]) (anc ++ [a])).toTree.preorder ∨
              p ∈ (r.withPos (path ++ [1]) (anc ++ [a])).toTree.preorder := by
            simpa [BinTree.withPosO, BinTree.slotTrees] using hp
          exact hp'.elim (key l 0 (.inl rfl)) (key r 1 (.inr rfl))

theorem located2_shape {α : Type u} (t : BinTree α) (p : Pos α) (hp : p ∈ t.located.toTree.preorder) :
    p.ancestors.length = p.path.length + 1 ∧ p.ancestors.getLast? = some p.item := by
  have := withPos2_shape t [] [] p hp
  exact ⟨by simpa using this.1, this.2⟩

/-- What is left of the context of a position of the cropped tree. -/
theorem leftC_pos [TreeNode N V] {bad : N → Bool} (ch : Option (List N)) (p : Pos N)
    (h : p.ancestors.length = p.path.length + 1) :
    leftC ch (p.map (Crop.mk : N → Crop bad)).ctx = (p.unopened ch : Option (Ctx V (List N))) := by
  have e : (p.map (Crop.mk : N → Crop bad)).ctx = ⟨p.path, p.ancestors, some (kids (Crop.mk p.item : Crop bad))⟩ := by
    simp only [Pos.map, Pos.ctx, List.map_map, Ctx.mk.injEq, true_and]
    exact ⟨List.map_id _, trivial⟩
  rw [e, leftC, Pos.unopened]
  simp only [h]
  cases p.path <;> simp

/-- The same in a binary tree. -/
theorem leftC2_pos [BinNode N V] {bad : N → Bool} (ch : Option (Option N × Option N)) (p : Pos N)
    (h : p.ancestors.length = p.path.length + 1) :
    leftC2 ch (p.map (CropB.mk : N → CropB bad)).ctx2 = (p.unopened2 ch : Option (Ctx V (Option N × Option N))) := by
  have e : (p.map (CropB.mk : N → CropB bad)).ctx2 =
      ⟨p.path, p.ancestors, some (split2 (CropB.mk p.item : CropB bad)).2⟩ := by
    simp only [Pos.map, Pos.ctx2, List.map_map, Ctx.mk.injEq, true_and]
    exact ⟨List.map_id _, trivial⟩
  rw [e, leftC2, Pos.unopened2]
  simp only [h]
  cases p.path <;> simp

/-- The replies of the iterator before the first panic, for the lemmas about `until_fail`. -/
theorem repC_at [TreeNode N V] {bad : N → Bool} (l : List (Pos N))
    (hl : ∀ p ∈ l, p.ancestors.getLast? = some p.item) (j : Nat) :
    (((l.map (Pos.map (Crop.mk : N → Crop bad))).map Pos.ctx).map (repC (V := V) bad))[j]? =
      l[j]?.map (replyPos bad Pos.ctx) := by
  rw [List.getElem?_map, List.getElem?_map, List.getElem?_map]
  cases h : l[j]? with
  | none => rfl
  | some p => simp only [Option.map_some]; rw [repC_pos bad p (hl p (List.mem_of_getElem? h))]

theorem repC2_at [BinNode N V] {bad : N → Bool} (l : List (Pos N))
    (hl : ∀ p ∈ l, p.ancestors.getLast? = some p.item) (j : Nat) :
    (((l.map (Pos.map (CropB.mk : N → CropB bad))).map Pos.ctx2).map (repC2 (V := V) bad))[j]? =
      l[j]?.map (replyPos bad Pos.ctx2) := by
  rw [List.getElem?_map, List.getElem?_map, List.getElem?_map]
  cases h : l[j]? with
  | none => rfl
  | some p => simp only [Option.map_some]; rw [repC2_pos bad p (hl p (List.mem_of_getElem? h))]

/-- The state after the first panic, from a lemma about one call. -/
theorem left_of [TreeNode N V] {S C : Type*} {bad : N → Bool} {next : S → Except Panic (Option (Option (Ctx V (List N))) × S)}
    {nextC : C → Except Panic (Option (Ctx N (List (Crop bad))) × C)} {R : C → S → Prop} {get : S → Option (Ctx V (List N))}
    {ch : C → Option (List N)}
    (step : ∀ c s o c', R c s → nextC c = .ok (o, c') →
      ∃ s', next s = .ok (o.map (repC bad), s') ∧ (o.map (repC bad) ≠ some none → R c' s'))
    (left : ∀ c s s' x c', R c s → nextC c = .ok (some x, c') → next s = .ok (some none, s') → get s' = leftC (ch c) x)
    (l : List (Pos N)) (hl : ∀ p ∈ l, p.ancestors.length = p.path.length + 1 ∧ p.ancestors.getLast? = some p.item)
    (k : Nat) (c : C) (s : S) (h : R c s)
    (hc : ∀ j, nthCallE nextC j c = .ok ((l.map (Pos.map Crop.mk)).map Pos.ctx)[j]?)
    (hk : ∀ j < k, ∀ q, l[j]? = some q → bad q.item = false) (p : Pos N) (hp : l[k]? = some p)
    (hb : bad p.item = true) :
    ∃ c' s', stateAfterE nextC k c = .ok c' ∧ stateAfterE next (k + 1) s = .ok s' ∧ get s' = p.unopened (ch c') := by
  obtain ⟨c1, c2, s1, s2, e0, e1, e2, e3, e4⟩ := statesE_until_fail (repC bad) R step k c s h _ hc (by
    intro j hj
    rw [repC_at l (fun p hp => (hl p hp).2) j]
    cases hq : l[j]? with
    | none => simp
    | some q => simp [replyPos, hk j hj q hq])
  rw [repC_at l (fun p hp => (hl p hp).2) k, hp] at e4
  rw [List.getElem?_map, List.getElem?_map, hp] at e2
  simp only [Option.map_some, replyPos, hb, if_true] at e4
  refine ⟨c1, s2, e0, e3, ?_⟩
  rw [left _ _ _ _ _ e1 e2 e4, leftC_pos _ _ (hl p (List.mem_of_getElem? hp)).1]

/-- The same for binary nodes. -/
theorem left2_of [BinNode N V] {S C : Type*} {bad : N → Bool}
    {next : S → Except Panic (Option (Option (Ctx V (Option N × Option N))) × S)}
    {nextC : C → Except Panic (Option (Ctx N (Option (CropB bad) × Option (CropB bad))) × C)} {R : C → S → Prop}
    {get : S → Option (Ctx V (Option N × Option N))} {ch : C → Option (Option N × Option N)}
    (step : ∀ c s o c', R c s → nextC c = .ok (o, c') →
      ∃ s', next s = .ok (o.map (repC2 bad), s') ∧ (o.map (repC2 bad) ≠ some none → R c' s'))
    (left : ∀ c s s' x c', R c s → nextC c = .ok (some x, c') → next s = .ok (some none, s') → get s' = leftC2 (ch c) x)
    (l : List (Pos N)) (hl : ∀ p ∈ l, p.ancestors.length = p.path.length + 1 ∧ p.ancestors.getLast? = some p.item)
    (k : Nat) (c : C) (s : S) (h : R c s)
    (hc : ∀ j, nthCallE nextC j c = .ok ((l.map (Pos.map CropB.mk)).map Pos.ctx2)[j]?)
    (hk : ∀ j < k, ∀ q, l[j]? = some q → bad q.item = false) (p : Pos N) (hp : l[k]? = some p)
    (hb : bad p.item = true) :
    ∃ c' s', stateAfterE nextC k c = .ok c' ∧ stateAfterE next (k + 1) s = .ok s' ∧ get s' = p.unopened2 (ch c') := by
  obtain ⟨c1, c2, s1, s2, e0, e1, e2, e3, e4⟩ := statesE_until_fail (repC2 bad) R step k c s h _ hc (by
    intro j hj
    rw [repC2_at l (fun p hp => (hl p hp).2) j]
    cases hq : l[j]? with
    | none => simp
    | some q => simp [replyPos, hk j hj q hq])
  rw [repC2_at l (fun p hp => (hl p hp).2) k, hp] at e4
  rw [List.getElem?_map, List.getElem?_map, hp] at e2
  simp only [Option.map_some, replyPos, hb, if_true] at e4
  refine ⟨c1, s2, e0, e3, ?_⟩
  rw [left _ _ _ _ _ e1 e2 e4, leftC2_pos _ _ (hl p (List.mem_of_getElem? hp)).1]

end Fail

end TreeIter
