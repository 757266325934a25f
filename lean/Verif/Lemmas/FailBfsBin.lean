import Verif.Lemmas.FailPostBinCrop
import Verif.Lemmas.FailCropCtx

/-! # Binary breadth-first contexts up to the first panic of the user's code -/

universe u v

namespace TreeIter

namespace Fail

variable {N : Type u} {V : Type v} [BinNode N V]

/-- The state with other nodes and values. -/
def binMapG {bad : N → Bool} (c : Bfs.CtxState N (Option (CropB bad) × Option (CropB bad)) (Option (CropB bad))) :
    Bfs.CtxState V (Option N × Option N) (Option N) :=
  ⟨c.isRoot, c.cc.map val2, c.children.map pairNodes, slotNodes c.queue, c.counter⟩

/-- States of the two iterators before any panic. -/
def BfsBinCtxR (bad : N → Bool) (c : Bfs.CtxState N (Option (CropB bad) × Option (CropB bad)) (Option (CropB bad)))
    (s : Bfs.CtxState V (Option N × Option N) (Option N)) : Prop :=
  s = binMapG c ∧ (c.isRoot = true → ∀ x ∈ c.cc.ancestors.head?, bad x = false)

omit [BinNode N V] in
theorem binScan_map {bad : N → Bool} (it : List (Option (CropB bad))) (counter : Nat) :
    Bfs.binScan (it.map (Option.map CropB.node)) counter =
      (Bfs.binScan it counter).map fun r => (r.1.map CropB.node, r.2.1.map (Option.map CropB.node), r.2.2) := by
  fun_induction Bfs.binScan it counter with
  | case1 => rfl
  | case2 => rename_i h; simp [Bfs.binScan, h, Except.map]
  | case3 => rename_i h ih; simp [Bfs.binScan, h, ih]
  | case4 => simp [Bfs.binScan, Except.map]

theorem bfsBinCtxLoop_sim (bad : N → Bool) (queue : List (List (Option (CropB bad)))) (cc : Bfs.CtxCache N)
    (counter : Nat) (r : Bfs.CtxState N (Option (CropB bad) × Option (CropB bad)) (Option (CropB bad)))
    (hr : Bfs.binCtxLoop queue cc counter = .ok r) :
    ∃ b s, bfsBinCtxLoop bad (slotNodes queue) (cc.map (val2 : N → V)) counter = .ok (b, s) ∧
      (∀ x ∈ r.cc.ancestors.head?, bad x = b) ∧ (r.cc.ancestors = [] → b = false) ∧
      (b = false → s = binMapG r) ∧ r.isRoot = false ∧
      (b = true → s.isRoot = false ∧ s.children = none ∧ s.cc.ancestors = r.cc.ancestors.tail.map val2 ∧
        s.cc.path = r.cc.path) := by
  fun_induction Bfs.binCtxLoop queue cc counter with
  | case1 => cases hr
  | case2 => cases hr
  | case3 => cases hr
  | case4 => cases hr
  | case5 =>
    rename_i hcc it q n ss ct hsc ct' hcs
    cases hr
    rw [bfsBinCtxLoop.eq_def, Bfs.CtxCache.map_settle, hcc]
    simp only [Except.map, List.map_cons, binScan_map, hsc, Option.map_some, hcs]
    by_cases hb : bad n.node = true
    · exact ⟨true, _, by rw [if_pos hb], by simp [val2_crop, hb], by simp, by simp, trivial, fun _ => ⟨rfl, rfl, by
        simp [Bfs.CtxCache.map], by simp [Bfs.CtxCache.map]⟩⟩
    · have hb' : bad n.node = false := by simpa using hb
      refine ⟨false, _, by rw [if_neg hb], by simp [val2_crop, hb'], by simp, fun _ => ?_, trivial, by simp⟩
      simp [binMapG, Bfs.CtxCache.map, split2_good n hb', val2_crop]
  | case6 => cases hr
  | case7 =>
    rename_i hcc it q x y hsc cc2 hre hq
    cases hr
    rw [bfsBinCtxLoop.eq_def, Bfs.CtxCache.map_settle, hcc]
    simp only [Except.map, List.map_cons, binScan_map, hsc, Option.map_none, Bfs.CtxCache.map_retire, hre]
    refine ⟨false, _, by rw [if_pos (by simpa using hq)], by simp, by simp, fun _ => ?_, trivial, by simp⟩
    simp [binMapG, Bfs.CtxCache.map]
  | case8 =>
    rename_i hcc it q x y hsc cc2 hre hq ih
    rw [bfsBinCtxLoop.eq_def, Bfs.CtxCache.map_settle, hcc]
    simp only [Except.map, List.map_cons, binScan_map, hsc, Option.map_none, Bfs.CtxCache.map_retire, hre]
    rw [if_neg (by simpa using hq)]
    exact ih hr

theorem bfsBinCtx_step (bad : N → Bool) (c : Bfs.CtxState N (Option (CropB bad) × Option (CropB bad)) (Option (CropB bad)))
    (s : Bfs.CtxState V (Option N × Option N) (Option N)) (o : Option (Ctx N (Option (CropB bad) × Option (CropB bad))))
    (c' : Bfs.CtxState N (Option (CropB bad) × Option (CropB bad)) (Option (CropB bad))) (h : BfsBinCtxR bad c s)
    (hc : Bfs.binCtxNext c = .ok (o, c')) :
    ∃ s', bfsBinCtxNext bad s = .ok (o.map (repC2 bad), s') ∧ (o.map (repC2 bad) ≠ some none → BfsBinCtxR bad c' s') := by
  have fin : ∀ (c' : Bfs.CtxState N (Option (CropB bad) × Option (CropB bad)) (Option (CropB bad)))
      (s s' : Bfs.CtxState V (Option N × Option N) (Option N)) (b : Bool),
      bfsBinCtxAdvance bad s = .ok (b, s') → c'.isRoot = false →
      (∀ x ∈ c'.cc.ancestors.head?, bad x = b) → (c'.cc.ancestors = [] → b = false) →
      (b = false → s' = binMapG c') →
      ∃ s', bfsBinCtxNext bad s = .ok ((Bfs.ctxGet c').map (repC2 bad), s') ∧
        ((Bfs.ctxGet c').map (repC2 bad) ≠ some (none : Option (Ctx V (Option N × Option N))) → BfsBinCtxR bad c' s') := by
    intro c' s s' b hs h0 h1 h2 h3
    refine ⟨s', ?_⟩
    rw [bfsBinCtxNext, streamNextE, hs]
    obtain ⟨isRoot, ⟨anc, path, st, ca⟩, ch, q, ct⟩ := c'
    simp only at h0 h1 h2
    subst h0
    cases anc with
    | nil =>
      obtain rfl := h2 rfl
      obtain rfl := h3 rfl
      refine ⟨?_, fun _ => ⟨rfl, by simp⟩⟩
      simp [Bfs.ctxGet, binMapG, Bfs.CtxCache.map]
    | cons x xs =>
      have hx := h1 x (by simp)
      cases b with
      | true => simp [Bfs.ctxGet, repC2, hx]
      | false =>
        obtain rfl := h3 rfl
        refine ⟨?_, fun _ => ⟨rfl, by simp⟩⟩
        simp [Bfs.ctxGet, repC2, hx, binMapG, Bfs.CtxCache.map]
  have hadv : ∃ c1, Bfs.binCtxAdvance c = .ok c1 ∧ c' = c1 ∧ o = Bfs.ctxGet c1 := by
    rw [Bfs.binCtxNext, TreeIter.streamNextE] at hc
    cases ha : Bfs.binCtxAdvance c with
    | error e => rw [ha] at hc; cases hc
    | ok c1 => rw [ha] at hc; cases hc; exact ⟨_, rfl, rfl, rfl⟩
  obtain ⟨c1, ha, rfl, rfl⟩ := hadv
  obtain ⟨isRoot, cc, ch, q, ct⟩ := c
  obtain ⟨rfl, hg⟩ := h
  cases isRoot with
  | true =>
    cases ha
    exact fin _ _ _ false rfl rfl (hg rfl) (fun _ => rfl) (fun _ => rfl)
  | false =>
    simp only [Bfs.binCtxAdvance, Bool.false_eq_true, if_false] at ha
    by_cases he : cc.ancestors.isEmpty
    · rw [if_pos he] at ha
      cases ha
      have he' : cc.ancestors = [] := by simpa using he
      refine fin _ _ (binMapG ⟨false, cc, ch, q, ct⟩) false ?_ rfl (by simp [he']) (fun _ => rfl)
        (fun _ => rfl)
      simp [bfsBinCtxAdvance, binMapG, Bfs.CtxCache.map, he']
    · rw [if_neg he] at ha
      cases ch with
      | none => cases ha
      | some cs =>
        simp only at ha
        obtain ⟨b, s', e1, e2, e3, e4, e5, -⟩ := bfsBinCtxLoop_sim (V := V) bad _ _ _ _ ha
        refine fin _ _ s' b ?_ e5 e2 e3 e4
        rw [← e1]
        have he' : ¬ (cc.map (val2 : N → V)).ancestors.isEmpty = true := by simpa [Bfs.CtxCache.map] using he
        show bfsBinCtxAdvance bad ⟨false, cc.map val2, some (pairNodes cs), slotNodes q, ct⟩ = _
        rw [bfsBinCtxAdvance, if_neg (by simp), if_neg he']
        simp

/-- The state a panic of the user's code leaves. -/
theorem bfsBinCtx_failed (bad : N → Bool) (c : Bfs.CtxState N (Option (CropB bad) × Option (CropB bad)) (Option (CropB bad)))
    (s s' : Bfs.CtxState V (Option N × Option N) (Option N)) (x : Ctx N (Option (CropB bad) × Option (CropB bad)))
    (c' : Bfs.CtxState N (Option (CropB bad) × Option (CropB bad)) (Option (CropB bad)))
    (h : BfsBinCtxR bad c s) (hc : Bfs.binCtxNext c = .ok (some x, c')) (hs : bfsBinCtxNext bad s = .ok (some none, s')) :
    s'.isRoot = false ∧ s'.children = none ∧ s'.cc.ancestors.length + 1 = x.ancestors.length := by
  have hadv : ∃ c1, Bfs.binCtxAdvance c = .ok c1 ∧ c' = c1 ∧ some x = Bfs.ctxGet c1 := by
    rw [Bfs.binCtxNext, TreeIter.streamNextE] at hc
    cases ha : Bfs.binCtxAdvance c with
    | error e => rw [ha] at hc; cases hc
    | ok c1 =>
      rw [ha] at hc
      simp only [Except.ok.injEq, Prod.mk.injEq] at hc
      exact ⟨_, rfl, hc.2.symm, hc.1.symm⟩
  have hadv' : bfsBinCtxAdvance bad s = .ok (true, s') := by
    rw [bfsBinCtxNext, streamNextE] at hs
    cases ha : bfsBinCtxAdvance bad s with
    | error e => rw [ha] at hs; cases hs
    | ok r =>
      obtain ⟨b, s1⟩ := r
      rw [ha] at hs
      cases b with
      | true => simp only [Except.ok.injEq, Prod.mk.injEq] at hs; rw [hs.2]
      | false =>
        exfalso
        simp only [Except.ok.injEq, Prod.mk.injEq] at hs
        have := hs.1
        cases hg : Bfs.ctxGet s1 <;> rw [hg] at this <;> simp at this
  obtain ⟨c1, ha, rfl, hx⟩ := hadv
  obtain ⟨isRoot, cc, ch, q, ct⟩ := c
  obtain ⟨rfl, hg⟩ := h
  cases isRoot with
  | true => simp [bfsBinCtxAdvance, binMapG] at hadv'
  | false =>
    simp only [Bfs.binCtxAdvance, Bool.false_eq_true, if_false] at ha
    by_cases he : cc.ancestors.isEmpty
    · rw [if_pos he] at ha
      cases ha
      simp [Bfs.ctxGet, he] at hx
    · rw [if_neg he] at ha
      cases ch with
      | none => cases ha
      | some cs =>
        simp only at ha
        obtain ⟨b, s1, e1, e2, e3, e4, -, e5⟩ := bfsBinCtxLoop_sim (V := V) bad _ _ _ _ ha
        have he' : ¬ (cc.map (val2 : N → V)).ancestors.isEmpty = true := by simpa [Bfs.CtxCache.map] using he
        have hq : slotNodes (q ++ [[cs.1, cs.2]]) = slotNodes q ++ [[cs.1.map CropB.node, cs.2.map CropB.node]] := by simp
        rw [hq] at e1
        change bfsBinCtxAdvance bad ⟨false, cc.map val2, some (pairNodes cs), slotNodes q, ct⟩ = _ at hadv'
        rw [bfsBinCtxAdvance, if_neg (by simp), if_neg he'] at hadv'
        simp only [e1, Except.ok.injEq, Prod.mk.injEq] at hadv'
        obtain ⟨rfl, rfl⟩ := hadv'
        obtain ⟨h1, h2, h3, -⟩ := e5 rfl
        refine ⟨h1, h2, ?_⟩
        rw [Bfs.ctxGet] at hx
        split at hx
        · cases hx
        · rename_i hne
          cases hx
          have : 0 < c'.cc.ancestors.length := List.length_pos_iff.2 (by simpa using hne)
          simp [h3]
          omega

omit [BinNode N V] in
/-- After a caught panic every call panics. -/
theorem bfsBinCtx_dead [SplitNode2 N V] (bad : N → Bool) (s : Bfs.CtxState V (Option N × Option N) (Option N))
    (h1 : s.isRoot = false) (h2 : s.cc.ancestors ≠ []) (h3 : s.children = none) :
    bfsBinCtxNext bad s = .error .unwrapNone := by
  rw [bfsBinCtxNext, streamNextE, bfsBinCtxAdvance, h1, h3]
  simp [h2]

/-- The start states are related. -/
theorem bfsBinCtxR_new (bad : N → Bool) (n : N) (hb : bad n = false) :
    BfsBinCtxR bad (Bfs.CtxState.binNew (CropB.mk n : CropB bad) []) (Bfs.CtxState.binNew (V := V) n []) := by
  refine ⟨?_, ?_⟩
  · have := split2_good (CropB.mk n : CropB bad) hb
    simp only [Bfs.CtxState.binNew, binMapG, Bfs.CtxCache.map, Option.map_some, this, val2_crop]
    simp [Bfs.Cache.map, Bfs.Cache.mapL]
  · simp [Bfs.CtxState.binNew, val2_crop, hb]

end Fail

end TreeIter
