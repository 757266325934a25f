import Verif.Lemmas.PollLeaves
import Verif.Lemmas.FailCrop

/-! # More iterators that do not survive a panic of the user's code -/

universe u v w x

namespace TreeIter

namespace Fail

variable {N : Type u} {V : Type v}

theorem val_map_tail [TreeNode N V] (l : List N) : (l.map (val : N → V)).tail = l.tail.map val := by
  rw [List.map_tail]

/-! ## Depth-first leaves with ancestors -/

/-- States of the two iterators before any panic. -/
def LvAncR [TreeNode N V] (bad : N → Bool) (c : Leaves.AncState (Crop bad) N) (s : Leaves.AncState N V) : Prop :=
  s = ⟨c.root.map Crop.node, c.items.map val, nodes c.old, nodes c.new⟩ ∧ ∀ x ∈ c.items, bad x = false

theorem leavesAncLoop_sim [TreeNode N V] (bad : N → Bool) (old new : List (List (Crop bad))) (items : List N)
    (pushed : Bool) (h : ∀ x ∈ items, bad x = false) :
    ((∃ x xs, (Leaves.ancLoop old new items pushed).items = x :: xs ∧ bad x = true) ∧
      (leavesAncLoop bad (nodes old) (nodes new) (items.map (val : N → V)) pushed).1 = true) ∨
    ((leavesAncLoop bad (nodes old) (nodes new) (items.map (val : N → V)) pushed).1 = false ∧
      LvAncR bad (Leaves.ancLoop old new items pushed)
        (leavesAncLoop bad (nodes old) (nodes new) (items.map (val : N → V)) pushed).2) := by
  have hp : ∀ (o nw : List (List (Crop bad))) (its : List N), Leaves.ancLoop o ([] :: nw) its true =
      ⟨none, its, o, nw⟩ := by
    intro o nw its
    rw [Leaves.ancLoop.eq_def]
    simp
  fun_induction Leaves.ancLoop old new items pushed with
  | case1 old items pushed n ns new ih =>
    rw [val_crop] at ih ⊢
    by_cases hb : bad n.node = true
    · left
      rw [kids_bad n hb, hp]
      refine ⟨⟨_, _, rfl, hb⟩, ?_⟩
      rw [leavesAncLoop.eq_def]
      simp [hb]
    · have hb' : bad n.node = false := by simpa using hb
      have := ih (by simpa [hb'] using h)
      have e : leavesAncLoop bad (nodes old) (nodes ((n :: ns) :: new)) (items.map (val : N → V)) pushed =
          leavesAncLoop bad (nodes old) (nodes (kids n :: ns :: new)) ((n.node :: items).map val) true := by
        conv_lhs => rw [leavesAncLoop.eq_def]
        simp [hb', kids_good n hb']
      rw [e]
      exact this
  | case2 old items new hn =>
    right
    have e : leavesAncLoop bad (nodes old) (nodes new) (items.map (val : N → V)) true =
        (false, ⟨none, items.map val, nodes old, nodes new.tail⟩) := by
      rw [leavesAncLoop.eq_def]
      rcases new with _ | ⟨_ | ⟨n, ns⟩, new⟩
      · simp
      · simp
      · exact absurd rfl (hn n ns new)
    rw [e]
    exact ⟨rfl, rfl, h⟩
  | case3 items pushed new hn hpu n ns old ih =>
    rw [val_crop] at ih ⊢
    have hpu' : pushed = false := by simpa using hpu
    subst hpu'
    have hnew : nodes new = [] ∨ ∃ nw, nodes new = [] :: nw := by
      rcases new with _ | ⟨_ | ⟨m, ms⟩, new⟩
      · simp
      · simp
      · exact absurd rfl (hn m ms new)
    by_cases hb : bad n.node = true
    · left
      rw [kids_bad n hb, hp]
      refine ⟨⟨_, _, rfl, hb⟩, ?_⟩
      rw [leavesAncLoop.eq_def]
      rcases hnew with e | ⟨nw, e⟩ <;> simp [e, hb]
    · have hb' : bad n.node = false := by simpa using hb
      have := ih (by simpa [hb'] using h)
      have e : leavesAncLoop bad (nodes ((n :: ns) :: old)) (nodes new) (items.map (val : N → V)) false =
          leavesAncLoop bad (nodes (ns :: old)) (nodes (kids n :: new.tail)) ((n.node :: items).map val) true := by
        have hk : nodes (kids n :: new.tail) = kids n.node :: (nodes new).tail := by
          rw [nodes, List.map_cons, kids_good n hb', List.map_tail]
        rw [hk]
        conv_lhs => rw [leavesAncLoop.eq_def]
        rcases hnew with e | ⟨nw, e⟩ <;> simp [e, hb']
      rw [e]
      exact this
  | case4 items pushed new hn hpu old ho hi =>
    right
    have hpu' : pushed = false := by simpa using hpu
    subst hpu'
    have hi' : (items.map (val : N → V)).tail = [] := by rw [val_map_tail, hi]; rfl
    have e : leavesAncLoop bad (nodes old) (nodes new) (items.map (val : N → V)) false =
        (false, ⟨none, [], nodes old.tail, nodes new.tail⟩) := by
      rw [leavesAncLoop.eq_def]
      rcases new with _ | ⟨_ | ⟨n, ns⟩, new⟩
      · rcases old with _ | ⟨_ | ⟨m, ms⟩, old⟩
        · simp only [List.map_nil, Bool.false_eq_true, if_false]; split <;> simp_all
        · simp only [List.map_cons, List.map_nil, Bool.false_eq_true, if_false]; split <;> simp_all
        · exact absurd rfl (ho m ms old)
      · rcases old with _ | ⟨_ | ⟨m, ms⟩, old⟩
        · simp only [List.map_cons, List.map_nil, Bool.false_eq_true, if_false]; split <;> simp_all
        · simp only [List.map_cons, List.map_nil, Bool.false_eq_true, if_false]; split <;> simp_all
        · exact absurd rfl (ho m ms old)
      · exact absurd rfl (hn n ns new)
    rw [e]
    exact ⟨rfl, rfl, by simp⟩
  | case5 items pushed new hn hpu old ho i is hi ih =>
    have hpu' : pushed = false := by simpa using hpu
    subst hpu'
    have hi' : (items.map (val : N → V)).tail = val i :: is.map val := by rw [val_map_tail, hi]; rfl
    have := ih (fun x hx => h x (List.mem_of_mem_tail (hi ▸ hx)))
    have e : leavesAncLoop bad (nodes old) (nodes new) (items.map (val : N → V)) false =
        leavesAncLoop bad (nodes old.tail) (nodes new.tail) ((i :: is).map val) false := by
      rw [leavesAncLoop.eq_def]
      rcases new with _ | ⟨_ | ⟨n, ns⟩, new⟩
      · rcases old with _ | ⟨_ | ⟨m, ms⟩, old⟩
        · simp only [List.map_nil, Bool.false_eq_true, if_false]; split <;> simp_all
        · simp only [List.map_cons, List.map_nil, Bool.false_eq_true, if_false]; split <;> simp_all
        · exact absurd rfl (ho m ms old)
      · rcases old with _ | ⟨_ | ⟨m, ms⟩, old⟩
        · simp only [List.map_cons, List.map_nil, Bool.false_eq_true, if_false]; split <;> simp_all
        · simp only [List.map_cons, List.map_nil, Bool.false_eq_true, if_false]; split <;> simp_all
        · exact absurd rfl (ho m ms old)
      · exact absurd rfl (hn n ns new)
    rw [e]
    exact this

theorem leavesAnc_step [TreeNode N V] (bad : N → Bool) (c : Leaves.AncState (Crop bad) N) (s : Leaves.AncState N V)
    (h : LvAncR bad c s) : (leavesAncNext bad s).1 = (Leaves.ancNext c).1.map (repL bad) ∧
      ((leavesAncNext bad s).1 ≠ some none → LvAncR bad (Leaves.ancNext c).2 (leavesAncNext bad s).2) := by
  have key : ∀ (old new : List (List (Crop bad))) (items : List N) (pushed : Bool), (∀ x ∈ items, bad x = false) →
      ∀ c s, Leaves.ancAdvance c = Leaves.ancLoop old new items pushed →
      leavesAncAdvance bad s = leavesAncLoop bad (nodes old) (nodes new) (items.map (val : N → V)) pushed →
      (leavesAncNext bad s).1 = (Leaves.ancNext c).1.map (repL bad) ∧
      ((leavesAncNext bad s).1 ≠ some none → LvAncR bad (Leaves.ancNext c).2 (leavesAncNext bad s).2) := by
    intro old new items pushed hi c s hc hs
    rw [leavesAncNext, streamNext, hs, Leaves.ancNext, TreeIter.streamNext, hc]
    rcases leavesAncLoop_sim (V := V) bad old new items pushed hi with ⟨⟨x, xs, h1, h2⟩, h3⟩ | ⟨h1, h2⟩
    · generalize leavesAncLoop bad (nodes old) (nodes new) (items.map (val : N → V)) pushed = r at h3
      obtain ⟨b, r⟩ := r
      simp only at h3
      subst h3
      simp [Leaves.ancGet, h1, repL, h2]
    · generalize leavesAncLoop bad (nodes old) (nodes new) (items.map (val : N → V)) pushed = r at h1 h2
      obtain ⟨b, r⟩ := r
      simp only at h1
      subst h1
      refine ⟨?_, fun _ => h2⟩
      obtain ⟨rfl, h2⟩ := h2
      cases hr : (Leaves.ancLoop old new items pushed).items with
      | nil => simp [Leaves.ancGet, hr]
      | cons x xs =>
        have := h2 x (by simp [hr])
        simp [Leaves.ancGet, repL, this, hr]
  obtain ⟨root, items, old, new⟩ := c
  obtain ⟨rfl, hg⟩ := h
  simp only at hg
  cases root with
  | none =>
    refine key old new items.tail false (fun x hx => hg x (List.mem_of_mem_tail hx)) _ _ rfl ?_
    simp only [leavesAncAdvance, Option.map_none]
    rw [List.map_tail]
  | some r =>
    by_cases hb : bad r.node = true
    · have hs : leavesAncAdvance bad (⟨some r.node, items.map (val : N → V), nodes old, nodes new⟩ : Leaves.AncState N V) =
          (true, ⟨none, items.map val, nodes old, nodes new⟩) := by
        rw [leavesAncAdvance]; simp [hb]
      rw [leavesAncNext, streamNext, Option.map_some, hs]
      simp only [ne_eq, not_true_eq_false, IsEmpty.forall_iff, and_true]
      rw [Leaves.ancNext, TreeIter.streamNext, Leaves.ancAdvance]
      simp only
      rw [kids_bad r hb, Leaves.ancLoop.eq_def]
      simp [Leaves.ancGet, val_crop, repL, hb]
    · have hb' : bad r.node = false := by simpa using hb
      refine key old (kids r :: new) (r.node :: items) true (by simpa [hb'] using hg) _ _ rfl ?_
      rw [leavesAncAdvance]
      simp [hb', kids_good r hb']

/-! ## Postorder with context -/

/-- States of the two iterators before any panic. -/
def PostCtxR [TreeNode N V] (bad : N → Bool) (c : Postorder.CtxState (Crop bad) N) (s : Postorder.CtxState N V) : Prop :=
  s = ⟨c.root.map Crop.node, nodes c.stack, nodes c.into, c.path, c.ancestors.map val,
    c.children.map (List.map Crop.node)⟩ ∧ ∀ x ∈ c.ancestors, bad x = false

theorem postCtxLoop_sim [TreeNode N V] (bad : N → Bool) (ch : Option (List N)) (stack into : List (List (Crop bad)))
    (path : List Nat) (anc : List N) (h : ∀ x ∈ anc, bad x = false) (r : Postorder.CtxState (Crop bad) N)
    (hr : Postorder.ctxLoop stack into path anc = .ok r) :
    ∃ b s, postCtxLoop bad ch (nodes stack) (nodes into) path (anc.map (val : N → V)) = .ok (b, s) ∧
      (b = true → ∃ x xs, r.ancestors = x :: xs ∧ bad x = true) ∧ (b = false → PostCtxR bad r s) := by
  fun_induction Postorder.ctxLoop stack into path anc with
  | case1 n ns rest into p path anc ih =>
    rw [val_crop] at ih hr
    by_cases hb : bad n.node = true
    · refine ⟨true, ?_⟩
      rw [kids_bad n hb, Postorder.ctxLoop] at hr
      cases hr
      simp [postCtxLoop, hb]
    · have hb' : bad n.node = false := by simpa using hb
      have := ih (by simpa [hb'] using h) hr
      simpa [postCtxLoop, hb', kids_good n hb'] using this
  | case2 => cases hr
  | case3 rest c into path anc =>
    cases hr
    exact ⟨false, _, by simp only [List.map_cons, List.map_nil]; rw [postCtxLoop]; rfl, by simp, fun _ => ⟨rfl, h⟩⟩
  | case4 c into path anc =>
    cases hr
    exact ⟨false, _, by simp only [List.map_cons, List.map_nil]; rw [postCtxLoop]; rfl, by simp, fun _ => ⟨rfl, h⟩⟩
  | case5 => cases hr
  | case6 => cases hr

theorem postCtx_step [TreeNode N V] (bad : N → Bool) (c : Postorder.CtxState (Crop bad) N) (s : Postorder.CtxState N V)
    (o : Option (Ctx N (List (Crop bad)))) (c' : Postorder.CtxState (Crop bad) N) (h : PostCtxR bad c s)
    (hc : Postorder.ctxNext c = .ok (o, c')) :
    ∃ s', postCtxNext bad s = .ok (o.map (repC bad), s') ∧ (o.map (repC bad) ≠ some none → PostCtxR bad c' s') := by
  have fin : ∀ (c' : Postorder.CtxState (Crop bad) N) (s s' : Postorder.CtxState N V) (b : Bool),
      postCtxAdvance bad s = .ok (b, s') →
      (b = true → ∃ x xs, c'.ancestors = x :: xs ∧ bad x = true) → (b = false → PostCtxR bad c' s') →
      ∃ s', postCtxNext bad s = .ok ((Postorder.ctxGet c').map (repC bad), s') ∧
        ((Postorder.ctxGet c').map (repC bad) ≠ some (none : Option (Ctx V (List N))) → PostCtxR bad c' s') := by
    intro c' s s' b hs h1 h2
    refine ⟨s', ?_⟩
    rw [postCtxNext, streamNextE, hs]
    cases b with
    | true =>
      obtain ⟨x, xs, e1, e2⟩ := h1 rfl
      simp [Postorder.ctxGet, e1, repC, e2]
    | false =>
      obtain ⟨rfl, e2⟩ := h2 rfl
      refine ⟨?_, fun _ => h2 rfl⟩
      cases hr : c'.ancestors with
      | nil => simp [Postorder.ctxGet, hr]
      | cons x xs =>
        have := e2 x (by simp [hr])
        simp [Postorder.ctxGet, repC, this, hr]
  have hadv : ∃ c1, Postorder.ctxAdvance c = .ok c1 ∧ c' = c1 ∧ o = Postorder.ctxGet c1 := by
    rw [Postorder.ctxNext, TreeIter.streamNextE] at hc
    cases ha : Postorder.ctxAdvance c with
    | error e => rw [ha] at hc; cases hc
    | ok c1 => rw [ha] at hc; cases hc; exact ⟨_, rfl, rfl, rfl⟩
  obtain ⟨c1, ha, rfl, rfl⟩ := hadv
  obtain ⟨root, stack, into, path, anc, ch⟩ := c
  obtain ⟨rfl, hg⟩ := h
  simp only at hg
  cases root with
  | none =>
    simp only [Postorder.ctxAdvance] at ha
    by_cases he : anc.tail.isEmpty
    · rw [if_pos he] at ha
      cases ha
      refine fin _ _ ⟨none, nodes stack, nodes into, path, (anc.map val).tail, ch.map (List.map Crop.node)⟩ false ?_ (by simp)
        (fun _ => ⟨by simp, fun x hx => hg x (List.mem_of_mem_tail hx)⟩)
      simp only [postCtxAdvance, Option.map_none]
      rw [if_pos (by rw [List.isEmpty_iff] at he ⊢; rw [← List.map_tail, he]; rfl)]
    · rw [if_neg he] at ha
      obtain ⟨b, s', e1, e2, e3⟩ := postCtxLoop_sim (V := V) bad (ch.map (List.map Crop.node)) stack into path anc.tail
        (fun x hx => hg x (List.mem_of_mem_tail hx)) _ ha
      refine fin _ _ s' b ?_ e2 e3
      simp only [postCtxAdvance, Option.map_none]
      rw [← List.map_tail, if_neg (fun hh => he (by
        rw [List.isEmpty_iff] at hh ⊢
        exact List.map_eq_nil_iff.1 hh))]
      exact e1
  | some r =>
    simp only [Postorder.ctxAdvance] at ha
    rw [val_crop] at ha
    by_cases hb : bad r.node = true
    · rw [kids_bad r hb, Postorder.ctxLoop] at ha
      cases ha
      refine fin _ _ ⟨none, nodes stack, nodes into, path, anc.map val, ch.map (List.map Crop.node)⟩ true ?_
        (fun _ => ⟨_, _, rfl, hb⟩) (by simp)
      simp [postCtxAdvance, hb]
    · have hb' : bad r.node = false := by simpa using hb
      obtain ⟨b, s', e1, e2, e3⟩ := postCtxLoop_sim (V := V) bad (ch.map (List.map Crop.node)) _ _ _ _
        (by simpa [hb'] using hg) _ ha
      refine fin _ _ s' b ?_ e2 e3
      simpa [postCtxAdvance, hb', kids_good r hb'] using e1

/-! ## Preorder with context -/

/-- States of the two iterators before any panic. -/
def PreCtxR [TreeNode N V] (bad : N → Bool) (c : Preorder.CtxState (Crop bad) N) (s : Preorder.CtxState N V) : Prop :=
  s = ⟨c.root.map Crop.node, nodes c.stack, c.path, c.ancestors.map val, c.children.map (List.map Crop.node)⟩ ∧
    ∀ x ∈ c.ancestors, bad x = false

theorem preCtxLoop_sim [TreeNode N V] (bad : N → Bool) (stack : List (List (Crop bad))) (path : List Nat) (anc : List N)
    (h : ∀ x ∈ anc, bad x = false) (r : Option (Crop bad) × List (List (Crop bad)) × List Nat × List N)
    (hr : Preorder.ctxLoop stack path anc = .ok r) :
    Preorder.ctxLoop (nodes stack) path (anc.map (val : N → V)) =
      .ok (r.1.map Crop.node, nodes r.2.1, r.2.2.1, r.2.2.2.map val) ∧ ∀ x ∈ r.2.2.2, bad x = false := by
  fun_induction Preorder.ctxLoop stack path anc with
  | case1 path anc => cases hr; exact ⟨rfl, h⟩
  | case2 rest path anc ih =>
    have := ih (fun x hx => h x (List.mem_of_mem_tail hx)) hr
    rw [List.map_tail] at this
    exact this
  | case3 n ns rest p path anc => cases hr; exact ⟨rfl, h⟩
  | case4 => cases hr

/-- What `advance` makes of the result of its loop. -/
def preDone [TreeNode N V] (bad : N → Bool) :
    Except Panic (Option N × List (List N) × List Nat × List V) → Except Panic (Bool × Preorder.CtxState N V)
  | .error e => .error e
  | .ok (none, st, path, anc) => .ok (false, Preorder.ctxFinish (none, st, path, anc))
  | .ok (some n, st, path, anc) =>
    if bad n then .ok (true, ⟨none, st, path, anc, none⟩)
    else .ok (false, Preorder.ctxFinish (some n, st, path, anc))

theorem preDone_some [TreeNode N V] (bad : N → Bool) (stack : List (List N)) (path : List Nat) (anc : List V)
    (cs : List N) (h : anc.isEmpty = false) :
    preCtxAdvance bad ⟨none, stack, path, anc, some cs⟩ =
      preDone bad (Preorder.ctxLoop (cs :: stack) (usizeMax :: path) anc) := by
  simp only [preCtxAdvance, h, Bool.false_eq_true, if_false]
  rcases Preorder.ctxLoop (cs :: stack) (usizeMax :: path) anc with e | ⟨_ | n, st, p, a⟩ <;> rfl

theorem preDone_none [TreeNode N V] (bad : N → Bool) (stack : List (List N)) (path : List Nat) (anc : List V)
    (h : anc.isEmpty = false) :
    preCtxAdvance bad ⟨none, stack, path, anc, none⟩ =
      preDone bad (Preorder.ctxLoop stack (if path.head? = some usizeMax then path.tail else path) anc.tail) := by
  simp only [preCtxAdvance, h, Bool.false_eq_true, if_false]
  rcases Preorder.ctxLoop stack (if path.head? = some usizeMax then path.tail else path) anc.tail with
    e | ⟨_ | n, st, p, a⟩ <;> rfl

theorem preCtx_step [TreeNode N V] (bad : N → Bool) (c : Preorder.CtxState (Crop bad) N) (s : Preorder.CtxState N V)
    (o : Option (Ctx N (List (Crop bad)))) (c' : Preorder.CtxState (Crop bad) N) (h : PreCtxR bad c s)
    (hc : Preorder.ctxNext c = .ok (o, c')) :
    ∃ s', preCtxNext bad s = .ok (o.map (repC bad), s') ∧ (o.map (repC bad) ≠ some none → PreCtxR bad c' s') := by
  have fin : ∀ (c' : Preorder.CtxState (Crop bad) N) (s s' : Preorder.CtxState N V) (b : Bool),
      preCtxAdvance bad s = .ok (b, s') →
      (b = true → ∃ x xs, c'.ancestors = x :: xs ∧ bad x = true) → (b = false → PreCtxR bad c' s') →
      ∃ s', preCtxNext bad s = .ok ((Preorder.ctxGet c').map (repC bad), s') ∧
        ((Preorder.ctxGet c').map (repC bad) ≠ some (none : Option (Ctx V (List N))) → PreCtxR bad c' s') := by
    intro c' s s' b hs h1 h2
    refine ⟨s', ?_⟩
    rw [preCtxNext, streamNextE, hs]
    cases b with
    | true =>
      obtain ⟨x, xs, e1, e2⟩ := h1 rfl
      simp [Preorder.ctxGet, e1, repC, e2]
    | false =>
      obtain ⟨rfl, e2⟩ := h2 rfl
      refine ⟨?_, fun _ => h2 rfl⟩
      cases hr : c'.ancestors with
      | nil => simp [Preorder.ctxGet, hr]
      | cons x xs =>
        have := e2 x (by simp [hr])
        simp [Preorder.ctxGet, repC, this, hr]
  have hadv : ∃ c1, Preorder.ctxAdvance c = .ok c1 ∧ c' = c1 ∧ o = Preorder.ctxGet c1 := by
    rw [Preorder.ctxNext, TreeIter.streamNextE] at hc
    cases ha : Preorder.ctxAdvance c with
    | error e => rw [ha] at hc; cases hc
    | ok c1 => rw [ha] at hc; cases hc; exact ⟨_, rfl, rfl, rfl⟩
  obtain ⟨c1, ha, rfl, rfl⟩ := hadv
  -- the part after the loop
  have tail : ∀ (stack : List (List (Crop bad))) (path : List Nat) (anc : List N) (s : Preorder.CtxState N V),
      (∀ x ∈ anc, bad x = false) → (∃ r, Preorder.ctxLoop stack path anc = .ok r ∧ c' = Preorder.ctxFinish r) →
      preCtxAdvance bad s = preDone bad (Preorder.ctxLoop (nodes stack) path (anc.map (val : N → V))) →
      ∃ s', preCtxNext bad s = .ok ((Preorder.ctxGet c').map (repC bad), s') ∧
        ((Preorder.ctxGet c').map (repC bad) ≠ some (none : Option (Ctx V (List N))) → PreCtxR bad c' s') := by
    intro stack path anc s hg hr hs
    obtain ⟨r, hl, rfl⟩ := hr
    obtain ⟨e1, e2⟩ := preCtxLoop_sim (V := V) bad stack path anc hg r hl
    rw [e1] at hs
    obtain ⟨o, st, pa, an⟩ := r
    cases o with
    | none => exact fin _ _ _ false hs (by simp) (fun _ => ⟨rfl, by simp [Preorder.ctxFinish]⟩)
    | some m =>
      simp only [Option.map_some, preDone] at hs
      by_cases hb : bad m.node = true
      · rw [if_pos hb] at hs
        exact fin _ _ _ true hs (fun _ => ⟨_, _, rfl, hb⟩) (by simp)
      · rw [if_neg hb] at hs
        have hb' : bad m.node = false := by simpa using hb
        refine fin _ _ _ false hs (by simp) (fun _ => ⟨?_, ?_⟩)
        · simp [Preorder.ctxFinish, kids_good m hb', val_crop]
        · simpa [Preorder.ctxFinish, val_crop, hb'] using e2
  obtain ⟨root, stack, path, anc, ch⟩ := c
  obtain ⟨rfl, hg⟩ := h
  simp only at hg
  cases root with
  | none =>
    simp only [Preorder.ctxAdvance] at ha
    by_cases he : anc.isEmpty
    · rw [if_pos he] at ha
      cases ha
      refine fin _ _ ⟨none, nodes stack, path, anc.map val, ch.map (List.map Crop.node)⟩ false ?_ (by simp)
        (fun _ => ⟨rfl, hg⟩)
      simp only [preCtxAdvance, Option.map_none]
      rw [if_pos (by simpa using he)]
    · rw [if_neg he] at ha
      have he' : (anc.map (val : N → V)).isEmpty = false := by simpa using he
      cases ch with
      | some cs =>
        simp only at ha
        cases hl : Preorder.ctxLoop (cs :: stack) (usizeMax :: path) anc with
        | error e => rw [hl] at ha; cases ha
        | ok r => rw [hl] at ha; cases ha; exact tail _ _ _ _ hg ⟨r, hl, rfl⟩ (preDone_some bad _ _ _ _ he')
      | none =>
        simp only at ha
        cases hl : Preorder.ctxLoop stack (if path.head? = some usizeMax then path.tail else path) anc.tail with
        | error e => rw [hl] at ha; cases ha
        | ok r =>
          rw [hl] at ha
          cases ha
          refine tail _ _ _ _ (fun x hx => hg x (List.mem_of_mem_tail hx)) ⟨r, hl, rfl⟩ ?_
          rw [List.map_tail]
          exact preDone_none bad _ _ _ he'
  | some r =>
    simp only [Preorder.ctxAdvance] at ha
    rw [val_crop] at ha
    cases ha
    by_cases hb : bad r.node = true
    · refine fin _ _ ⟨none, nodes stack, path, anc.map val, ch.map (List.map Crop.node)⟩ true ?_
        (fun _ => ⟨_, _, rfl, hb⟩) (by simp)
      simp [preCtxAdvance, hb]
    · have hb' : bad r.node = false := by simpa using hb
      refine fin _ _ ⟨none, nodes stack, path, val r.node :: anc.map val, some (kids r.node)⟩ false ?_ (by simp)
        (fun _ => ⟨by simp [kids_good r hb'], by simpa [hb'] using hg⟩)
      simp [preCtxAdvance, hb']

/-! ## Breadth-first with context -/

/-- States of the two iterators before any panic. -/
def BfsCtxR [TreeNode N V] (bad : N → Bool) (c : Bfs.CtxState N (List (Crop bad)) (Crop bad))
    (s : Bfs.CtxState V (List N) N) : Prop :=
  s = c.mapG Crop.node val ∧ (c.isRoot = true → ∀ x ∈ c.cc.ancestors.head?, bad x = false)

theorem bfsCtxLoop_sim [TreeNode N V] (bad : N → Bool) (queue : List (List (Crop bad))) (cc : Bfs.CtxCache N)
    (counter : Nat) (r : Bfs.CtxState N (List (Crop bad)) (Crop bad)) (hr : Bfs.ctxLoop queue cc counter = .ok r) :
    ∃ b s, bfsCtxLoop bad (nodes queue) (cc.map (val : N → V)) counter = .ok (b, s) ∧
      (∀ x ∈ r.cc.ancestors.head?, bad x = b) ∧ (r.cc.ancestors = [] → b = false) ∧
      (b = false → s = r.mapG Crop.node val) ∧
      (b = true → s.isRoot = false ∧ s.children = none ∧ s.cc.ancestors = r.cc.ancestors.tail.map val ∧
        s.cc.path = r.cc.path) := by
  fun_induction Bfs.ctxLoop queue cc counter with
  | case1 => cases hr
  | case2 => cases hr
  | case3 => cases hr
  | case4 counter cc cc' hcc n ns q counter' hcs =>
    rename_i counter0
    cases hr
    rw [bfsCtxLoop.eq_def, Bfs.CtxCache.map_settle, hcc]
    simp only [Except.map, List.map_cons, hcs]
    by_cases hb : bad n.node = true
    · exact ⟨true, _, by rw [if_pos hb], by simp [val_crop, hb], by simp, by simp, fun _ => ⟨rfl, rfl, by
        simp [Bfs.CtxCache.map], by simp [Bfs.CtxCache.map]⟩⟩
    · have hb' : bad n.node = false := by simpa using hb
      refine ⟨false, _, by rw [if_neg hb], by simp [val_crop, hb'], by simp, fun _ => ?_, by simp⟩
      simp [Bfs.CtxState.mapG, Bfs.CtxCache.map, kids_good n hb', val_crop]
  | case5 => cases hr
  | case6 =>
    rename_i hcc q cc2 hre hq
    cases hr
    rw [bfsCtxLoop.eq_def, Bfs.CtxCache.map_settle, hcc]
    simp only [Except.map, List.map_cons, List.map_nil, Bfs.CtxCache.map_retire, hre]
    refine ⟨false, _, by rw [if_pos (by simpa using hq)], by simp, by simp, fun _ => ?_, by simp⟩
    simp [Bfs.CtxState.mapG, Bfs.CtxCache.map]
  | case7 =>
    rename_i hcc q cc2 hre hq ih
    rw [bfsCtxLoop.eq_def, Bfs.CtxCache.map_settle, hcc]
    simp only [Except.map, List.map_cons, List.map_nil, Bfs.CtxCache.map_retire, hre]
    rw [if_neg (by simpa using hq)]
    exact ih hr

theorem bfsCtxLoop_isRoot [TreeNode N V] (queue : List (List N)) (cc : Bfs.CtxCache V) (counter : Nat)
    (r : Bfs.CtxState V (List N) N) (hr : Bfs.ctxLoop queue cc counter = .ok r) : r.isRoot = false := by
  fun_induction Bfs.ctxLoop queue cc counter with
  | case1 => cases hr
  | case2 => cases hr
  | case3 => cases hr
  | case4 => cases hr; rfl
  | case5 => cases hr
  | case6 => cases hr; rfl
  | case7 => rename_i ih; exact ih hr

theorem bfsCtx_step [TreeNode N V] (bad : N → Bool) (c : Bfs.CtxState N (List (Crop bad)) (Crop bad))
    (s : Bfs.CtxState V (List N) N) (o : Option (Ctx N (List (Crop bad))))
    (c' : Bfs.CtxState N (List (Crop bad)) (Crop bad)) (h : BfsCtxR bad c s) (hc : Bfs.ctxNext c = .ok (o, c')) :
    ∃ s', bfsCtxNext bad s = .ok (o.map (repC bad), s') ∧ (o.map (repC bad) ≠ some none → BfsCtxR bad c' s') := by
  have fin : ∀ (c' : Bfs.CtxState N (List (Crop bad)) (Crop bad)) (s s' : Bfs.CtxState V (List N) N) (b : Bool),
      bfsCtxAdvance bad s = .ok (b, s') → c'.isRoot = false →
      (∀ x ∈ c'.cc.ancestors.head?, bad x = b) → (c'.cc.ancestors = [] → b = false) →
      (b = false → s' = c'.mapG Crop.node val) →
      ∃ s', bfsCtxNext bad s = .ok ((Bfs.ctxGet c').map (repC bad), s') ∧
        ((Bfs.ctxGet c').map (repC bad) ≠ some (none : Option (Ctx V (List N))) → BfsCtxR bad c' s') := by
    intro c' s s' b hs h0 h1 h2 h3
    refine ⟨s', ?_⟩
    rw [bfsCtxNext, streamNextE, hs]
    obtain ⟨isRoot, ⟨anc, path, st, ca⟩, ch, q, ct⟩ := c'
    simp only at h0 h1 h2
    subst h0
    cases anc with
    | nil =>
      obtain rfl := h2 rfl
      obtain rfl := h3 rfl
      refine ⟨?_, fun _ => ⟨rfl, by simp⟩⟩
      simp [Bfs.ctxGet, Bfs.CtxState.mapG, Bfs.CtxCache.map]
    | cons x xs =>
      have hx := h1 x (by simp)
      cases b with
      | true => simp [Bfs.ctxGet, repC, hx]
      | false =>
        obtain rfl := h3 rfl
        refine ⟨?_, fun _ => ⟨rfl, by simp⟩⟩
        simp [Bfs.ctxGet, repC, hx, Bfs.CtxState.mapG, Bfs.CtxCache.map]
  have hadv : ∃ c1, Bfs.ctxAdvance c = .ok c1 ∧ c' = c1 ∧ o = Bfs.ctxGet c1 := by
    rw [Bfs.ctxNext, TreeIter.streamNextE] at hc
    cases ha : Bfs.ctxAdvance c with
    | error e => rw [ha] at hc; cases hc
    | ok c1 => rw [ha] at hc; cases hc; exact ⟨_, rfl, rfl, rfl⟩
  obtain ⟨c1, ha, rfl, rfl⟩ := hadv
  obtain ⟨isRoot, cc, ch, q, ct⟩ := c
  obtain ⟨rfl, hg⟩ := h
  cases isRoot with
  | true =>
    cases ha
    exact fin _ _ _ false rfl rfl (hg rfl) (fun _ => rfl) (fun _ => rfl)
  | false =>
    simp only [Bfs.ctxAdvance, Bool.false_eq_true, if_false] at ha
    by_cases he : cc.ancestors.isEmpty
    · rw [if_pos he] at ha
      cases ha
      have he' : cc.ancestors = [] := by simpa using he
      refine fin _ _ (Bfs.CtxState.mapG Crop.node val ⟨false, cc, ch, q, ct⟩) false ?_ rfl (by simp [he']) (fun _ => rfl)
        (fun _ => rfl)
      simp [bfsCtxAdvance, Bfs.CtxState.mapG, Bfs.CtxCache.map, he']
    · rw [if_neg he] at ha
      cases ch with
      | none => cases ha
      | some cs =>
        simp only at ha
        obtain ⟨b, s', e1, e2, e3, e4, -⟩ := bfsCtxLoop_sim (V := V) bad _ _ _ _ ha
        refine fin _ _ s' b ?_ (bfsCtxLoop_isRoot _ _ _ _ ha) e2 e3 e4
        rw [← e1]
        have he' : ¬ (cc.map (val : N → V)).ancestors.isEmpty = true := by simpa [Bfs.CtxCache.map] using he
        have hq : nodes (q ++ [cs]) = nodes q ++ [cs.map Crop.node] := by simp
        rw [hq]
        show bfsCtxAdvance bad ⟨false, cc.map val, some (cs.map Crop.node), nodes q, ct⟩ = _
        rw [bfsCtxAdvance, if_neg (by simp), if_neg he']

/-- The state a panic of the user's code leaves. -/
theorem bfsCtx_failed [TreeNode N V] (bad : N → Bool) (c : Bfs.CtxState N (List (Crop bad)) (Crop bad))
    (s s' : Bfs.CtxState V (List N) N) (x : Ctx N (List (Crop bad))) (c' : Bfs.CtxState N (List (Crop bad)) (Crop bad))
    (h : BfsCtxR bad c s) (hc : Bfs.ctxNext c = .ok (some x, c')) (hs : bfsCtxNext bad s = .ok (some none, s')) :
    s'.isRoot = false ∧ s'.children = none ∧ s'.cc.ancestors.length + 1 = x.ancestors.length := by
  have hadv : ∃ c1, Bfs.ctxAdvance c = .ok c1 ∧ c' = c1 ∧ some x = Bfs.ctxGet c1 := by
    rw [Bfs.ctxNext, TreeIter.streamNextE] at hc
    cases ha : Bfs.ctxAdvance c with
    | error e => rw [ha] at hc; cases hc
    | ok c1 =>
      rw [ha] at hc
      simp only [Except.ok.injEq, Prod.mk.injEq] at hc
      exact ⟨_, rfl, hc.2.symm, hc.1.symm⟩
  have hadv' : bfsCtxAdvance bad s = .ok (true, s') := by
    rw [bfsCtxNext, streamNextE] at hs
    cases ha : bfsCtxAdvance bad s with
    | error e => rw [ha] at hs; cases hs
    | ok r =>
      obtain ⟨b, s1⟩ := r
      rw [ha] at hs
      cases b with
      | true => simp only [Except.ok.injEq, Prod.mk.injEq] at hs; rw [hs.2]
      | false =>
        exfalso
        simp only [Except.ok.injEq, Prod.mk.injEq] at hs
        have := hs.1
        cases hg : Bfs.ctxGet s1 <;> rw [hg] at this <;> simp at this
  obtain ⟨c1, ha, rfl, hx⟩ := hadv
  obtain ⟨isRoot, cc, ch, q, ct⟩ := c
  obtain ⟨rfl, hg⟩ := h
  cases isRoot with
  | true => simp [bfsCtxAdvance, Bfs.CtxState.mapG] at hadv'
  | false =>
    simp only [Bfs.ctxAdvance, Bool.false_eq_true, if_false] at ha
    by_cases he : cc.ancestors.isEmpty
    · rw [if_pos he] at ha
      cases ha
      simp [Bfs.ctxGet, he] at hx
    · rw [if_neg he] at ha
      cases ch with
      | none => cases ha
      | some cs =>
        simp only at ha
        obtain ⟨b, s1, e1, e2, e3, e4, e5⟩ := bfsCtxLoop_sim (V := V) bad _ _ _ _ ha
        have he' : ¬ (cc.map (val : N → V)).ancestors.isEmpty = true := by simpa [Bfs.CtxCache.map] using he
        have hq : nodes (q ++ [cs]) = nodes q ++ [cs.map Crop.node] := by simp
        rw [hq] at e1
        change bfsCtxAdvance bad ⟨false, cc.map val, some (cs.map Crop.node), nodes q, ct⟩ = _ at hadv'
        rw [bfsCtxAdvance, if_neg (by simp), if_neg he'] at hadv'
        simp only [e1, Except.ok.injEq, Prod.mk.injEq] at hadv'
        obtain ⟨rfl, rfl⟩ := hadv'
        obtain ⟨h1, h2, h3, -⟩ := e5 rfl
        refine ⟨h1, h2, ?_⟩
        rw [Bfs.ctxGet] at hx
        split at hx
        · cases hx
        · rename_i hne
          cases hx
          have : 0 < c'.cc.ancestors.length := List.length_pos_iff.2 (by simpa using hne)
          simp [h3]
          omega

/-- After a caught panic every call panics. -/
theorem bfsCtx_dead [SplitNode N V] (bad : N → Bool) (s : Bfs.CtxState V (List N) N) (h1 : s.isRoot = false)
    (h2 : s.cc.ancestors ≠ []) (h3 : s.children = none) : bfsCtxNext bad s = .error .unwrapNone := by
  rw [bfsCtxNext, streamNextE, bfsCtxAdvance, h1, h3]
  simp [h2]

end Fail

end TreeIter
