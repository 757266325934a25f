import Verif.Lemmas.Fail
import Verif.Lemmas.SliceEditBfsCtx
import Verif.Lemmas.Positions
import Verif.Lemmas.Located

/-!
# Lemmas about the iterators that do not survive a panic of the user's code

Up to the first panic they behave like the ordinary iterators over the cropped tree, whose nodes are `Crop bad`.
-/

universe u v w x

namespace TreeIter

namespace Fail

/-! ## Calls up to the first panic -/

theorem nthCall_until_fail {S : Type u} {C : Type v} {P : Type w} {O : Type x} {next : S → Option (Option O) × S} {nextC : C → Option P × C}
    (f : P → Option O) (R : C → S → Prop)
    (step : ∀ c s, R c s → (next s).1 = (nextC c).1.map f ∧ ((next s).1 ≠ some none → R (nextC c).2 (next s).2))
    (k : Nat) (c : C) (s : S) (h : R c s) (l : List P) (hl : ∀ j, nthCall nextC j c = l[j]?)
    (hg : ∀ j < k, (l.map f)[j]? ≠ some none) : nthCall next k s = (l.map f)[k]? := by
  induction k generalizing c s l with
  | zero =>
    have h0 := hl 0
    rw [nthCall, stateAfter] at h0 ⊢
    rw [(step c s h).1, h0, List.getElem?_map]
  | succ k ih =>
    have h0 := hl 0
    rw [nthCall, stateAfter] at h0
    obtain ⟨h1, h2⟩ := step c s h
    have h3 : (next s).1 ≠ some none := by
      rw [h1, h0, ← List.getElem?_map]
      exact hg 0 (by omega)
    have e := ih _ _ (h2 h3) l.tail (fun j => by rw [List.getElem?_tail]; exact hl (j + 1))
      (fun j hj => by rw [List.map_tail, List.getElem?_tail]; exact hg (j + 1) (by omega))
    rw [List.map_tail, List.getElem?_tail] at e
    exact e

theorem nthCallE_until_fail {S : Type u} {C : Type v} {P : Type w} {O : Type x} {next : S → Except Panic (Option (Option O) × S)}
    {nextC : C → Except Panic (Option P × C)} (f : P → Option O) (R : C → S → Prop)
    (step : ∀ c s o c', R c s → nextC c = .ok (o, c') →
      ∃ s', next s = .ok (o.map f, s') ∧ (o.map f ≠ some none → R c' s'))
    (k : Nat) (c : C) (s : S) (h : R c s) (l : List P) (hl : ∀ j, nthCallE nextC j c = .ok l[j]?)
    (hg : ∀ j < k, (l.map f)[j]? ≠ some none) : nthCallE next k s = .ok (l.map f)[k]? := by
  have first : ∀ (c : C) (l : List P), (∀ j, nthCallE nextC j c = .ok l[j]?) → ∃ c', nextC c = .ok (l[0]?, c') := by
    intro c l hl
    have h0 := hl 0
    rw [nthCallE, stateAfterE] at h0
    simp only at h0
    cases hn : nextC c with
    | error e => rw [hn] at h0; cases h0
    | ok r =>
      rw [hn] at h0
      simp only [Except.ok.injEq] at h0
      exact ⟨r.2, by rw [← h0]⟩
  induction k generalizing c s l with
  | zero =>
    obtain ⟨c', hc'⟩ := first c l hl
    obtain ⟨s', h1, -⟩ := step c s _ c' h hc'
    rw [nthCallE, stateAfterE]
    simp only [h1, List.getElem?_map]
  | succ k ih =>
    obtain ⟨c', hc'⟩ := first c l hl
    obtain ⟨s', h1, h2⟩ := step c s _ c' h hc'
    have h3 : (l[0]?).map f ≠ some none := by
      rw [← List.getElem?_map]
      exact hg 0 (by omega)
    have e := ih _ _ (h2 h3) l.tail
      (fun j => by
        rw [List.getElem?_tail]
        have := hl (j + 1)
        rw [nthCallE, stateAfterE, hc'] at this
        exact this)
      (fun j hj => by rw [List.map_tail, List.getElem?_tail]; exact hg (j + 1) (by omega))
    rw [List.map_tail, List.getElem?_tail] at e
    rw [nthCallE, stateAfterE, h1]
    exact e

/-- The states before the first panic are related. -/
theorem stateAfterE_until_fail {S : Type u} {C : Type v} {P : Type w} {O : Type x}
    {next : S → Except Panic (Option (Option O) × S)} {nextC : C → Except Panic (Option P × C)} (f : P → Option O)
    (R : C → S → Prop) (step : ∀ c s o c', R c s → nextC c = .ok (o, c') →
      ∃ s', next s = .ok (o.map f, s') ∧ (o.map f ≠ some none → R c' s'))
    (k : Nat) (c : C) (s : S) (h : R c s) (l : List P) (hl : ∀ j, nthCallE nextC j c = .ok l[j]?)
    (hg : ∀ j < k, (l.map f)[j]? ≠ some none) :
    ∃ c' c'' s' s'', R c' s' ∧ nextC c' = .ok (l[k]?, c'') ∧ stateAfterE next (k + 1) s = .ok s'' ∧
      next s' = .ok ((l.map f)[k]?, s'') := by
  have first : ∀ (c : C) (l : List P), (∀ j, nthCallE nextC j c = .ok l[j]?) → ∃ c', nextC c = .ok (l[0]?, c') := by
    intro c l hl
    have h0 := hl 0
    rw [nthCallE, stateAfterE] at h0
    simp only at h0
    cases hn : nextC c with
    | error e => rw [hn] at h0; cases h0
    | ok r =>
      rw [hn] at h0
      simp only [Except.ok.injEq] at h0
      exact ⟨r.2, by rw [← h0]⟩
  induction k generalizing c s l with
  | zero =>
    obtain ⟨c', hc'⟩ := first c l hl
    obtain ⟨s', h1, -⟩ := step c s _ c' h hc'
    refine ⟨c, c', s, s', h, hc', ?_, by rw [h1, List.getElem?_map]⟩
    rw [stateAfterE, h1]
    rfl
  | succ k ih =>
    obtain ⟨c', hc'⟩ := first c l hl
    obtain ⟨s', h1, h2⟩ := step c s _ c' h hc'
    obtain ⟨c1, c2, s1, s2, e1, e2, e3, e4⟩ := ih c' s' (h2 (by rw [← List.getElem?_map]; exact hg 0 (by omega))) l.tail
      (fun j => by
        rw [List.getElem?_tail, ← hl (j + 1), nthCallE, nthCallE, stateAfterE, hc'])
      (fun j hj => by rw [List.map_tail, List.getElem?_tail]; exact hg (j + 1) (by omega))
    rw [List.getElem?_tail] at e2
    rw [List.map_tail, List.getElem?_tail] at e4
    refine ⟨c1, c2, s1, s2, e1, e2, ?_, e4⟩
    rw [stateAfterE, h1]
    exact e3

/-! ## Nodes without what is below the bad ones -/

variable {N : Type u} {V : Type v}

/-- A node of which nothing is known if it is bad. -/
structure Crop (bad : N → Bool) where
  node : N

instance Crop.instTreeNode [TreeNode N V] (bad : N → Bool) : TreeNode (Crop bad) N where
  split c := (c.node, if bad c.node then [] else (kids c.node).map Crop.mk)
  size c := TreeNode.size c.node
  size_lt := by
    intro n c h
    simp only at h
    split at h
    · simp at h
    · simp only [List.mem_map] at h
      obtain ⟨m, hm, rfl⟩ := h
      exact TreeNode.size_lt hm

theorem val_crop [TreeNode N V] {bad : N → Bool} (c : Crop bad) : val c = c.node := rfl

theorem kids_crop [TreeNode N V] {bad : N → Bool} (c : Crop bad) :
    kids c = if bad c.node then [] else (kids c.node).map Crop.mk := rfl

theorem kids_bad [TreeNode N V] {bad : N → Bool} (c : Crop bad) (h : bad c.node = true) : kids c = [] := by
  rw [kids_crop, if_pos h]

theorem kids_good [TreeNode N V] {bad : N → Bool} (c : Crop bad) (h : bad c.node = false) :
    (kids c).map Crop.node = kids c.node := by
  rw [kids_crop, h, if_neg (by simp), List.map_map]
  exact List.map_id _

theorem unfold_crop [TreeNode N V] (bad : N → Bool) (n : N) :
    unfold (Crop.mk n : Crop bad) = ((unfold n).crop bad).map Crop.mk := by
  induction n using node_ind with
  | h n ih =>
    rw [unfold_eq, unfold_eq, Tree.crop, Tree.cropL_eq, Tree.map_node, kids_crop]
    simp only
    split
    · rfl
    · simp only [List.map_map]
      congr 1
      exact List.map_congr_left fun c hc => ih c hc

theorem mem_crop {α : Type u} (bad : α → Bool) (t : Tree α) (a : α) (h : a ∈ (t.crop bad).preorder) : a ∈ t.preorder := by
  induction t using Tree.ind with
  | h b cs ih =>
    rw [Tree.crop, Tree.cropL_eq, Tree.preorder_node, List.mem_cons] at h
    rw [Tree.preorder_node, List.mem_cons]
    rcases h with h | h
    · exact .inl h
    · right
      split at h
      · simp at h
      · rw [List.mem_flatMap] at h ⊢
        obtain ⟨t, ht, h⟩ := h
        obtain ⟨t', ht', rfl⟩ := List.mem_map.1 ht
        exact ⟨t', ht', ih t' ht' h⟩

theorem arityOk_crop [TreeNode N V] (bad : N → Bool) (n : N) (h : ArityOk n) : ArityOk (Crop.mk n : Crop bad) := by
  intro m hm
  rw [unfold_crop, Tree.preorder_map, List.mem_map] at hm
  obtain ⟨a, ha, rfl⟩ := hm
  have := h a (mem_crop bad _ _ ha)
  rw [kids_crop]
  split <;> simp [this]

theorem arityLt_crop [TreeNode N V] (bad : N → Bool) (n : N) (h : ArityLt n) : ArityLt (Crop.mk n : Crop bad) := by
  intro m hm
  rw [unfold_crop, Tree.preorder_map, List.mem_map] at hm
  obtain ⟨a, ha, rfl⟩ := hm
  have := h a (mem_crop bad _ _ ha)
  rw [kids_crop]
  split <;> simp [this]

/-- The reply for a list of ancestors, the node last. -/
def repL [TreeNode N V] (bad : N → Bool) (l : List N) : Option (List V) :=
  if l.getLast?.any bad then none else some (l.map val)

/-- The reply for a context. -/
def repC [TreeNode N V] (bad : N → Bool) (c : Ctx N (List (Crop bad))) : Option (Ctx V (List N)) :=
  if c.ancestors.getLast?.any bad then none
  else some ⟨c.path, c.ancestors.map val, c.children.map (List.map Crop.node)⟩

theorem repL_pos [TreeNode N V] (bad : N → Bool) (p : Pos N) (h : p.ancestors.getLast? = some p.item) :
    repL bad ((p.map (Crop.mk : N → Crop bad)).ancestors.map val) = replyPos bad (fun p => p.ancestors.map val) p := by
  have e : (p.map (Crop.mk : N → Crop bad)).ancestors.map val = p.ancestors := by
    simp only [Pos.map, List.map_map]
    exact List.map_id _
  rw [e, repL, replyPos, h]
  rfl

theorem repC_pos [TreeNode N V] (bad : N → Bool) (p : Pos N) (h : p.ancestors.getLast? = some p.item) :
    repC bad (p.map (Crop.mk : N → Crop bad)).ctx = replyPos bad Pos.ctx p := by
  have e : (p.map (Crop.mk : N → Crop bad)).ctx =
      ⟨p.path, p.ancestors, some (kids (Crop.mk p.item : Crop bad))⟩ := by
    simp only [Pos.map, Pos.ctx, List.map_map, Ctx.mk.injEq, true_and]
    exact ⟨List.map_id _, trivial⟩
  rw [e, repC, replyPos]
  simp only [h, Option.any_some, Option.map_some]
  split
  · rfl
  · rename_i hb
    rw [kids_good _ (by simpa using hb)]
    rfl

theorem map_withPos_congr {α : Type u} {β : Type v} (F G : Pos α → β)
    (h : ∀ p : Pos α, p.ancestors.getLast? = some p.item → F p = G p) (t : Tree α) (path : List Nat) (anc : List α) :
    (t.withPos path anc).map F = (t.withPos path anc).map G := by
  induction t using Tree.ind generalizing path anc with
  | h a cs ih =>
    rw [Tree.withPos, Tree.map_node, Tree.map_node, h _ (by simp)]
    congr 1
    suffices ∀ i, (Tree.withPosL path (anc ++ [a]) i cs).map (Tree.map F) =
        (Tree.withPosL path (anc ++ [a]) i cs).map (Tree.map G) from this 0
    clear h
    induction cs with
    | nil => intro i; rfl
    | cons t ts ihs =>
      intro i
      rw [Tree.withPosL, List.map_cons, List.map_cons, ih t (by simp),
        ihs (fun t' h' => ih t' (List.mem_cons_of_mem _ h'))]

/-- The ancestors an ordinary iterator hands out over the cropped tree, read as replies. -/
theorem located_repL [TreeNode N V] (bad : N → Bool) (n : N) :
    ((treeOf (Crop.mk n : Crop bad)).located.map Pos.ancestors).map (repL bad) =
      ((unfold n).crop bad).located.map (replyPos bad fun p => p.ancestors.map val) := by
  rw [treeOf, Tree.located_map, unfold_crop, Tree.located_map, Tree.map_map, Tree.map_map, Tree.map_map, Tree.located]
  exact map_withPos_congr _ _ (fun p hp => repL_pos bad p hp) _ _ _

/-- The contexts an ordinary iterator hands out over the cropped tree, read as replies. -/
theorem located_repC [TreeNode N V] (bad : N → Bool) (n : N) :
    ((unfold (Crop.mk n : Crop bad)).located.map Pos.ctx).map (repC bad) =
      ((unfold n).crop bad).located.map (replyPos bad Pos.ctx) := by
  rw [unfold_crop, Tree.located_map, Tree.map_map, Tree.map_map, Tree.located]
  exact map_withPos_congr _ _ (fun p hp => repC_pos bad p hp) _ _ _

/-- The nodes themselves. -/
abbrev nodes {bad : N → Bool} (st : List (List (Crop bad))) : List (List N) := st.map (List.map Crop.node)

/-! ## Postorder with ancestors -/

theorem postAncLoop_sim [TreeNode N V] (bad : N → Bool) (stack : List (List (Crop bad))) (items : List N)
    (h : ∀ x ∈ items, bad x = false) :
    ((∃ x xs, (Postorder.ancLoop stack items).1 = x :: xs ∧ bad x = true) ∧
      (postAncLoop bad (nodes stack) (items.map val)).1 = true) ∨
    ((∀ x ∈ (Postorder.ancLoop stack items).1, bad x = false) ∧
      postAncLoop bad (nodes stack) (items.map val) =
        (false, (Postorder.ancLoop stack items).1.map val, nodes (Postorder.ancLoop stack items).2)) := by
  fun_induction Postorder.ancLoop stack items with
  | case1 items => right; exact ⟨h, by simp [postAncLoop]⟩
  | case2 rest items => right; exact ⟨h, by simp [postAncLoop]⟩
  | case3 n ns rest items ih =>
    rw [val_crop] at ih ⊢
    by_cases hb : bad n.node = true
    · left
      rw [kids_bad n hb, Postorder.ancLoop]
      exact ⟨⟨_, _, rfl, hb⟩, by simp [postAncLoop, hb]⟩
    · have hb' : bad n.node = false := by simpa using hb
      have := ih (by simpa [hb'] using h)
      simpa [postAncLoop, hb', kids_good n hb'] using this

/-- States of the two iterators before any panic. -/
def PostAncR [TreeNode N V] (bad : N → Bool) (c : Postorder.AncState (Crop bad) N) (s : Postorder.AncState N V) : Prop :=
  s = ⟨c.root.map Crop.node, c.items.map val, nodes c.stack⟩ ∧ ∀ x ∈ c.items, bad x = false

theorem postAnc_step [TreeNode N V] (bad : N → Bool) (c : Postorder.AncState (Crop bad) N) (s : Postorder.AncState N V)
    (h : PostAncR bad c s) : (postAncNext bad s).1 = (Postorder.ancNext c).1.map (repL bad) ∧
      ((postAncNext bad s).1 ≠ some none → PostAncR bad (Postorder.ancNext c).2 (postAncNext bad s).2) := by
  have key : ∀ (stack : List (List (Crop bad))) (items : List N), (∀ x ∈ items, bad x = false) →
      ∀ c s, Postorder.ancAdvance c = ⟨none, (Postorder.ancLoop stack items).1, (Postorder.ancLoop stack items).2⟩ →
      postAncAdvance bad s = ((postAncLoop bad (nodes stack) (items.map (val : N → V))).1,
        ⟨none, (postAncLoop bad (nodes stack) (items.map val)).2.1, (postAncLoop bad (nodes stack) (items.map val)).2.2⟩) →
      (postAncNext bad s).1 = (Postorder.ancNext c).1.map (repL bad) ∧
      ((postAncNext bad s).1 ≠ some none → PostAncR bad (Postorder.ancNext c).2 (postAncNext bad s).2) := by
    intro stack items hi c s hc hs
    rw [postAncNext, streamNext, hs, Postorder.ancNext, TreeIter.streamNext, hc]
    rcases postAncLoop_sim bad stack items hi with ⟨⟨x, xs, h1, h2⟩, h3⟩ | ⟨h1, h2⟩
    · simp [h3, Postorder.ancGet, h1, repL, h2]
    · rw [h2]
      constructor
      · cases hr : (Postorder.ancLoop stack items).1 with
        | nil => simp [Postorder.ancGet]
        | cons x xs =>
          have := h1 x (by simp [hr])
          simp [Postorder.ancGet, repL, this]
      · intro _
        exact ⟨rfl, h1⟩
  obtain ⟨root, items, stack⟩ := c
  obtain ⟨rfl, hg⟩ := h
  simp only at hg
  cases root with
  | none =>
    exact key stack items.tail (fun x hx => hg x (List.mem_of_mem_tail hx)) _ _ rfl (by
      simp only [postAncAdvance, Option.map_none]
      rw [List.map_tail])
  | some r =>
    by_cases hb : bad r.node = true
    · have hs : postAncAdvance bad (⟨some r.node, items.map (val : N → V), nodes stack⟩ : Postorder.AncState N V) =
          (true, ⟨none, items.map val, nodes stack⟩) := by
        rw [postAncAdvance]; simp [hb]
      rw [postAncNext, streamNext, Option.map_some, hs]
      simp only [ne_eq, not_true_eq_false, IsEmpty.forall_iff, and_true]
      rw [Postorder.ancNext, TreeIter.streamNext, Postorder.ancAdvance]
      simp only
      rw [kids_bad r hb, Postorder.ancLoop]
      simp [Postorder.ancGet, val_crop, repL, hb]
    · have hb' : bad r.node = false := by simpa using hb
      refine key (kids r :: stack) (r.node :: items) (by simpa [hb'] using hg) _ _ rfl ?_
      rw [postAncAdvance]
      simp [hb', kids_good r hb']

end Fail

end TreeIter
