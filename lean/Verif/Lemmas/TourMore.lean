import Verif.Lemmas.Tour
import Verif.Model.HandlesMore

/-! # Lemmas about the release of child collections: ancestors and leaves -/

universe u v w x

namespace TreeIter

namespace Handles

variable {N : Type u} {V : Type v} {S : Type w} {O : Type x}

/-! ## Cuts -/

/-- A way of cutting that gives everything if told to go far enough. -/
def Whole (cut : Nat → List (Event N) → List (Event N)) : Prop := ∀ k l, l.length ≤ k → cut k l = l

theorem whole_untilOpened : Whole (N := N) untilOpened := by
  intro k l h
  fun_induction untilOpened k l <;> simp_all <;> (rename_i ih; exact ih (by omega))

theorem whole_untilDropped : Whole (N := N) untilDropped := by
  intro k l h
  fun_induction untilDropped k l <;> simp_all <;> (rename_i ih; exact ih (by omega))

theorem whole_untilLeaf : Whole (N := N) untilLeaf := by
  intro k l h
  fun_induction untilLeaf k l <;> simp_all <;> (rename_i ih; exact ih (by omega))

theorem whole_untilLeafOpened (c : N → Bool) : Whole (untilLeafOpened c) := by
  intro k l h
  fun_induction untilLeafOpened c k l <;> simp_all <;>
    first | (rename_i ih; exact ih (by omega)) | (rename_i ih; exact fun _ => ih (by omega))

theorem Cuts.whole {cut : Nat → List (Event N) → List (Event N)} (hc : Whole cut) {rem : S → List (Event N)} {k : Nat}
    {s s' : S} {es : List (Event N)} (h : Cuts cut rem k s es s') : es ++ rem s' = rem s := by
  have := h (max (rem s).length (rem s').length)
  rw [hc _ _ (Nat.le_trans (Nat.le_max_left ..) (Nat.le_add_right ..)), hc _ _ (Nat.le_max_right ..)] at this
  exact this.symm

/-- What is dropped or still held is what was held or has been opened, if this is so for what is still to happen. -/
theorem Cuts.perm_of {cut : Nat → List (Event N) → List (Event N)} {rem : S → List (Event N)} {k : Nat} {s s' : S}
    {es : List (Event N)} (h : Cuts cut rem k s es s') (hc : Whole cut) {live : S → List N}
    (hl : (dropped (rem s)).Perm (live s ++ opened (rem s)))
    (hl' : (dropped (rem s')).Perm (live s' ++ opened (rem s'))) :
    (dropped es ++ live s').Perm (live s ++ opened es) := by
  have h1 := hl
  rw [← h.whole hc, dropped_append, opened_append, ← List.append_assoc] at h1
  have h2 := ((hl').append_left (dropped es)).symm.trans h1
  rw [← List.append_assoc] at h2
  exact (List.perm_append_right_iff _).1 h2


theorem Cuts.perm {cut : Nat → List (Event N) → List (Event N)} (hc : Whole cut) {rem : S → List (Event N)}
    {live : S → List N} (hl : ∀ s, (dropped (rem s)).Perm (live s ++ opened (rem s))) {k : Nat}
    {s s' : S} {es : List (Event N)} (h : Cuts cut rem k s es s') :
    (dropped es ++ live s').Perm (live s ++ opened es) := h.perm_of hc (hl s) (hl s')

theorem run_cuts {next : S → List (Event N) × Option O × S} {cut : Nat → List (Event N) → List (Event N)}
    {rem : S → List (Event N)} (Inv : S → Prop)
    (h : ∀ s, Inv s → Cuts cut rem 1 s (next s).1 (next s).2.2 ∧ Inv (next s).2.2) (k : Nat) (s : S) (hs : Inv s) :
    Cuts cut rem k s (run next k s).1 (run next k s).2.2 := by
  induction k generalizing s with
  | zero => exact Cuts.nil _ _ _
  | succ k ih => exact (h s hs).1.trans (ih _ (h s hs).2)

theorem run_cuts_inv {next : S → List (Event N) × Option O × S} {cut : Nat → List (Event N) → List (Event N)}
    {rem : S → List (Event N)} (Inv : S → Prop)
    (h : ∀ s, Inv s → Cuts cut rem 1 s (next s).1 (next s).2.2 ∧ Inv (next s).2.2) (k : Nat) (s : S) (hs : Inv s) :
    Cuts cut rem k s (run next k s).1 (run next k s).2.2 ∧ Inv (run next k s).2.2 := by
  refine ⟨run_cuts Inv h k s hs, ?_⟩
  induction k generalizing s with
  | zero => exact hs
  | succ k ih => exact ih _ (h s hs).2

theorem untilLeaf_nil (k : Nat) : untilLeaf k ([] : List (Event N)) = [] := by cases k <;> rw [untilLeaf]
theorem untilLeafOpened_nil (c : N → Bool) (k : Nat) : untilLeafOpened c k [] = [] := by cases k <;> rw [untilLeafOpened]

theorem untilLeaf_dropped (k : Nat) (n : N) (es : List (Event N)) :
    untilLeaf (k + 1) (.dropped n :: es) = .dropped n :: untilLeaf (k + 1) es := by
  rw [untilLeaf]
  intro _ _ _ h
  cases h

theorem untilLeaf_opened (k : Nat) (n m : N) (es : List (Event N)) :
    untilLeaf (k + 1) (.opened n :: .opened m :: es) = .opened n :: untilLeaf (k + 1) (.opened m :: es) := by
  rw [untilLeaf]
  intro _ _ _ _ h
  cases h

/-! ## What is held, by what is still to happen -/

theorem tour_balance (t : Tree N) : (dropped (tour t)).Perm (opened (tour t)) := by
  induction t using Tree.ind with
  | h a cs ih =>
    rw [tour, tourL_eq]
    have : (dropped (cs.flatMap tour)).Perm (opened (cs.flatMap tour)) := by
      clear a
      induction cs with
      | nil => exact .nil
      | cons c cs ih2 =>
        simp only [List.flatMap_cons, opened_append, dropped_append]
        exact (ih c List.mem_cons_self).append (ih2 fun d hd => ih d (List.mem_cons_of_mem _ hd))
    simp only [opened, opened_append, dropped_append, dropped, List.append_nil]
    exact (List.perm_append_singleton _ _).trans (this.cons a)

theorem tours_balance (cs : List (Tree N)) : (dropped (cs.flatMap tour)).Perm (opened (cs.flatMap tour)) := by
  induction cs with
  | nil => exact .nil
  | cons c cs ih =>
    simp only [List.flatMap_cons, opened_append, dropped_append]
    exact (tour_balance c).append ih

theorem walk_balance [TreeNode N V] (st : List (Handle N)) : (dropped (walk st)).Perm (owners st ++ opened (walk st)) := by
  induction st with
  | nil => exact .nil
  | cons h st ih =>
    have := tours_balance (h.items.map unfold)
    rw [List.flatMap_map] at this
    simp only [walk, dropped_append, opened_append, dropped, opened, owners_cons, List.cons_append]
    refine (List.perm_middle).trans (List.Perm.cons _ ?_)
    refine (this.append ih).trans ?_
    rw [← List.append_assoc, ← List.append_assoc]
    exact List.perm_append_comm.append_right _

theorem opened_map_opened (l : List N) : opened (l.map Event.opened) = l := by
  induction l with
  | nil => rfl
  | cons a l ih => simp [opened, ih]

theorem dropped_map_opened (l : List N) : dropped (l.map Event.opened) = [] := by
  induction l with
  | nil => rfl
  | cons a l ih => simp [dropped, ih]

theorem sweep_dropped [TreeNode N V] (q : List (Handle N)) :
    dropped (sweep q) = owners q ++ bfsF ((q.flatMap Handle.items).map unfold) := by
  have h1 : ∀ q : List (Handle N), dropped (q.flatMap fun h => h.items.map .opened ++ [.dropped h.owner]) = owners q := by
    intro q
    induction q with
    | nil => rfl
    | cons h q ih => simp [dropped_map_opened, dropped, ih]
  have h2 : ∀ l : List N, dropped (l.flatMap fun m => (kids m).map Event.opened ++ [.dropped m]) = l := by
    intro l
    induction l with
    | nil => rfl
    | cons h q ih => simp [dropped_map_opened, dropped, ih]
  rw [sweep, dropped_append, h1, h2]

theorem sweep_opened [TreeNode N V] (q : List (Handle N)) :
    opened (sweep q) = bfsF ((q.flatMap Handle.items).map unfold) := by
  generalize hm : 2 * (bfsF ((q.flatMap Handle.items).map unfold)).length + q.length = m
  induction m using Nat.strongRecOn generalizing q with
  | _ m ih =>
    cases q with
    | nil => simp [sweep_nil, opened]
    | cons h q =>
      obtain ⟨o, _ | ⟨n, ns⟩⟩ := h
      · rw [sweep_drop, opened, ih _ _ q rfl]
        · simp
        · subst hm
          simp
      · have := bfsF_unfold (N := N) (V := V) n (ns ++ q.flatMap Handle.items)
        rw [sweep_open, opened, ih _ _ (⟨o, ns⟩ :: q ++ [handle n]) rfl]
        · simp only [List.flatMap_cons, List.cons_append, this]
          simp
        · subst hm
          simp only [List.flatMap_cons, List.cons_append, this]
          simp
          omega

/-! ## Preorder with ancestors -/

def PreAnc.rem [TreeNode N V] (s : PreAnc N V) : List (Event N) :=
  (match s.root with | some r => tour (unfold r) | none => []) ++ walk s.stack

theorem preAncAdvance_cut [TreeNode N V] (s : PreAnc N V) :
    Cuts untilOpened PreAnc.rem 1 s (preAncAdvance s).1 (preAncAdvance s).2 := by
  intro j
  obtain ⟨root, stack, items⟩ := s
  cases root with
  | some r => simp [preAncAdvance, PreAnc.rem, tour_walk, untilOpened]
  | none =>
    induction stack generalizing items with
    | nil => simp [preAncAdvance, preAncLoop, PreAnc.rem, walk, untilOpened_nil]
    | cons h rest ih =>
      obtain ⟨o, _ | ⟨n, ns⟩⟩ := h
      · have ih := ih items.tail
        simp only [preAncAdvance, preAncLoop, PreAnc.rem, List.nil_append] at ih ⊢
        rcases hl : preAncLoop rest items.tail with ⟨es, _ | m, st, it⟩ <;> simpa [hl, walk, untilOpened] using ih
      · simp [preAncAdvance, preAncLoop, PreAnc.rem, walk_cons, untilOpened]

theorem preAncAdvance_erase [SplitNode N V] (s : PreAnc N V) :
    Preorder.ancNext s.erase = ((streamed preAncAdvance PreAnc.erase Preorder.ancGet s).2.1,
      (streamed preAncAdvance PreAnc.erase Preorder.ancGet s).2.2.erase) := by
  have key : Preorder.ancAdvance s.erase = (preAncAdvance s).2.erase := by
    obtain ⟨root, stack, items⟩ := s
    cases root with
    | some r => simp [Preorder.ancAdvance, preAncAdvance, PreAnc.erase]
    | none =>
      have hl : ∀ (st : List (Handle N)) (it : List V), Preorder.ancLoop (bare st) it =
          ((preAncLoop st it).2.1, bare (preAncLoop st it).2.2.1, (preAncLoop st it).2.2.2) := by
        intro st
        induction st with
        | nil => intro it; rfl
        | cons h rest ih =>
          intro it
          obtain ⟨o, _ | ⟨n, ns⟩⟩ := h
          · simp [Preorder.ancLoop, preAncLoop, ih]
          · simp [Preorder.ancLoop, preAncLoop]
      have := hl stack items
      simp only [Preorder.ancAdvance, preAncAdvance, PreAnc.erase, this]
      rcases preAncLoop stack items with ⟨es, _ | m, st, it⟩ <;> simp
  simp only [Preorder.ancNext, streamNext, streamed, key]

theorem PreAnc.balance [TreeNode N V] (s : PreAnc N V) : (dropped s.rem).Perm (s.live ++ opened s.rem) := by
  obtain ⟨_ | r, stack, items⟩ := s
  · simpa [PreAnc.rem, PreAnc.live] using walk_balance stack
  · simp only [PreAnc.rem, PreAnc.live, dropped_append, opened_append]
    refine ((tour_balance (unfold r)).append (walk_balance stack)).trans ?_
    rw [← List.append_assoc, ← List.append_assoc]
    exact List.perm_append_comm.append_right _

/-! ## Postorder with ancestors -/

def PostAnc.rem [TreeNode N V] (s : PostAnc N V) : List (Event N) :=
  (match s.root with | some r => tour (unfold r) | none => []) ++ walk s.stack

theorem postAncLoop_cut [TreeNode N V] (k : Nat) (st : List (Handle N)) (items : List V) :
    untilDropped (k + 1) (walk st) = (postAncLoop st items).1 ++ untilDropped k (walk (postAncLoop st items).2.2) := by
  fun_induction postAncLoop st items with
  | case1 items => simp [walk, untilDropped_nil]
  | case2 o rest items => simp [walk, untilDropped]
  | case3 o n ns rest items r ih =>
    rw [walk_cons, untilDropped, ih]
    rfl

theorem postAncAdvance_cut [TreeNode N V] (s : PostAnc N V) :
    Cuts untilDropped PostAnc.rem 1 s (postAncAdvance s).1 (postAncAdvance s).2 := by
  intro j
  obtain ⟨root, items, stack⟩ := s
  cases root with
  | some r =>
    simp only [postAncAdvance, PostAnc.rem, tour_walk, untilDropped, List.nil_append, List.cons_append]
    rw [postAncLoop_cut]
  | none =>
    simp only [postAncAdvance, PostAnc.rem, List.nil_append]
    exact postAncLoop_cut j stack items.tail

theorem postAncLoop_erase [TreeNode N V] (st : List (Handle N)) (items : List V) :
    Postorder.ancLoop (bare st) items = ((postAncLoop st items).2.1, bare (postAncLoop st items).2.2) := by
  fun_induction postAncLoop st items with
  | case1 items => simp [Postorder.ancLoop]
  | case2 o rest items => simp [Postorder.ancLoop]
  | case3 o n ns rest items r ih =>
    rw [bare_cons, Postorder.ancLoop]
    exact ih

theorem postAncAdvance_erase [TreeNode N V] (s : PostAnc N V) :
    Postorder.ancNext s.erase = ((streamed postAncAdvance PostAnc.erase Postorder.ancGet s).2.1,
      (streamed postAncAdvance PostAnc.erase Postorder.ancGet s).2.2.erase) := by
  have key : Postorder.ancAdvance s.erase = (postAncAdvance s).2.erase := by
    obtain ⟨_ | root, items, stack⟩ := s
    · simp [Postorder.ancAdvance, PostAnc.erase, postAncAdvance, postAncLoop_erase]
    · have := postAncLoop_erase (handle root :: stack) (val root :: items)
      simp only [bare_cons, items_handle] at this
      simp [Postorder.ancAdvance, PostAnc.erase, postAncAdvance, this]
  simp only [Postorder.ancNext, streamNext, streamed, key]

theorem PostAnc.balance [TreeNode N V] (s : PostAnc N V) : (dropped s.rem).Perm (s.live ++ opened s.rem) :=
  PreAnc.balance ⟨s.root, s.stack, s.items⟩

/-! ## Breadth first with ancestors -/

def BfsAncH.rem [TreeNode N V] (s : BfsAncH N V) : List (Event N) := sweep s.queue

def BfsAncH.Started (s : BfsAncH N V) : Prop := s.isRoot = false

theorem BfsAncH.balance [TreeNode N V] (s : BfsAncH N V) : (dropped s.rem).Perm (s.live ++ opened s.rem) := by
  simp [BfsAncH.rem, BfsAncH.live, sweep_dropped, sweep_opened]

theorem bfsAncLoop_cut [TreeNode N V] (k : Nat) (queue : List (Handle N)) (cs : Bfs.CacheState V)
    (es : List (Event N)) (s' : BfsAncH N V) (h : bfsAncLoop queue cs = .ok (es, s')) :
    untilOpened (k + 1) (sweep queue) = es ++ untilOpened k s'.rem ∧ s'.Started := by
  fun_induction bfsAncLoop queue cs generalizing es with
  | case1 => simp_all
  | case2 => simp_all
  | case3 cs cs1 hs o n ns q =>
    cases h
    simp [BfsAncH.rem, BfsAncH.Started, sweep_open, untilOpened]
  | case4 => simp_all
  | case5 cs cs1 hs o q cs2 hr he =>
    cases h
    have : q = [] := List.isEmpty_iff.1 he
    subst this
    simp [BfsAncH.rem, BfsAncH.Started, sweep_drop, sweep_nil, untilOpened, untilOpened_nil]
  | case6 => simp_all
  | case7 cs cs1 hs o q cs2 hr he es1 s1 hl ih =>
    cases h
    obtain ⟨h1, h2⟩ := ih es1 hl
    exact ⟨by simp [sweep_drop, untilOpened, h1], h2⟩

theorem bfsAncAdvance_cut [TreeNode N V] (s : BfsAncH N V) (es : List (Event N)) (s' : BfsAncH N V) (hi : s.Started)
    (h : bfsAncAdvance s = .ok (es, s')) : Cuts untilOpened BfsAncH.rem 1 s es s' ∧ s'.Started := by
  have hi : s.isRoot = false := hi
  simp only [bfsAncAdvance, hi, Bool.false_eq_true, if_false] at h
  exact ⟨fun j => (bfsAncLoop_cut j _ _ _ _ h).1, (bfsAncLoop_cut 0 _ _ _ _ h).2⟩

theorem bfsAncLoop_erase [SplitNode N V] (queue : List (Handle N)) (cs : Bfs.CacheState V) :
    Bfs.ancLoop (bare queue) cs = (bfsAncLoop queue cs).map fun r => r.2.erase := by
  fun_induction bfsAncLoop queue cs with
  | case1 => rw [Bfs.ancLoop]; simp_all [Except.map]
  | case2 => rw [Bfs.ancLoop]; simp_all [Except.map]
  | case3 => rw [Bfs.ancLoop]; simp_all [Except.map, BfsAncH.erase]
  | case4 => rw [Bfs.ancLoop]; simp_all [Except.map]
  | case5 => rw [Bfs.ancLoop]; simp_all [Except.map, BfsAncH.erase]
  | case6 cs cs1 hs o q cs2 hr he e hl ih =>
    rw [hl] at ih
    rw [Bfs.ancLoop]
    have : (bare q).isEmpty = false := by
      cases q <;> simp_all
    simp only [hs, bare_cons, hr, this, Bool.false_eq_true, if_false]
    exact ih
  | case7 cs cs1 hs o q cs2 hr he es1 s1 hl ih =>
    rw [hl] at ih
    rw [Bfs.ancLoop]
    have : (bare q).isEmpty = false := by
      cases q <;> simp_all
    simp only [hs, bare_cons, hr, this, Bool.false_eq_true, if_false]
    exact ih

theorem bfsAncAdvance_erase [SplitNode N V] (s : BfsAncH N V) :
    Bfs.ancAdvance s.erase = (bfsAncAdvance s).map fun r => r.2.erase := by
  obtain ⟨_ | _, cs, queue⟩ := s
  · exact bfsAncLoop_erase queue cs
  · rfl

/-! ## Breadth first with ancestors, leaves -/

/-- At the start the root must have children: a childless root is handled apart. -/
def BfsAncH.Ready (s : BfsAncH N V) : Prop := s.isRoot = true → ∃ o n ns q, s.queue = ⟨o, n :: ns⟩ :: q

theorem lvLoop_cut [TreeNode N V] (k : Nat) (isRoot : Bool) (queue : List (Handle N)) (cs : Bfs.CacheState V)
    (hi : isRoot = true → ∃ o n ns q, queue = ⟨o, n :: ns⟩ :: q)
    (es : List (Event N)) (s' : BfsAncH N V) (h : lvLoop isRoot queue cs = .ok (es, s')) :
    untilLeafOpened (fun m => (kids m).isEmpty) (k + 1) (sweep queue) =
      es ++ untilLeafOpened (fun m => (kids m).isEmpty) k s'.rem ∧ s'.isRoot = false := by
  fun_induction lvLoop isRoot queue cs generalizing es with
  | case1 isRoot cs =>
    cases h
    refine ⟨by simp [BfsAncH.rem, sweep_nil, untilLeafOpened_nil], ?_⟩
    cases isRoot with
    | false => rfl
    | true =>
      obtain ⟨o, n, ns, q, h⟩ := hi rfl
      cases h
  | case2 => simp_all
  | case3 isRoot cs q cs1 hs o n ns hk =>
    cases h
    rw [sweep_open, untilLeafOpened]
    simp [BfsAncH.rem, hk]
  | case4 => simp_all
  | case5 isRoot cs q cs1 hs o n ns hk es1 s1 hl ih =>
    cases h
    obtain ⟨h1, h2⟩ := ih (by simp) es1 hl
    refine ⟨?_, h2⟩
    rw [sweep_open, untilLeafOpened, h1]
    simp [hk]
  | case6 cs q cs1 hs o =>
    obtain ⟨_, _, _, _, h'⟩ := hi rfl
    cases h'
  | case7 => simp_all
  | case8 => simp_all
  | case9 isRoot cs q cs1 hs o hr cs2 hc es1 s1 hl ih =>
    cases h
    obtain ⟨h1, h2⟩ := ih (fun h => absurd h hr) es1 hl
    exact ⟨by simp [sweep_drop, untilLeafOpened, h1], h2⟩

theorem lvAdvance_cut [TreeNode N V] (s : BfsAncH N V) (es : List (Event N)) (s' : BfsAncH N V) (hi : s.Ready)
    (h : lvAdvance s = .ok (es, s')) :
    Cuts (untilLeafOpened fun m => (kids m).isEmpty) BfsAncH.rem 1 s es s' ∧ s'.Ready := by
  refine ⟨fun j => (lvLoop_cut j _ _ _ hi _ _ h).1, fun h' => ?_⟩
  rw [(lvLoop_cut 0 _ _ _ hi _ _ h).2] at h'
  cases h'

theorem lvLoop_erase [TreeNode N V] (isRoot : Bool) (queue : List (Handle N)) (cs : Bfs.CacheState V) :
    Bfs.lvLoop isRoot (bare queue) cs = (lvLoop isRoot queue cs).map fun r => r.2.erase := by
  fun_induction lvLoop isRoot queue cs with
  | case1 => rw [bare_nil, Bfs.lvLoop]; simp [Except.map, BfsAncH.erase]
  | case2 => rw [bare_cons, Bfs.lvLoop]; simp_all [Except.map]
  | case3 => rw [bare_cons, Bfs.lvLoop]; simp_all [Except.map, BfsAncH.erase]
  | case4 isRoot cs q cs1 hs o n ns hk e hl ih =>
    rw [hl] at ih
    rw [bare_cons, Bfs.lvLoop]
    simp only [hs, hk, Bool.false_eq_true, if_false]
    simpa [Except.map] using ih
  | case5 isRoot cs q cs1 hs o n ns hk es1 s1 hl ih =>
    rw [hl] at ih
    rw [bare_cons, Bfs.lvLoop]
    simp only [hs, hk, Bool.false_eq_true, if_false]
    simpa [Except.map] using ih
  | case6 => rw [bare_cons, Bfs.lvLoop]; simp_all [Except.map, BfsAncH.erase]
  | case7 => rw [bare_cons, Bfs.lvLoop]; simp_all [Except.map]
  | case8 isRoot cs q cs1 hs o hr cs2 hc e hl ih =>
    rw [hl] at ih
    rw [bare_cons, Bfs.lvLoop]
    have hr : isRoot = false := by simpa using hr
    subst hr
    simp only [hs, hc, Bool.false_eq_true, if_false]
    exact ih
  | case9 isRoot cs q cs1 hs o hr cs2 hc es1 s1 hl ih =>
    rw [hl] at ih
    rw [bare_cons, Bfs.lvLoop]
    have hr : isRoot = false := by simpa using hr
    subst hr
    simp only [hs, hc, Bool.false_eq_true, if_false]
    exact ih

theorem lvAdvance_erase [TreeNode N V] (s : BfsAncH N V) :
    Bfs.lvAdvance s.erase = (lvAdvance s).map fun r => r.2.erase := lvLoop_erase ..

/-! ## Breadth first, leaves -/

def BfsLv.rem [TreeNode N V] (s : BfsLv N) : List (Event N) :=
  match s.root with
  | some r => .opened r :: sweep (s.old ++ s.new ++ [handle r])
  | none => sweep (s.old ++ s.new)

theorem BfsLv.balance [TreeNode N V] (s : BfsLv N) : (dropped s.rem).Perm (s.live ++ opened s.rem) := by
  obtain ⟨_ | r, old, new⟩ := s
  · simp [BfsLv.rem, BfsLv.live, sweep_dropped, sweep_opened]
  · simp only [BfsLv.rem, BfsLv.live, dropped, opened, sweep_dropped, sweep_opened, owners_append, owners_cons,
      owner_handle, owners_nil, List.append_assoc, List.cons_append, List.nil_append]
    exact .refl _

theorem bfsLvStep_cut [TreeNode N V] (j : Nat) (s : BfsLv N) :
    untilLeafOpened (fun m => (kids m).isEmpty) (j + 1) s.rem = (bfsLvStep s).1 ++
      untilLeafOpened (fun m => (kids m).isEmpty) (if (bfsLvStep s).2.1.map (·.1) = some true then j + 1 else j)
        (bfsLvStep s).2.2.rem ∧ ((bfsLvStep s).2.1 = none → (bfsLvStep s).2.2.rem = []) := by
  have hopen : ∀ (n : N) (l : List (Event N)), untilLeafOpened (fun m => (kids m).isEmpty) (j + 1) (.opened n :: l) =
      .opened n :: untilLeafOpened (fun m => (kids m).isEmpty) (if (kids n).isEmpty = false then j + 1 else j) l := by
    intro n l
    rw [untilLeafOpened]
    cases (kids n).isEmpty <;> simp
  obtain ⟨root, old, new⟩ := s
  cases root with
  | some r => simp [bfsLvStep, BfsLv.rem, hopen]
  | none =>
    induction old with
    | nil =>
      induction new with
      | nil => simp [bfsLvStep, bfsLvLoop, bfsLvLoopNew, BfsLv.rem, sweep_nil, untilLeafOpened_nil]
      | cons h rest ih =>
        obtain ⟨o, _ | ⟨n, ns⟩⟩ := h
        · refine ⟨?_, ih.2⟩
          have : BfsLv.rem (⟨none, [], ⟨o, []⟩ :: rest⟩ : BfsLv N) = .dropped o :: BfsLv.rem ⟨none, [], rest⟩ := by
            simp [BfsLv.rem, sweep_drop]
          rw [this, untilLeafOpened, ih.1]
          rfl
        · simp [bfsLvStep, bfsLvLoop, bfsLvLoopNew, BfsLv.rem, sweep_open, hopen]
    | cons h rest ih =>
      obtain ⟨o, _ | ⟨n, ns⟩⟩ := h
      · refine ⟨?_, ih.2⟩
        have : BfsLv.rem (⟨none, ⟨o, []⟩ :: rest, new⟩ : BfsLv N) = .dropped o :: BfsLv.rem ⟨none, rest, new⟩ := by
          simp [BfsLv.rem, sweep_drop]
        rw [this, untilLeafOpened, ih.1]
        rfl
      · simp [bfsLvStep, bfsLvLoop, BfsLv.rem, sweep_open, hopen]

theorem bfsLvNext_cut [TreeNode N V] (s : BfsLv N) :
    Cuts (untilLeafOpened fun m => (kids m).isEmpty) BfsLv.rem 1 s (bfsLvNext s).1 (bfsLvNext s).2.2 := by
  intro j
  fun_induction bfsLvNext s with
  | case1 s es s' h =>
    have := bfsLvStep_cut j s
    rw [h] at this
    simpa using this.1
  | case2 s es v s' h ih =>
    have := bfsLvStep_cut j s
    rw [h] at this
    simp only [Option.map_some, if_true] at this
    rw [this.1, ih, List.append_assoc]
  | case3 s es v s' h =>
    have := bfsLvStep_cut j s
    rw [h] at this
    simpa using this.1

theorem bfsLvNext_erase [TreeNode N V] (s : BfsLv N) :
    Bfs.leavesNext s.erase = ((bfsLvNext s).2.1, (bfsLvNext s).2.2.erase) := by
  fun_induction bfsLvNext s with
  | case1 s es s' h =>
    have := bfsLvStep_erase s
    rw [h] at this
    rw [Bfs.leavesNext]
    split <;> simp_all
  | case2 s es v s' h ih =>
    have := bfsLvStep_erase s
    rw [h] at this
    rw [Bfs.leavesNext]
    split <;> simp_all
  | case3 s es v s' h =>
    have := bfsLvStep_erase s
    rw [h] at this
    rw [Bfs.leavesNext]
    split <;> simp_all

/-! ## Depth first, leaves -/

def Lv.rem [TreeNode N V] (s : Lv N V) : List (Event N) :=
  (match s.root with | some r => tour (unfold r) | none => []) ++ walk s.top

/-- `leaves()` was called before the first `next`. -/
def Lv.Fresh (s : Lv N V) : Prop := s.bottom = []

theorem Lv.balance [TreeNode N V] (s : Lv N V) (hs : s.Fresh) : (dropped s.rem).Perm (s.live ++ opened s.rem) := by
  have hs : s.bottom = [] := hs
  have := PreAnc.balance (V := V) ⟨s.root, s.top, []⟩
  simpa [Lv.live, hs, Lv.rem, PreAnc.rem, PreAnc.live] using this

/-- Before the opening of a node and its handle on the stack, for the loop with `just`. -/
theorem dfsLvLoop_cut [TreeNode N V] (k : Nat) (bottom top : List (Handle N)) (items : List V) (just : Bool)
    (hb : bottom = []) :
    (just = true → ∀ o, (untilLeaf (k + 1) (.opened o :: walk top) =
        .opened o :: ((dfsLvLoop bottom top items just).1 ++ untilLeaf k (dfsLvLoop bottom top items just).2.2.rem)) ∨
          top = []) ∧
      (just = false → untilLeaf (k + 1) (walk top) =
        (dfsLvLoop bottom top items just).1 ++ untilLeaf k (dfsLvLoop bottom top items just).2.2.rem) ∧
      (dfsLvLoop bottom top items just).2.2.root = none ∧ (dfsLvLoop bottom top items just).2.2.bottom = [] := by
  fun_induction dfsLvLoop bottom top items just with
  | case1 just bottom o n ns top items r ih =>
    obtain ⟨h1, -, h3, h4⟩ := ih hb
    have h1 := (h1 rfl n).resolve_right (by simp)
    refine ⟨fun _ o' => .inl ?_, fun _ => ?_, h3, h4⟩
    · rw [walk_cons, untilLeaf_opened, h1]
      rfl
    · rw [walk_cons, h1]
      rfl
  | case2 bottom o top items =>
    subst hb
    refine ⟨fun _ o' => .inl ?_, by simp, rfl, rfl⟩
    simp [walk, untilLeaf, Lv.rem]
  | case3 bottom o top items r ih =>
    obtain ⟨-, h2, h3, h4⟩ := ih hb
    refine ⟨by simp, fun _ => ?_, h3, h4⟩
    simp only [walk, List.flatMap_nil, List.nil_append, untilLeaf_dropped, h2 rfl]
    rfl
  | case4 => cases hb
  | case5 => cases hb
  | case6 items just =>
    refine ⟨fun _ _ => .inr rfl, fun _ => ?_, rfl, rfl⟩
    simp [walk, untilLeaf_nil, Lv.rem]

theorem dfsLvNext_cut [TreeNode N V] (s : Lv N V) (hs : s.Fresh) :
    Cuts untilLeaf Lv.rem 1 s (dfsLvNext s).1 (dfsLvNext s).2.2 ∧ (dfsLvNext s).2.2.Fresh := by
  obtain ⟨root, bottom, top, items⟩ := s
  have hs : bottom = [] := hs
  cases root with
  | some r =>
    refine ⟨fun j => ?_, (dfsLvLoop_cut 0 bottom (handle r :: top) (val r :: items) true hs).2.2.2⟩
    have := ((dfsLvLoop_cut j bottom (handle r :: top) (val r :: items) true hs).1 rfl r).resolve_right (by simp)
    simpa [dfsLvNext, Lv.rem, tour_walk] using this
  | none =>
    refine ⟨fun j => ?_, (dfsLvLoop_cut 0 bottom top items false hs).2.2.2⟩
    have := (dfsLvLoop_cut j bottom top items false hs).2.1 rfl
    simpa [dfsLvNext, Lv.rem] using this

theorem dfsLvLoop_erase [TreeNode N V] (bottom top : List (Handle N)) (items : List V) (just : Bool) :
    Leaves.loop (bare bottom) (bare top) items just =
      ((dfsLvLoop bottom top items just).2.1, (dfsLvLoop bottom top items just).2.2.erase) := by
  fun_induction dfsLvLoop bottom top items just with
  | case1 bottom o n ns top items just r ih => rw [bare_cons, Leaves.loop]; exact ih
  | case2 bottom o top items => rw [bare_cons, Leaves.loop]; rfl
  | case3 bottom o top items r ih => rw [bare_cons, Leaves.loop]; exact ih
  | case4 o n ns bottom items just r ih => rw [bare_cons, bare_nil, Leaves.loop]; exact ih
  | case5 o bottom items just r ih => rw [bare_cons, bare_nil, Leaves.loop]; exact ih
  | case6 items just => rw [bare_nil, Leaves.loop]; rfl

theorem dfsLvNext_erase [TreeNode N V] (s : Lv N V) :
    Leaves.next s.erase = ((dfsLvNext s).2.1, (dfsLvNext s).2.2.erase) := by
  obtain ⟨_ | root, bottom, top, items⟩ := s
  · exact dfsLvLoop_erase bottom top items false
  · exact dfsLvLoop_erase bottom (handle root :: top) (val root :: items) true

/-! ## Depth first, leaves with ancestors -/

def LvAnc.rem [TreeNode N V] (s : LvAnc N V) : List (Event N) :=
  (match s.root with | some r => tour (unfold r) | none => []) ++ walk s.new

/-- `leaves()` was called before the first `next`; there is an item for the leaf returned and one for each collection. -/
def LvAnc.Fresh (s : LvAnc N V) : Prop :=
  s.old = [] ∧
    match s.root with
    | some _ => s.new = [] ∧ s.items = []
    | none => s.items.tail.length = s.new.length

theorem LvAnc.balance [TreeNode N V] (s : LvAnc N V) (hs : s.Fresh) : (dropped s.rem).Perm (s.live ++ opened s.rem) := by
  have hs : s.old = [] := hs.1
  have := PreAnc.balance (V := V) ⟨s.root, s.new, []⟩
  simpa [LvAnc.live, hs, LvAnc.rem, PreAnc.rem, PreAnc.live] using this

theorem lvAncLoop_cut [TreeNode N V] (k : Nat) (old new : List (Handle N)) (items : List V) (pushed : Bool)
    (ho : old = []) (hl : items.length = new.length) :
    (pushed = true → ∀ o, (untilLeaf (k + 1) (.opened o :: walk new) =
        .opened o :: ((lvAncLoop old new items pushed).1 ++ untilLeaf k (lvAncLoop old new items pushed).2.rem)) ∨
          new = []) ∧
      (pushed = false → untilLeaf (k + 1) (walk new) =
        (lvAncLoop old new items pushed).1 ++ untilLeaf k (lvAncLoop old new items pushed).2.rem) ∧
      (lvAncLoop old new items pushed).2.root = none ∧ (lvAncLoop old new items pushed).2.Fresh := by
  fun_induction lvAncLoop old new items pushed with
  | case1 old items pushed o n ns new r ih =>
    obtain ⟨h1, -, h3, h4⟩ := ih ho (by simpa using hl)
    have h1 := (h1 rfl n).resolve_right (by simp)
    refine ⟨fun _ o' => .inl ?_, fun _ => ?_, h3, h4⟩
    · rw [walk_cons, untilLeaf_opened, h1]
      rfl
    · rw [walk_cons, h1]
      rfl
  | case2 old items new hn =>
    subst ho
    refine ⟨fun _ o' => ?_, by simp, rfl, rfl, ?_⟩
    · rcases new with _ | ⟨⟨o, _ | ⟨n, ns⟩⟩, new⟩
      · exact .inr rfl
      · left
        simp [walk, untilLeaf, LvAnc.rem, popped]
      · exact absurd rfl (hn o n ns new)
    · simp [hl]
  | case3 => cases ho
  | case4 items pushed new hn hp old ho' hi =>
    subst ho
    refine ⟨fun h => absurd h hp, fun _ => ?_, rfl, rfl, ?_⟩
    · rcases new with _ | ⟨⟨o, _ | ⟨n, ns⟩⟩, new⟩
      · simp [walk, untilLeaf_nil, LvAnc.rem, popped]
      · have : new = [] := by
          have := congrArg List.length hi
          simp only [List.length_tail, List.length_nil, hl, List.length_cons] at this
          exact List.length_eq_zero_iff.1 (by omega)
        subst this
        simp [walk, untilLeaf_dropped, untilLeaf_nil, LvAnc.rem, popped]
      · exact absurd rfl (hn o n ns new)
    · have := congrArg List.length hi
      simp only [List.length_tail, List.length_nil] at this ⊢
      omega
  | case5 items pushed new hn hp old ho' i is hi r ih =>
    subst ho
    have hlen : items.length = is.length + 2 := by
      have := congrArg List.length hi
      simp only [List.length_tail, List.length_cons] at this
      omega
    obtain ⟨-, h2, h3, h4⟩ := ih rfl (by simp only [List.length_cons, List.length_tail]; omega)
    refine ⟨fun h => absurd h hp, fun _ => ?_, h3, h4⟩
    rcases new with _ | ⟨⟨o, _ | ⟨n, ns⟩⟩, new⟩
    · simp only [List.length_nil] at hl
      omega
    · have h2 := h2 rfl
      simp only [List.tail_cons] at h2
      simp only [walk, List.flatMap_nil, List.nil_append, untilLeaf_dropped, h2, popped, List.cons_append]
      rfl
    · exact absurd rfl (hn o n ns new)

theorem lvAncAdvance_cut [TreeNode N V] (s : LvAnc N V) (hs : s.Fresh) :
    Cuts untilLeaf LvAnc.rem 1 s (lvAncAdvance s).1 (lvAncAdvance s).2 ∧ (lvAncAdvance s).2.Fresh := by
  obtain ⟨root, items, old, new⟩ := s
  cases root with
  | some r =>
    obtain ⟨rfl, rfl, rfl⟩ : old = [] ∧ new = [] ∧ items = [] := hs
    refine ⟨fun j => ?_, (lvAncLoop_cut 0 [] [handle r] [val r] true rfl rfl).2.2.2⟩
    have := ((lvAncLoop_cut j [] [handle r] [val r] true rfl rfl).1 rfl r).resolve_right (by simp)
    simpa [lvAncAdvance, LvAnc.rem, tour_walk] using this
  | none =>
    obtain ⟨rfl, hl⟩ : old = [] ∧ items.tail.length = new.length := hs
    refine ⟨fun j => ?_, (lvAncLoop_cut 0 [] new items.tail false rfl hl).2.2.2⟩
    have := (lvAncLoop_cut j [] new items.tail false rfl hl).2.1 rfl
    simpa [lvAncAdvance, LvAnc.rem] using this

theorem lvAncLoop_erase [TreeNode N V] (old new : List (Handle N)) (items : List V) (pushed : Bool) :
    Leaves.ancLoop (bare old) (bare new) items pushed = (lvAncLoop old new items pushed).2.erase := by
  have tail : ∀ l : List (Handle N), (bare l).tail = bare l.tail := by
    rintro (_ | _) <;> rfl
  fun_induction lvAncLoop old new items pushed with
  | case1 old items pushed o n ns new r ih => rw [bare_cons, Leaves.ancLoop]; exact ih
  | case2 old items new hn =>
    rcases new with _ | ⟨⟨o, _ | ⟨n, ns⟩⟩, new⟩
    · rw [Leaves.ancLoop.eq_def]; simp [LvAnc.erase]
    · rw [Leaves.ancLoop.eq_def]; simp [LvAnc.erase]
    · exact absurd rfl (hn o n ns new)
  | case3 items pushed new hn hp o n ns old r ih =>
    have h : Leaves.ancLoop (bare (⟨o, n :: ns⟩ :: old)) (bare new) items pushed =
        Leaves.ancLoop (bare (⟨o, ns⟩ :: old)) (kids n :: (bare new).tail) (val n :: items) true := by
      rw [Leaves.ancLoop.eq_def]
      rcases new with _ | ⟨⟨o, _ | ⟨n, ns⟩⟩, new⟩
      · simp [hp]
      · simp [hp]
      · exact absurd rfl (hn o n ns new)
    rw [h, tail]
    exact ih
  | case4 items pushed new hn hp old ho hi =>
    rw [Leaves.ancLoop.eq_def]
    rcases new with _ | ⟨⟨o, _ | ⟨n, ns⟩⟩, new⟩
    · rcases old with _ | ⟨⟨o, _ | ⟨n, ns⟩⟩, old⟩
      · simp only [bare_nil, hp, LvAnc.erase, List.tail_nil, Bool.false_eq_true, if_false]
        split <;> simp_all
      · simp only [bare_nil, bare_cons, hp, LvAnc.erase, List.tail_cons, List.tail_nil, Bool.false_eq_true, if_false]
        split <;> simp_all
      · exact absurd rfl (ho o n ns old)
    · rcases old with _ | ⟨⟨o, _ | ⟨n, ns⟩⟩, old⟩
      · simp only [bare_nil, bare_cons, hp, LvAnc.erase, List.tail_cons, List.tail_nil, Bool.false_eq_true, if_false]
        split <;> simp_all
      · simp only [bare_cons, hp, LvAnc.erase, List.tail_cons, Bool.false_eq_true, if_false]
        split <;> simp_all
      · exact absurd rfl (ho o n ns old)
    · exact absurd rfl (hn o n ns new)
  | case5 items pushed new hn hp old ho i is hi r ih =>
    have h : Leaves.ancLoop (bare old) (bare new) items pushed =
        Leaves.ancLoop (bare old).tail (bare new).tail (i :: is) false := by
      rw [Leaves.ancLoop.eq_def]
      rcases new with _ | ⟨⟨o, _ | ⟨n, ns⟩⟩, new⟩
      · rcases old with _ | ⟨⟨o, _ | ⟨n, ns⟩⟩, old⟩
        · simp only [bare_nil, hp, List.tail_nil, Bool.false_eq_true, if_false]
          split <;> simp_all
        · simp only [bare_nil, bare_cons, hp, List.tail_cons, List.tail_nil, Bool.false_eq_true, if_false]
          split <;> simp_all
        · exact absurd rfl (ho o n ns old)
      · rcases old with _ | ⟨⟨o, _ | ⟨n, ns⟩⟩, old⟩
        · simp only [bare_nil, bare_cons, hp, List.tail_cons, List.tail_nil, Bool.false_eq_true, if_false]
          split <;> simp_all
        · simp only [bare_cons, hp, List.tail_cons, Bool.false_eq_true, if_false]
          split <;> simp_all
        · exact absurd rfl (ho o n ns old)
      · exact absurd rfl (hn o n ns new)
    rw [h, tail, tail]
    exact ih

theorem lvAncAdvance_erase [TreeNode N V] (s : LvAnc N V) :
    Leaves.ancNext s.erase = ((streamed lvAncAdvance LvAnc.erase Leaves.ancGet s).2.1,
      (streamed lvAncAdvance LvAnc.erase Leaves.ancGet s).2.2.erase) := by
  have key : Leaves.ancAdvance s.erase = (lvAncAdvance s).2.erase := by
    obtain ⟨_ | root, items, old, new⟩ := s
    · exact lvAncLoop_erase old new items.tail false
    · exact lvAncLoop_erase old (handle root :: new) (val root :: items) true
  simp only [Leaves.ancNext, streamNext, streamed, key]

end Handles

end TreeIter
