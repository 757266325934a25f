import Verif.Lemmas.Fail

/-! # Lemmas about panics of the user's code: breadth-first ancestors, leaves and in-order -/

universe u v w

namespace TreeIter

namespace Fail

variable {N : Type u} {V : Type v}

/-! ## Breadth-first ancestors -/

/-- The trees of replies still to come. -/
def pendF [TreeNode N V] (bad : N → Bool) : List (List V) → List (List N) → List (Tree (Option (List V)))
  | p :: ps, ns :: q => ns.map (repA bad p.reverse) ++ pendF bad ps q
  | _, _ => []

theorem pendF_append [TreeNode N V] (bad : N → Bool) (ps : List (List V)) (q : List (List N)) (p : List V) (ns : List N)
    (h : ps.length = q.length) :
    pendF bad (ps ++ [p]) (q ++ [ns]) = pendF bad ps q ++ ns.map (repA bad p.reverse) := by
  induction ps generalizing q with
  | nil =>
    cases q with
    | nil => simp [pendF]
    | cons a q => simp at h
  | cons a ps ih =>
    cases q with
    | nil => simp at h
    | cons b q => simp [pendF, ih q (by simpa using h)]

/-- Between two calls, after the root was handed out. -/
def Run [TreeNode N V] (bad : N → Bool) (cs : Bfs.CacheState V) (queue : List (List N))
    (ts : List (Tree (Option (List V)))) : Prop :=
  ∃ z : Bfs.Zip V, Bfs.settle cs = .ok z.enc ∧ queue.length = (z.cur :: z.others).length ∧
    Bfs.Levels (z.cur :: z.others) ∧ ts = pendF bad (z.cur :: z.others) queue

theorem bfsAncLoop_spec [TreeNode N V] (bad : N → Bool) (queue : List (List N)) (cs : Bfs.CacheState V)
    (ts : List (Tree (Option (List V)))) (h : Run bad cs queue ts) :
    ∃ b s', bfsAncLoop bad queue cs = .ok (b, s') ∧ s'.isRoot = false ∧
      (ts = [] → b = false ∧ s'.cs.items = []) ∧
      ∀ o us rest, ts = .node o us :: rest →
        (if b then o = none else o = Bfs.ancGet s') ∧ (b = false → o ≠ none) ∧ Run bad s'.cs s'.queue (rest ++ us) := by
  induction queue generalizing cs with
  | nil =>
    obtain ⟨z, _, h2, _⟩ := h
    simp at h2
  | cons it q ih =>
    obtain ⟨z, h1, h2, h3, h4⟩ := h
    cases it with
    | cons n ns =>
      by_cases hb : bad n
      · refine ⟨true, ⟨false, z.enc, ns :: q⟩, ?_, rfl, ?_, ?_⟩
        · rw [bfsAncLoop, h1]
          simp [hb]
        · intro h
          simp [h4, pendF] at h
        · intro o us rest h
          rw [h4, pendF, List.map_cons, repA_eq, if_pos hb, List.cons_append] at h
          obtain ⟨⟨rfl, rfl⟩, rfl⟩ : (_ ∧ _) ∧ _ := by simpa only [List.cons.injEq, Tree.node.injEq] using h
          refine ⟨by simp, by simp, z, Bfs.settle_enc z, by simpa using h2, h3, ?_⟩
          simp [pendF]
      · refine ⟨false, ⟨false, { z.enc with items := val n :: z.enc.items }, (ns :: q) ++ [kids n]⟩, ?_, rfl, ?_, ?_⟩
        · rw [bfsAncLoop, h1]
          simp [hb]
        · intro h
          simp [h4, pendF] at h
        · intro o us rest h
          rw [h4, pendF, List.map_cons, repA_eq, if_neg hb, List.cons_append] at h
          obtain ⟨⟨rfl, rfl⟩, rfl⟩ : (_ ∧ _) ∧ _ := by simpa only [List.cons.injEq, Tree.node.injEq] using h
          refine ⟨by simp [Bfs.ancGet, Bfs.Zip.items_enc], by simp, z.push (val n), Bfs.settle_push z (val n), ?_, ?_, ?_⟩
          · simp only [Bfs.Zip.cur_push, Bfs.Zip.others_push, List.length_append, List.length_cons,
              List.length_nil] at h2 ⊢
            omega
          · rw [Bfs.Zip.cur_push, Bfs.Zip.others_push]
            exact h3.push _
          · rw [Bfs.Zip.cur_push, Bfs.Zip.others_push, ← List.cons_append,
              pendF_append _ _ _ _ _ (by simpa using h2.symm)]
            simp [pendF]
    | nil =>
      obtain ⟨r1, r2⟩ := Bfs.retire_spec z h3.le
      by_cases hq : q = []
      · have ho : z.others = [] := by simpa [hq] using h2.symm
        obtain ⟨s, hs⟩ := r1 ho
        refine ⟨false, ⟨false, { s with items := [] }, []⟩, ?_, rfl, fun _ => ⟨rfl, rfl⟩, ?_⟩
        · rw [bfsAncLoop, h1]
          simp [hs, hq]
        · intro o us rest h
          rw [h4, ho, hq] at h
          simp [pendF] at h
      · obtain ⟨z', e1, e2⟩ := r2 (by
          intro h'
          simp [h', hq] at h2)
        have e3 : bfsAncLoop bad ([] :: q) cs = bfsAncLoop bad q z'.enc := by
          rw [bfsAncLoop, h1]
          simp [e1, hq]
        rw [e3]
        refine ih z'.enc ⟨z', Bfs.settle_enc z', ?_, ?_, ?_⟩
        · rw [e2]; simpa using h2
        · rw [e2]; exact h3.tail
        · rw [e2, h4]; simp [pendF]

/-- States and the replies they have yet to give. -/
def BfsAncRel [TreeNode N V] (bad : N → Bool) (s : Bfs.AncState N V) (l : List (Option (List V))) : Prop :=
  match s.isRoot with
  | true => ∃ v q, s.cs = (Bfs.Zip.root v []).enc ∧ s.queue = [q] ∧ l = some [v] :: bfsF (q.map (repA bad [v]))
  | false => ∃ ts, Run bad s.cs s.queue ts ∧ l = bfsF ts

theorem bfsAncNext_spec [TreeNode N V] (bad : N → Bool) (s : Bfs.AncState N V) (l : List (Option (List V)))
    (h : BfsAncRel bad s l) : ∃ s', bfsAncNext bad s = .ok (l.head?, s') ∧ (l ≠ [] → BfsAncRel bad s' l.tail) := by
  obtain ⟨isRoot, cs, queue⟩ := s
  cases isRoot with
  | true =>
    obtain ⟨v, q, h1, h2, h3⟩ := h
    simp only at h1 h2
    subst h1 h2 h3
    refine ⟨⟨false, (Bfs.Zip.root v []).enc, [q]⟩, ?_, fun _ => ⟨_, ?_, rfl⟩⟩
    · simp [bfsAncNext, streamNextE, bfsAncAdvance, Bfs.ancGet, Bfs.Zip.items_enc, Bfs.Zip.cur]
    · exact ⟨.root v [], Bfs.settle_enc _, rfl, ⟨by simp [Bfs.Zip.cur, Bfs.Zip.others], by simp [Bfs.Zip.others]⟩,
        by simp [Bfs.Zip.cur, Bfs.Zip.others, pendF]⟩
  | false =>
    obtain ⟨ts, h, rfl⟩ := h
    obtain ⟨b, s', e1, e2, e3, e4⟩ := bfsAncLoop_spec bad queue cs ts h
    cases ts with
    | nil =>
      obtain ⟨rfl, e5⟩ := e3 rfl
      exact ⟨s', by simp [bfsAncNext, streamNextE, bfsAncAdvance, e1, Bfs.ancGet, e5], by simp⟩
    | cons t ts =>
      obtain ⟨o, us⟩ := t
      obtain ⟨f1, f2, f3⟩ := e4 o us ts rfl
      refine ⟨s', ?_, fun _ => ?_⟩
      · cases b with
        | true =>
          simp only [if_true] at f1
          simp [bfsAncNext, streamNextE, bfsAncAdvance, e1, bfsF_cons, f1]
        | false =>
          simp only [Bool.false_eq_true, if_false] at f1
          have f2' := f2 rfl
          rw [f1] at f2'
          obtain ⟨x, hx⟩ := Option.ne_none_iff_exists'.1 f2'
          simp [bfsAncNext, streamNextE, bfsAncAdvance, e1, bfsF_cons, f1, hx]
      · rw [BfsAncRel, e2]
        exact ⟨_, f3, by rw [bfsF_cons, List.tail_cons]⟩

/-! ## Depth-first leaves -/

/-- Replies still to come from the stack. -/
def lvTop [TreeNode N V] (bad : N → Bool) (st : List (List N)) : List (Option V) :=
  st.flatMap fun ns => ns.flatMap fun n => (repT bad n).leaves

/-- Replies still to come from the stack taken over by `leaves()`: a node of it is not taken for a leaf itself. -/
def lvBot [TreeNode N V] (bad : N → Bool) (st : List (List N)) : List (Option V) :=
  st.flatMap fun ns => ns.flatMap fun n =>
    if bad n then [none] else (kids n).flatMap fun c => (repT bad c).leaves

theorem leaves_repT [TreeNode N V] (bad : N → Bool) (n : N) :
    (repT bad n).leaves =
      if bad n then [none]
      else if kids n = [] then [some (val n)] else (kids n).flatMap fun c => (repT bad c).leaves := by
  rw [repT_eq]
  split
  · simp [Tree.leaves]
  · rw [Tree.leaves_node, List.flatMap_map]
    simp

/-- Replies still to come inside the loop. -/
def lvLoopRem [TreeNode N V] (bad : N → Bool) (top : List (List N)) (items : List V) : Bool → List (Option V)
  | false => lvTop bad top
  | true =>
    match top with
    | [] :: top => (items.head?.map some).toList ++ lvTop bad top
    | top => lvTop bad top

/-- Replies still to come. -/
def lvRem [TreeNode N V] (bad : N → Bool) (s : Leaves.State N V) : List (Option V) :=
  (match s.root with | some r => (repT bad r).leaves | none => []) ++ lvTop bad s.top ++ lvBot bad s.bottom

/-- Reachable states. -/
def LvInv (s : Leaves.State N V) : Prop :=
  s.top.length ≤ s.items.length ∧ (s.root ≠ none → s.top = [])

theorem leavesLoop_spec [TreeNode N V] (bad : N → Bool) (bottom top : List (List N)) (items : List V) (just : Bool)
    (h : top.length ≤ items.length) (hj : just = true → top ≠ []) :
    (leavesLoop bad bottom top items just).1 = (lvLoopRem bad top items just ++ lvBot bad bottom).head? ∧
      lvRem bad (leavesLoop bad bottom top items just).2 = (lvLoopRem bad top items just ++ lvBot bad bottom).tail ∧
      LvInv (leavesLoop bad bottom top items just).2 := by
  fun_induction leavesLoop bad bottom top items just with
  | case1 just bottom n ns top items hb =>
    have e : lvLoopRem bad ((n :: ns) :: top) items just = none :: lvTop bad (ns :: top) := by
      cases just <;> simp [lvLoopRem, lvTop, leaves_repT bad n, hb]
    rw [e]
    exact ⟨rfl, by simp [lvRem], by simpa using h, by simp⟩
  | case2 just bottom n ns top items hb ih =>
    have e : lvLoopRem bad ((n :: ns) :: top) items just =
        lvLoopRem bad (kids n :: ns :: top) (val n :: items) true := by
      have := leaves_repT bad n
      cases hk : kids n <;> cases just <;> simp_all [lvLoopRem, lvTop]
    rw [e]
    exact ih (by simpa using h) (by simp)
  | case3 bottom top items =>
    cases items with
    | nil => simp at h
    | cons v items => simp_all [lvLoopRem, lvRem, LvInv]
  | case4 bottom top items ih =>
    have := ih (by simp only [List.length_cons, List.length_tail] at h ⊢; omega) (by simp)
    simpa [lvLoopRem, lvTop] using this
  | case5 n ns bottom items just hb =>
    cases just with
    | true => exact absurd rfl (hj rfl)
    | false => simp [lvLoopRem, lvTop, lvBot, lvRem, LvInv, hb]
  | case6 n ns bottom items just hb ih =>
    cases just with
    | true => exact absurd rfl (hj rfl)
    | false =>
      have := ih (by simp) (by simp)
      have e : lvLoopRem bad ([] : List (List N)) items false ++ lvBot bad ((n :: ns) :: bottom) =
          lvLoopRem bad [kids n] (val n :: items) false ++ lvBot bad (ns :: bottom) := by
        simp [lvLoopRem, lvTop, lvBot, hb]
      rw [e]
      exact this
  | case7 just bottom items ih =>
    have := ih h hj
    simpa [lvBot] using this
  | case8 just items =>
    cases just with
    | true => exact absurd rfl (hj rfl)
    | false => simp [lvLoopRem, lvTop, lvRem, lvBot, LvInv]

theorem leavesNext_spec [TreeNode N V] (bad : N → Bool) (s : Leaves.State N V) (h : LvInv s) :
    (leavesNext bad s).1 = (lvRem bad s).head? ∧ lvRem bad (leavesNext bad s).2 = (lvRem bad s).tail ∧
      LvInv (leavesNext bad s).2 := by
  obtain ⟨root, bottom, top, items⟩ := s
  obtain ⟨h2, h3⟩ := h
  simp only at h2 h3
  cases root with
  | some r =>
    obtain rfl := h3 (by simp)
    by_cases hb : bad r
    · simp [leavesNext, lvRem, lvTop, leaves_repT bad r, hb, LvInv]
    · have := leavesLoop_spec bad bottom [kids r] (val r :: items) true (by simp) (by simp)
      have e : lvLoopRem bad [kids r] (val r :: items) true ++ lvBot bad bottom =
          lvRem bad ⟨some r, bottom, [], items⟩ := by
        have := leaves_repT bad r
        cases hk : kids r <;> simp_all [lvLoopRem, lvTop, lvRem]
      rw [e] at this
      simpa [leavesNext, hb] using this
  | none =>
    have := leavesLoop_spec bad bottom top items false h2 (by simp)
    simpa [leavesNext, lvRem, lvLoopRem] using this

/-! ## Breadth-first leaves -/

/-- The marked replies still to come. -/
def markF [TreeNode N V] (bad : N → Bool) (s : Bfs.LeavesState N) : List (Bool × Option V) :=
  bfsF ((s.root.toList ++ s.old.flatten ++ s.new.flatten).map fun n => (repT bad n).markLeaves)

theorem bfsF_markF [TreeNode N V] (bad : N → Bool) (n : N) (ns : List N) :
    bfsF ((n :: ns).map fun n => (repT bad n).markLeaves) =
      if bad n then (true, none) :: bfsF (ns.map fun n => (repT bad n).markLeaves)
      else ((kids n).isEmpty, some (val n)) :: bfsF ((ns ++ kids n).map fun n => (repT bad n).markLeaves) := by
  rw [List.map_cons, repT_eq]
  split
  · simp [Tree.markLeaves_node, bfsF_cons]
  · rw [Tree.markLeaves_node, bfsF_cons, List.map_append, List.map_map]
    simp [Function.comp_def]

/-- What a step answers, seen from the specification. -/
def stepOf (x : Bool × Option V) : Option (Bool × V) := x.2.map fun v => (!x.1, v)

theorem bfsLeavesStep_spec [TreeNode N V] (bad : N → Bool) (s : Bfs.LeavesState N) :
    (bfsLeavesStep bad s).1 = (markF bad s).head?.map stepOf ∧
      markF bad (bfsLeavesStep bad s).2 = (markF bad s).tail := by
  obtain ⟨root, old, new⟩ := s
  cases root with
  | some r => by_cases hb : bad r <;> simp [bfsLeavesStep, markF, -List.map_cons, bfsF_markF, hb, stepOf]
  | none =>
    simp only [bfsLeavesStep]
    induction old with
    | nil =>
      simp only [bfsLeavesLoop]
      induction new with
      | nil => simp [bfsLeavesLoopNew, markF]
      | cons ns rest ih =>
        cases ns with
        | nil => simpa [bfsLeavesLoopNew, markF] using ih
        | cons n ns => by_cases hb : bad n <;> simp [bfsLeavesLoopNew, markF, -List.map_cons, bfsF_markF, hb, stepOf]
    | cons ns rest ih =>
      cases ns with
      | nil => simpa [bfsLeavesLoop, markF] using ih
      | cons n ns => by_cases hb : bad n <;> simp [bfsLeavesLoop, markF, -List.map_cons, bfsF_markF, hb, stepOf]

/-- A marked reply that is a panic belongs to a childless node. -/
theorem markF_none [TreeNode N V] (bad : N → Bool) (s : Bfs.LeavesState N) (x : Bool × Option V) (l : List (Bool × Option V))
    (h : markF bad s = x :: l) (hx : x.2 = none) : x.1 = true := by
  have key : ∀ ns : List N, bfsF (ns.map fun n => (repT bad n).markLeaves) = x :: l → x.1 = true := by
    intro ns hns
    cases ns with
    | nil => simp at hns
    | cons n ns =>
      rw [bfsF_markF] at hns
      split at hns
      · cases hns; rfl
      · cases hns; simp at hx
  exact key _ h

/-- Replies still to come. -/
def bfsLvRem [TreeNode N V] (bad : N → Bool) (s : Bfs.LeavesState N) : List (Option V) :=
  Tree.onlyLeaves (markF bad s)

theorem bfsLeavesNext_spec [TreeNode N V] (bad : N → Bool) (s : Bfs.LeavesState N) :
    (bfsLeavesNext bad s).1 = (bfsLvRem bad s).head? ∧
      bfsLvRem bad (bfsLeavesNext bad s).2 = (bfsLvRem bad s).tail := by
  have split : ∀ s s' : Bfs.LeavesState N, ∀ x, bfsLeavesStep bad s = (some x, s') →
      ∃ y l, markF bad s = y :: l ∧ x = stepOf y ∧ markF bad s' = l := by
    intro s s' x h
    obtain ⟨h1, h2⟩ := bfsLeavesStep_spec bad s
    rw [h] at h1 h2
    cases hm : markF bad s with
    | nil => simp [hm] at h1
    | cons y l =>
      rw [hm] at h1 h2
      exact ⟨y, l, rfl, by simpa using h1, h2⟩
  fun_induction bfsLeavesNext bad s with
  | case1 s s' h =>
    obtain ⟨h1, h2⟩ := bfsLeavesStep_spec bad s
    rw [h] at h1 h2
    have h3 : markF bad s = [] := by simpa using h1.symm
    have h4 : markF bad s' = [] := by simpa [h3] using h2
    simp [bfsLvRem, h3, h4, Tree.onlyLeaves]
  | case2 s s' h =>
    obtain ⟨⟨b, w⟩, l, e1, e2, e3⟩ := split s s' _ h
    have hw : w = none := by
      cases w with
      | none => rfl
      | some w => simp [stepOf] at e2
    have hb := markF_none bad s _ _ e1 hw
    simp only at hb
    simp [bfsLvRem, e1, e3, hw, hb, Tree.onlyLeaves]
  | case3 s v s' h ih =>
    obtain ⟨⟨b, w⟩, l, e1, e2, e3⟩ := split s s' _ h
    have hb : b = false := by
      cases w with
      | none => simp [stepOf] at e2
      | some w => simpa [stepOf] using congrArg (Option.map Prod.fst) e2
    have : bfsLvRem bad s = bfsLvRem bad s' := by simp [bfsLvRem, e1, e3, hb, Tree.onlyLeaves]
    rw [this]
    exact ih
  | case4 s v s' h =>
    obtain ⟨⟨b, w⟩, l, e1, e2, e3⟩ := split s s' _ h
    have hb : b = true ∧ w = some v := by
      cases w with
      | none => simp [stepOf] at e2
      | some w =>
        simp only [stepOf, Option.map_some, Option.some.injEq, Prod.mk.injEq] at e2
        exact ⟨by simpa using e2.1, by rw [e2.2]⟩
    simp [bfsLvRem, e1, e3, hb.1, hb.2, Tree.onlyLeaves]

/-! ## In-order, plain -/

/-- Replies of the subtree in a slot. -/
def inF [BinNode N V] (bad : N → Bool) : Option N → List (Option V)
  | none => []
  | some n => ((unfold2 n).crop bad).inorder.map (replyAt bad val2)

theorem inF_some [BinNode N V] (bad : N → Bool) (n : N) :
    inF bad (some n) =
      if bad n then [none] else inF bad (split2 n).2.1 ++ some (val2 n) :: inF bad (split2 n).2.2 := by
  rw [inF, unfold2_eq, BinTree.crop]
  split
  · rename_i h
    simp [BinTree.inorder, BinTree.inorderO, replyAt, h]
  · rename_i h
    cases (split2 n).2.1 <;> cases (split2 n).2.2 <;>
      simp [BinTree.inorder, BinTree.inorderO, BinTree.cropO, replyAt, h, inF]

/-- Replies still to come when each right entry belongs to a pending item. -/
def inRemZ [BinNode N V] (bad : N → Bool) : List (Option N) → List V → List (Option V)
  | r :: rs, a :: items => some a :: (inF bad r ++ inRemZ bad rs items)
  | _, _ => []

/-- Replies still to come. -/
def inRem [BinNode N V] (bad : N → Bool) (s : Inorder.State N V) : List (Option V) :=
  if s.right.length = s.items.length then inRemZ bad s.right s.items
  else
    match s.right with
    | [] => []
    | r :: rs => inF bad r ++ inRemZ bad rs s.items

/-- Reachable states: one more right entry than items, or, after a panic and at the end, as many. -/
def InInv (s : Inorder.State N V) : Prop :=
  s.right.length = s.items.length + 1 ∨ s.right.length = s.items.length

theorem inDescend_spec [BinNode N V] (bad : N → Bool) (cur : Option N) (right : List (Option N)) (items : List V)
    (h : right.length = items.length) :
    (if (inDescend bad cur right items).1 then
        inF bad cur ++ inRemZ bad right items =
          none :: inRemZ bad (inDescend bad cur right items).2.1 (inDescend bad cur right items).2.2
      else inF bad cur ++ inRemZ bad right items =
          inRemZ bad (inDescend bad cur right items).2.1 (inDescend bad cur right items).2.2) ∧
      (inDescend bad cur right items).2.1.length = (inDescend bad cur right items).2.2.length := by
  fun_induction inDescend bad cur right items with
  | case1 right items => exact ⟨by simp [inF], h⟩
  | case2 right items n hb => exact ⟨by simp [inF_some, hb], h⟩
  | case3 n right items hb ih =>
    obtain ⟨h1, h2⟩ := ih (by simpa using h)
    refine ⟨?_, h2⟩
    have e : inF bad (some n) ++ inRemZ bad right items =
        inF bad (split2 n).2.1 ++ inRemZ bad ((split2 n).2.2 :: right) (val2 n :: items) := by
      rw [inF_some, inRemZ]
      simp [hb]
    rw [e]
    exact h1

theorem inRemZ_finish [BinNode N V] (bad : N → Bool) (right : List (Option N)) (items : List V) (m : Bool)
    (h : right.length = items.length) :
    items.head?.map some = (inRemZ bad right items).head? ∧
      inRem bad ⟨right, items.tail, m⟩ = (inRemZ bad right items).tail ∧
      InInv (N := N) ⟨right, items.tail, m⟩ := by
  cases items with
  | nil =>
    obtain rfl : right = [] := by simpa using h
    simp [inRemZ, inRem, InInv]
  | cons a items =>
    cases right with
    | nil => simp at h
    | cons r rs =>
      have : rs.length = items.length := by simpa using h
      simp [inRemZ, inRem, InInv, this]

theorem inNext_spec [BinNode N V] (bad : N → Bool) (s : Inorder.State N V) (h : InInv s) :
    (inNext bad s).1 = (inRem bad s).head? ∧ inRem bad (inNext bad s).2 = (inRem bad s).tail ∧
      InInv (inNext bad s).2 := by
  obtain ⟨right, items, moved⟩ := s
  have key : ∀ (cur : Option N) (rs : List (Option N)), rs.length = items.length →
      Inorder.find items right = (.cur cur, rs) →
      inRem bad ⟨right, items, moved⟩ = inF bad cur ++ inRemZ bad rs items →
      (inNext bad ⟨right, items, moved⟩).1 = (inRem bad ⟨right, items, moved⟩).head? ∧
        inRem bad (inNext bad ⟨right, items, moved⟩).2 = (inRem bad ⟨right, items, moved⟩).tail ∧
        InInv (inNext bad ⟨right, items, moved⟩).2 := by
    intro cur rs h' hf hr
    obtain ⟨k1, k2⟩ := inDescend_spec bad cur rs items h'
    rw [hr]
    unfold inNext
    simp only [hf]
    rcases hd : inDescend bad cur rs items with ⟨b, r', i'⟩
    rw [hd] at k1 k2
    simp only at k1 k2
    cases b with
    | true =>
      simp only [if_true] at k1
      rw [k1]
      exact ⟨rfl, by simp [inRem, k2], .inr k2⟩
    | false =>
      simp only [Bool.false_eq_true, if_false] at k1
      rw [k1]
      exact inRemZ_finish bad r' i' true k2
  have ret : right.length = items.length → Inorder.find items right = (.ret, right) := by
    intro h
    cases right with
    | nil => simp only [List.length_nil] at h; simp [Inorder.find, h.symm]
    | cons r rs =>
      simp only [List.length_cons] at h
      simp [Inorder.find, h]
  rcases h with h | h
  · simp only at h
    cases right with
    | nil => simp at h
    | cons r rs =>
      have h' : rs.length = items.length := by simpa using h
      have hne : ¬ ((r :: rs).length = items.length) := by omega
      have e0 : inRem bad ⟨r :: rs, items, moved⟩ = inF bad r ++ inRemZ bad rs items := by
        rw [inRem, if_neg hne]
      cases r with
      | some n =>
        refine key (some n) rs h' ?_ e0
        rw [Inorder.find, if_neg hne]
        split
        · rfl
        · rfl
      | none =>
        by_cases hrs : rs.isEmpty = true
        · refine key none rs h' ?_ e0
          rw [Inorder.find, if_neg hne, if_pos hrs]
        · cases rs with
          | nil => simp at hrs
          | cons r' rs' =>
            have hf : Inorder.find items (none :: r' :: rs') = (.ret, r' :: rs') := by
              simp only [List.length_cons] at h' hne
              simp [Inorder.find, h']
            have := inRemZ_finish bad (r' :: rs') items true h'
            rw [e0]
            simpa [inNext, hf, inF] using this
  · simp only at h
    have := inRemZ_finish bad right items true h
    have e0 : inRem bad ⟨right, items, moved⟩ = inRemZ bad right items := by rw [inRem, if_pos h]
    rw [e0]
    simpa [inNext, ret h] using this

end Fail

end TreeIter
