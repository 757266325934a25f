import Verif.Lemmas.FailTrees

/-! # Lemmas about panics of the user's code: breadth-first leaves with ancestors, in-order streams -/

universe u v w

namespace TreeIter

namespace Fail

variable {N : Type u} {V : Type v}

/-! ## Breadth-first leaves with ancestors -/

theorem bfsLeavesAncLoop_spec [TreeNode N V] (bad : N → Bool) (m : Nat) (queue : List (List N)) (cs : Bfs.CacheState V)
    (hm : 2 * stackNodes queue + queue.length ≤ m) (ts : List (Tree (Option (List V))))
    (h : Run bad cs queue ts ∨ (queue = [] ∧ ts = [])) :
    ∃ b s' ts', bfsLeavesAncLoop bad false queue cs = .ok (b, s') ∧
      (if b then some none else (Bfs.ancGet s').map some) = (Bfs.lvRem ts).head? ∧
      Bfs.lvRem ts' = (Bfs.lvRem ts).tail ∧ s'.isRoot = false ∧
      (Run bad s'.cs s'.queue ts' ∨ (s'.queue = [] ∧ ts' = [])) := by
  have done : ∀ (cs : Bfs.CacheState V) (ts : List (Tree (Option (List V)))), ts = [] →
      ∃ b s' ts', bfsLeavesAncLoop bad false ([] : List (List N)) cs = .ok (b, s') ∧
        (if b then some none else (Bfs.ancGet s').map some) = (Bfs.lvRem ts).head? ∧
        Bfs.lvRem ts' = (Bfs.lvRem ts).tail ∧ s'.isRoot = false ∧
        (Run bad s'.cs s'.queue ts' ∨ (s'.queue = [] ∧ ts' = [])) := by
    rintro cs ts rfl
    exact ⟨false, ⟨false, { cs with items := [] }, []⟩, [], by rw [bfsLeavesAncLoop],
      by simp [Bfs.ancGet, Bfs.lvRem, Tree.onlyLeaves], by simp [Bfs.lvRem, Tree.onlyLeaves], rfl, .inr ⟨rfl, rfl⟩⟩
  induction m generalizing queue cs ts with
  | zero =>
    obtain rfl : queue = [] := List.length_eq_zero_iff.1 (by omega)
    rcases h with ⟨z, _, h2, _⟩ | ⟨_, h⟩
    · simp at h2
    · exact done cs ts h
  | succ m ih =>
    rcases h with ⟨z, h1, h2, h3, h4⟩ | ⟨rfl, h⟩
    · cases queue with
      | nil => simp at h2
      | cons it q =>
        cases it with
        | cons n ns =>
          by_cases hb : bad n
          · rw [pendF, List.map_cons, repA_eq, if_pos hb, List.cons_append] at h4
            refine ⟨true, ⟨false, z.enc, ns :: q⟩, pendF bad (z.cur :: z.others) (ns :: q), ?_, ?_, ?_, rfl,
              .inl ⟨z, Bfs.settle_enc z, by simpa using h2, h3, rfl⟩⟩
            · rw [bfsLeavesAncLoop, h1]
              simp [hb]
            · simp [h4, Bfs.lvRem_cons]
            · rw [h4, Bfs.lvRem_cons]
              simp [pendF]
          · rw [pendF, List.map_cons, repA_eq, if_neg hb, List.cons_append] at h4
            have e2 : Run bad { z.enc with items := val n :: z.enc.items } ((ns :: q) ++ [kids n])
                ((ns.map (repA bad z.cur.reverse) ++ pendF bad z.others q) ++
                  (kids n).map (repA bad (z.cur.reverse ++ [val n]))) := by
              refine ⟨z.push (val n), Bfs.settle_push z (val n), ?_, ?_, ?_⟩
              · simp only [Bfs.Zip.cur_push, Bfs.Zip.others_push, List.length_append, List.length_cons,
                  List.length_nil] at h2 ⊢
                omega
              · rw [Bfs.Zip.cur_push, Bfs.Zip.others_push]
                exact h3.push _
              · rw [Bfs.Zip.cur_push, Bfs.Zip.others_push, ← List.cons_append,
                  pendF_append _ _ _ _ _ (by simpa using h2.symm)]
                simp [pendF]
            by_cases hk : (kids n).isEmpty
            · refine ⟨false, ⟨false, { z.enc with items := val n :: z.enc.items }, (ns :: q) ++ [kids n]⟩, _, ?_, ?_, ?_, rfl,
                .inl e2⟩
              · rw [bfsLeavesAncLoop, h1]
                simp [hb, hk]
              · simp [h4, Bfs.lvRem_cons, hk, Bfs.ancGet, Bfs.Zip.items_enc]
              · rw [h4, Bfs.lvRem_cons]
                simp [hk]
            · have e3 : bfsLeavesAncLoop bad false ((n :: ns) :: q) cs =
                  bfsLeavesAncLoop bad false ((ns :: q) ++ [kids n]) { z.enc with items := val n :: z.enc.items } := by
                rw [bfsLeavesAncLoop, h1]
                simp [hb, hk]
              have e4 : Bfs.lvRem ts = Bfs.lvRem ((ns.map (repA bad z.cur.reverse) ++ pendF bad z.others q) ++
                  (kids n).map (repA bad (z.cur.reverse ++ [val n]))) := by
                rw [h4, Bfs.lvRem_cons]
                simp [hk]
              rw [e3, e4]
              refine ih _ _ ?_ _ (.inl e2)
              have := Bfs.stackNodes_push n ns q
              simp only [List.length_append, List.length_cons, List.length_nil] at hm ⊢
              omega
        | nil =>
          obtain ⟨r1, r2⟩ := Bfs.retire_spec z h3.le
          have hm' : 2 * stackNodes q + q.length ≤ m := by
            simp only [stackNodes, List.map_cons, List.sum_cons, List.map_nil, List.sum_nil, List.length_cons] at hm ⊢
            omega
          by_cases hq : q = []
          · have ho : z.others = [] := by simpa [hq] using h2.symm
            obtain ⟨s, hs⟩ := r1 ho
            have e3 : bfsLeavesAncLoop bad false ([] :: q) cs = bfsLeavesAncLoop bad false q s := by
              rw [bfsLeavesAncLoop, h1]
              simp [hs]
            rw [e3]
            refine ih q s hm' ts (.inr ⟨hq, ?_⟩)
            rw [h4, ho, hq]
            simp [pendF]
          · obtain ⟨z', e1, e2⟩ := r2 (by
              intro h'
              simp [h', hq] at h2)
            have e3 : bfsLeavesAncLoop bad false ([] :: q) cs = bfsLeavesAncLoop bad false q z'.enc := by
              rw [bfsLeavesAncLoop, h1]
              simp [e1]
            rw [e3]
            refine ih q z'.enc hm' ts (.inl ⟨z', Bfs.settle_enc z', ?_, ?_, ?_⟩)
            · rw [e2]; simpa using h2
            · rw [e2]; exact h3.tail
            · rw [e2, h4]; simp [pendF]
    · exact done cs ts h

/-- States of the leaves iterator and the replies they have yet to give. -/
def LvAncRel [TreeNode N V] (bad : N → Bool) (s : Bfs.AncState N V) (l : List (Option (List V))) : Prop :=
  match s.isRoot with
  | true => ∃ v q, s.cs = (Bfs.Zip.root v []).enc ∧ s.queue = [q] ∧
      l = Bfs.lvRem [.node (some [v]) (q.map (repA bad [v]))]
  | false => ∃ ts, (Run bad s.cs s.queue ts ∨ (s.queue = [] ∧ ts = [])) ∧ l = Bfs.lvRem ts

theorem run_first [TreeNode N V] (bad : N → Bool) (v : V) (q : List N) :
    Run bad (Bfs.Zip.root v []).enc [q] (q.map (repA bad [v])) :=
  ⟨.root v [], Bfs.settle_enc _, rfl, ⟨by simp [Bfs.Zip.cur, Bfs.Zip.others], by simp [Bfs.Zip.others]⟩,
    by simp [Bfs.Zip.cur, Bfs.Zip.others, pendF]⟩

theorem lvAnc_step [TreeNode N V] (bad : N → Bool) (s : Bfs.AncState N V) (queue : List (List N)) (cs : Bfs.CacheState V)
    (ts : List (Tree (Option (List V)))) (h : Run bad cs queue ts ∨ (queue = [] ∧ ts = []))
    (hs : bfsLeavesAncAdvance bad s = bfsLeavesAncLoop bad false queue cs) :
    ∃ s', bfsLeavesAncNext bad s = .ok ((Bfs.lvRem ts).head?, s') ∧ LvAncRel bad s' (Bfs.lvRem ts).tail := by
  obtain ⟨b, s', ts', e1, e2, e3, e4, e5⟩ := bfsLeavesAncLoop_spec bad _ queue cs (Nat.le_refl _) ts h
  refine ⟨s', ?_, ?_⟩
  · rw [bfsLeavesAncNext, streamNextE, hs, e1]
    cases b with
    | true => rw [← e2]; rfl
    | false => rw [← e2]; rfl
  · rw [LvAncRel, e4]
    exact ⟨ts', e5, e3.symm⟩

theorem bfsLeavesAncNext_spec [TreeNode N V] (bad : N → Bool) (s : Bfs.AncState N V) (l : List (Option (List V)))
    (h : LvAncRel bad s l) : ∃ s', bfsLeavesAncNext bad s = .ok (l.head?, s') ∧ LvAncRel bad s' l.tail := by
  obtain ⟨isRoot, cs, queue⟩ := s
  cases isRoot with
  | false =>
    obtain ⟨ts, h, rfl⟩ := h
    exact lvAnc_step bad _ queue cs ts h rfl
  | true =>
    obtain ⟨v, q, h1, h2, h3⟩ := h
    simp only at h1 h2
    subst h1 h2 h3
    cases q with
    | nil =>
      refine ⟨⟨false, (Bfs.Zip.root v []).enc, [[]]⟩, ?_, [], .inl (run_first bad v ([] : List N)), ?_⟩
      · rw [bfsLeavesAncNext, streamNextE, bfsLeavesAncAdvance, bfsLeavesAncLoop, Bfs.settle_enc]
        simp [Bfs.ancGet, Bfs.lvRem_cons, Bfs.Zip.items_enc, Bfs.Zip.cur]
      · simp [Bfs.lvRem_cons]
    | cons n ns =>
      have e : bfsLeavesAncLoop bad true [n :: ns] (Bfs.Zip.root v []).enc =
          bfsLeavesAncLoop bad false [n :: ns] (Bfs.Zip.root v []).enc := by
        rw [bfsLeavesAncLoop, bfsLeavesAncLoop]
      have e6 : Bfs.lvRem [.node (some [v]) ((n :: ns).map (repA bad [v]))] =
          Bfs.lvRem ((n :: ns).map (repA bad [v])) := by
        rw [Bfs.lvRem_cons]; simp
      rw [e6]
      exact lvAnc_step bad _ [n :: ns] _ _ (.inl (run_first bad v (n :: ns))) e

/-! ## In-order contexts, borrowed -/

mutual
/-- The replies of the in-order context iterators at a subtree. -/
def failB [BinNode N V] (bad : N → Bool) (path : List Nat) (anc : List V) :
    BinTree N → BinTree (Option (Ctx V (Option N × Option N)))
  | .node n l r =>
    if bad n then .node none none none
    else .node (some ⟨path, anc ++ [val2 n], some (split2 n).2⟩)
      (failBO bad (path ++ [0]) (anc ++ [val2 n]) l) (failBO bad (path ++ [1]) (anc ++ [val2 n]) r)
/-- Slot version. -/
def failBO [BinNode N V] (bad : N → Bool) (path : List Nat) (anc : List V) :
    Option (BinTree N) → Option (BinTree (Option (Ctx V (Option N × Option N))))
  | none => none
  | some t => some (failB bad path anc t)
end

theorem replyPos_withPos2 [BinNode N V] (bad : N → Bool) (t : BinTree N) (path : List Nat) (anc : List N) :
    ((t.crop bad).withPos path anc).map (replyPos bad Pos.ctx2) = failB bad path (anc.map val2) t := by
  induction t using BinTree.ind generalizing path anc with
  | h n l r ihl ihr =>
    rw [BinTree.crop, BinTree.withPos, BinTree.map, failB, replyPos]
    by_cases hb : bad n
    · simp [hb, BinTree.withPosO, BinTree.mapO]
    · simp only [hb, Bool.false_eq_true, if_false]
      congr 1
      · simp [Pos.ctx2]
      · cases l with
        | none => rfl
        | some l => simp [BinTree.cropO, BinTree.withPosO, BinTree.mapO, failBO, ihl l rfl]
      · cases r with
        | none => rfl
        | some r => simp [BinTree.cropO, BinTree.withPosO, BinTree.mapO, failBO, ihr r rfl]

/-- The replies at the subtree in a slot, in order. -/
def inC [BinNode N V] (bad : N → Bool) (path : List Nat) (anc : List V) :
    Option N → List (Option (Ctx V (Option N × Option N)))
  | none => []
  | some n => (failB bad path anc (unfold2 n)).inorder

theorem inC_some [BinNode N V] (bad : N → Bool) (path : List Nat) (anc : List V) (n : N) :
    inC bad path anc (some n) =
      if bad n then [none]
      else inC bad (path ++ [0]) (anc ++ [val2 n]) (split2 n).2.1 ++
        some ⟨path, anc ++ [val2 n], some (split2 n).2⟩ ::
        inC bad (path ++ [1]) (anc ++ [val2 n]) (split2 n).2.2 := by
  rw [inC, unfold2_eq, failB]
  split
  · simp [BinTree.inorder, BinTree.inorderO]
  · rw [BinTree.inorder]
    cases (split2 n).2.1 <;> cases (split2 n).2.2 <;>
      simp [failBO, BinTree.inorderO, inC]

/-- Replies still to come. `path` is the path of the top ancestor. -/
def remC [BinNode N V] (bad : N → Bool) :
    List Inorder.Status → List V → List Nat → List (Option N) → List (Option N × Option N) →
    List (Option (Ctx V (Option N × Option N)))
  | [], _, _, [], _ => []
  | [], _, path, r :: _, _ => inC bad path.reverse [] r
  | .wentRight :: ss, anc, path, right, into => remC bad ss anc.tail path.tail right into
  | .returnedSelf :: ss, anc, path, right, into =>
    inC bad (path.reverse ++ [1]) anc.reverse right.head?.join ++ remC bad ss anc.tail path.tail right.tail into
  | .wentLeft :: ss, anc, path, right, into =>
    some ⟨path.reverse, anc.reverse, into.head?⟩ ::
      (inC bad (path.reverse ++ [1]) anc.reverse right.head?.join ++
        remC bad ss anc.tail path.tail right.tail into.tail)

/-- Replies still to come. -/
def inCtxRem [BinNode N V] (bad : N → Bool) (s : Inorder.CtxState N V) :
    List (Option (Ctx V (Option N × Option N))) :=
  remC bad s.status s.ancestors s.path s.right s.into

theorem inCtxDescend_spec [BinNode N V] (bad : N → Bool) (cur : Option N) (s : Inorder.CtxState N V)
    (hne : s.status ≠ []) (h : Inorder.InvR s.status s.ancestors s.right s.into) :
    let d := inCtxDescend bad cur s
    Inorder.InvR d.2.status d.2.ancestors d.2.right d.2.into ∧
      inC bad (Inorder.pushSegment s.status s.path).reverse s.ancestors.reverse cur ++ inCtxRem bad s =
        (if d.1 then [none] else []) ++ inCtxRem bad d.2 ∧
      (d.1 = false → ∀ n, cur = some n → ∃ ss, d.2.status = .wentLeft :: ss) := by
  fun_induction inCtxDescend bad cur s with
  | case1 s => exact ⟨h, by simp [inC], by simp⟩
  | case2 s n hb => exact ⟨h, by simp [inC_some, hb], by simp⟩
  | case3 n s hb ih =>
    obtain ⟨h1, h2, h3⟩ := ih (by simp) ⟨by simp, by simp, by simp, h⟩
    refine ⟨h1, ?_, ?_⟩
    · rw [← h2, inC_some]
      obtain ⟨right, path, anc, ch, into, status⟩ := s
      cases status with
      | nil => exact absurd rfl hne
      | cons st ss => cases st <;> simp [inCtxRem, remC, Inorder.pushSegment, hb]
    · intro hd _ _
      cases hl : (split2 n).2.1 with
      | none => rw [inCtxDescend]; exact ⟨_, rfl⟩
      | some c => rw [hl] at h3 hd; exact h3 hd c rfl

/-- Descending from the root. -/
theorem inCtxDescend_root [BinNode N V] (bad : N → Bool) (n : N) (path : List Nat)
    (ch : Option (Option N × Option N)) :
    let d := inCtxDescend bad (some n) ⟨[], path, ([] : List V), ch, [], []⟩
    Inorder.InvR d.2.status d.2.ancestors d.2.right d.2.into ∧
      inC bad path.reverse ([] : List V) (some n) = (if d.1 then [none] else []) ++ inCtxRem bad d.2 ∧
      (d.1 = false → ∃ ss, d.2.status = .wentLeft :: ss) := by
  intro d
  by_cases hb : bad n
  · have e : d = (true, ⟨[], path, ([] : List V), ch, [], []⟩) := by
      show inCtxDescend _ _ _ = _
      rw [inCtxDescend, if_pos hb]
    rw [e]
    simp [Inorder.InvR, inC_some, hb, inCtxRem, remC]
  · have e : d = inCtxDescend bad (split2 n).2.1
        ⟨[(split2 n).2.2], path, [val2 n], ch, [(split2 n).2], [.wentLeft]⟩ := by
      show inCtxDescend _ _ _ = _
      rw [inCtxDescend, if_neg hb]
      rfl
    obtain ⟨h1, h2, h3⟩ := inCtxDescend_spec bad (split2 n).2.1
      ⟨[(split2 n).2.2], path, [val2 n], ch, [(split2 n).2], [.wentLeft]⟩ (by simp) (by simp [Inorder.InvR])
    rw [← e] at h1 h2 h3
    refine ⟨h1, ?_, ?_⟩
    · rw [← h2, inC_some]
      simp [inCtxRem, remC, Inorder.pushSegment, hb]
    · intro hd
      cases hl : (split2 n).2.1 with
      | none => rw [e, hl, inCtxDescend]; exact ⟨_, rfl⟩
      | some c => exact h3 hd c hl

theorem inCtxFinish_spec [BinNode N V] (bad : N → Bool) (s : Inorder.CtxState N V)
    (h : Inorder.InvR s.status s.ancestors s.right s.into)
    {ss : List Inorder.Status} (hs : s.status = .wentLeft :: ss) :
    ∃ c into, s.into = c :: into ∧
      let s' : Inorder.CtxState N V := { s with status := .returnedSelf :: ss, into := into, children := some c }
      (Inorder.ctxGet s').map some = (inCtxRem bad s).head? ∧ inCtxRem bad s' = (inCtxRem bad s).tail ∧
        Inorder.InvR s'.status s'.ancestors s'.right s'.into := by
  obtain ⟨right, path, anc, ch, into, status⟩ := s
  simp only at hs
  subst hs
  obtain ⟨h1, h2, h3, h4⟩ := h
  obtain ⟨c, into, rfl⟩ := List.exists_cons_of_ne_nil h3
  refine ⟨c, into, rfl, ?_⟩
  have : anc.isEmpty = false := by simpa using h1
  simp only [Inorder.ctxGet, this, inCtxRem, remC]
  exact ⟨rfl, rfl, h1, h2, h4⟩

/-- The result of the search loop. -/
theorem inCtxFind_spec [BinNode N V] (bad : N → Bool) (ch : Option (Option N × Option N)) (st : List Inorder.Status)
    (anc : List V) (path : List Nat) (right : List (Option N)) (into : List (Option N × Option N))
    (h : Inorder.InvR st anc right into) :
    (∃ s, Inorder.ctxFind ch st anc path right into = .ok (.inl s) ∧
      (Inorder.ctxGet s).map some = (remC bad st anc path right into).head? ∧
      inCtxRem bad s = (remC bad st anc path right into).tail ∧
      Inorder.InvR s.status s.ancestors s.right s.into) ∨
    (∃ n s, Inorder.ctxFind ch st anc path right into = .ok (.inr (n, s)) ∧ s.status ≠ [] ∧
      Inorder.InvR s.status s.ancestors s.right s.into ∧
      remC bad st anc path right into =
        inC bad (Inorder.pushSegment s.status s.path).reverse s.ancestors.reverse (some n) ++ inCtxRem bad s) := by
  fun_induction Inorder.ctxFind ch st anc path right into with
  | case1 ss anc path right into ih =>
    obtain ⟨h1, h2⟩ := h
    simpa only [remC] using ih h2
  | case2 ss anc path right c into =>
    left
    refine ⟨_, rfl, ?_⟩
    obtain ⟨h1, h2, h3, h4⟩ := h
    have : anc.isEmpty = false := by simpa using h1
    simp only [Inorder.ctxGet, this, inCtxRem, remC]
    exact ⟨rfl, rfl, h1, h2, h4⟩
  | case3 => exact absurd rfl h.2.2.1
  | case4 => exact absurd rfl h.2.1
  | case5 ss anc path n right into =>
    right
    refine ⟨n, _, rfl, by simp, ⟨h.1, h.2.2⟩, ?_⟩
    simp [remC, inCtxRem, Inorder.pushSegment]
  | case6 ss anc path right into ih =>
    have := ih ⟨h.1, h.2.2⟩
    simpa [remC, inC] using this
  | case7 =>
    left
    refine ⟨_, rfl, ?_⟩
    obtain ⟨h1, h2, h3⟩ := h
    simp [Inorder.ctxGet, inCtxRem, remC, Inorder.InvR, h3]
  | case8 => exact absurd h.2.1 (by simp)
  | case9 => exact absurd h.2.1 (by simp)

/-- What the end of `advance` does with the result of descending. -/
theorem inCtx_descended [BinNode N V] (bad : N → Bool) (d : Bool × Inorder.CtxState N V)
    (l : List (Option (Ctx V (Option N × Option N))))
    (h1 : Inorder.InvR d.2.status d.2.ancestors d.2.right d.2.into)
    (h2 : l = (if d.1 then [none] else []) ++ inCtxRem bad d.2)
    (h3 : d.1 = false → ∃ ss, d.2.status = .wentLeft :: ss) :
    ∃ b s', (match d with
        | (true, s'') => (.ok (true, s'') : Except Panic (Bool × Inorder.CtxState N V))
        | (false, s'') =>
          match s''.status, s''.into with
          | [], _ => .error .indexOutOfRange
          | _ :: _, [] => .error .unwrapNone
          | _ :: ss, c :: into =>
            .ok (false, { s'' with status := .returnedSelf :: ss, into := into, children := some c })) = .ok (b, s') ∧
      (if b then some none else (Inorder.ctxGet s').map some) = l.head? ∧ inCtxRem bad s' = l.tail ∧
      Inorder.InvR s'.status s'.ancestors s'.right s'.into := by
  obtain ⟨b, s⟩ := d
  cases b with
  | true =>
    refine ⟨true, s, rfl, ?_, ?_, h1⟩
    · simp [h2]
    · simp [h2]
  | false =>
    obtain ⟨ss, hss⟩ := h3 rfl
    obtain ⟨c, into', hinto, k1, k2, k3⟩ := inCtxFinish_spec bad s h1 hss
    refine ⟨false, _, ?_, ?_, ?_, k3⟩
    · simp only at hss; simp only [hss, hinto]
    · simpa [h2] using k1
    · simpa [h2] using k2

theorem inCtxNext_spec [BinNode N V] (bad : N → Bool) (s : Inorder.CtxState N V) (h : Inorder.CtxInv s) :
    ∃ s', inCtxNext bad s = .ok ((inCtxRem bad s).head?, s') ∧ inCtxRem bad s' = (inCtxRem bad s).tail ∧
      Inorder.CtxInv s' := by
  obtain ⟨right, path, anc, ch, into, status⟩ := s
  rcases h with h | ⟨root, h1, h2, h3, h4⟩
  · rcases inCtxFind_spec bad ch status anc path right into h with ⟨s', e, i1, i2, i3⟩ | ⟨n, s', e, i1, i2, i3⟩
    · refine ⟨s', ?_, i2, Or.inl i3⟩
      simp only [inCtxNext, streamNextE, inCtxAdvance, e, i1]
      rfl
    · obtain ⟨j1, j2, j3⟩ := inCtxDescend_spec bad (some n) s' i1 i2
      obtain ⟨b, s2, k0, k1, k2, k3⟩ := inCtx_descended bad _ _ j1 (i3.trans j2) (fun hd => j3 hd n rfl)
      refine ⟨s2, ?_, k2, Or.inl k3⟩
      have e' : inCtxAdvance bad ⟨right, path, anc, ch, into, status⟩ = .ok (b, s2) := by
        rw [inCtxAdvance]
        simp only [e]
        exact k0
      rw [inCtxNext, streamNextE, e', inCtxRem]
      cases b <;> simpa using k1
  · simp only at h1 h2 h3 h4
    subst h1 h2 h3 h4
    obtain ⟨j1, j2, j3⟩ := inCtxDescend_root (V := V) bad root path ch
    obtain ⟨b, s2, k0, k1, k2, k3⟩ := inCtx_descended bad _ _ j1 j2 j3
    refine ⟨s2, ?_, k2, Or.inl k3⟩
    have e' : inCtxAdvance (V := V) bad ⟨[some root], path, [], ch, [], []⟩ = .ok (b, s2) := by
      rw [inCtxAdvance]
      simp only [Inorder.ctxFind]
      exact k0
    rw [inCtxNext, streamNextE, e', inCtxRem, remC]
    cases b <;> simpa using k1

/-! ## In-order contexts, owned: forget the children -/

theorem inOwnDescend_sim [BinNode N V] (bad : N → Bool) (cur : Option N) (s : Inorder.CtxState N V) :
    inOwnDescend bad cur s.own = ((inCtxDescend bad cur s).1, (inCtxDescend bad cur s).2.own) := by
  fun_induction inCtxDescend bad cur s with
  | case1 s => rw [inOwnDescend]
  | case2 s n hb => rw [inOwnDescend, if_pos hb]
  | case3 n s hb ih => rw [inOwnDescend, if_neg hb]; exact ih

theorem inOwnNext_sim [BinNode N V] (bad : N → Bool) (s s' : Inorder.CtxState N V)
    (o : Option (Option (Ctx V (Option N × Option N)))) (h : inCtxNext bad s = .ok (o, s')) :
    inOwnNext bad s.own = .ok (o.map (Option.map Ctx.noChildren), s'.own) := by
  have key : ∀ (a : Inorder.CtxState N V) b a', inCtxAdvance bad a = .ok (b, a') →
      inOwnAdvance bad a.own = .ok (b, a'.own) := by
    intro a b a' hab
    obtain ⟨f1, f2⟩ := Inorder.ownFind_sim a.children a.status a.ancestors a.path a.right a.into
    unfold inCtxAdvance at hab
    unfold inOwnAdvance
    cases hf : Inorder.ctxFind a.children a.status a.ancestors a.path a.right a.into with
    | error e => rw [hf] at hab; cases hab
    | ok r =>
      rw [hf] at hab
      cases r with
      | inl s1 =>
        have e : Inorder.ownFind a.own.status a.own.ancestors a.own.path a.own.right = .inl s1.own := f1 s1 hf
        cases hab
        rw [e]
      | inr p =>
        obtain ⟨n, s1⟩ := p
        simp only at hab
        have e : Inorder.ownFind a.own.status a.own.ancestors a.own.path a.own.right = .inr (n, s1.own) := f2 n s1 hf
        rw [e]
        simp only [inOwnDescend_sim]
        generalize inCtxDescend bad (some n) s1 = d at hab
        obtain ⟨b', right, path, anc, ch, into, status⟩ := d
        cases b' with
        | true => cases hab; rfl
        | false =>
          cases status with
          | nil => cases hab
          | cons st ss =>
            cases into with
            | nil => cases hab
            | cons c into => cases hab; rfl
  simp only [inCtxNext, streamNextE, inOwnNext] at h ⊢
  cases hs : inCtxAdvance bad s with
  | error e => rw [hs] at h; cases h
  | ok r =>
    obtain ⟨b, a⟩ := r
    rw [hs] at h
    cases b with
    | true =>
      cases h
      rw [key s _ _ hs]
      rfl
    | false =>
      cases h
      rw [key s _ _ hs]
      by_cases hc : s'.ancestors.isEmpty = true <;>
        simp [Inorder.ownGet, Inorder.ctxGet, Inorder.CtxState.own, hc, Ctx.noChildren]

/-! ## In-order ancestors: also forget the path -/

theorem inAncDescend_sim [BinNode N V] (bad : N → Bool) (cur : Option N) (s : Inorder.OwnCtxState N V) :
    inAncDescend bad cur s.anc = ((inOwnDescend bad cur s).1, (inOwnDescend bad cur s).2.anc) := by
  fun_induction inOwnDescend bad cur s with
  | case1 s => rw [inAncDescend]
  | case2 s n hb => rw [inAncDescend, if_pos hb]
  | case3 n s hb ih => rw [inAncDescend, if_neg hb]; exact ih

theorem inAncNext_sim [BinNode N V] (bad : N → Bool) (s s' : Inorder.OwnCtxState N V)
    (o : Option (Option (Ctx V (Option N × Option N)))) (h : inOwnNext bad s = .ok (o, s')) :
    inAncNext bad s.anc = .ok (o.map (Option.map Ctx.ancestors), s'.anc) := by
  have key : ∀ (a : Inorder.OwnCtxState N V) b a', inOwnAdvance bad a = .ok (b, a') →
      inAncAdvance bad a.anc = .ok (b, a'.anc) := by
    intro a b a' hab
    unfold inOwnAdvance at hab
    unfold inAncAdvance
    have e' : Inorder.ancFind a.anc.status a.anc.items a.anc.right = _ :=
      Inorder.ancFind_sim a.status a.ancestors a.path a.right
    rw [e']
    cases hf : Inorder.ownFind a.status a.ancestors a.path a.right with
    | inl s1 => rw [hf] at hab; cases hab; rfl
    | inr p =>
      obtain ⟨n, s1⟩ := p
      rw [hf] at hab
      simp only at hab
      simp only [inAncDescend_sim]
      generalize inOwnDescend bad (some n) s1 = d at hab
      obtain ⟨b', right, path, anc, status⟩ := d
      cases b' with
      | true => cases hab; rfl
      | false =>
        cases status with
        | nil => cases hab
        | cons st ss => cases hab; rfl
  simp only [inOwnNext, streamNextE, inAncNext] at h ⊢
  cases hs : inOwnAdvance bad s with
  | error e => rw [hs] at h; cases h
  | ok r =>
    obtain ⟨b, a⟩ := r
    rw [hs] at h
    cases b with
    | true =>
      cases h
      rw [key s _ _ hs]
      rfl
    | false =>
      cases h
      rw [key s _ _ hs]
      cases hc : s'.ancestors <;> simp [Inorder.ancGet, Inorder.ownGet, Inorder.OwnCtxState.anc, hc]

end Fail

end TreeIter
