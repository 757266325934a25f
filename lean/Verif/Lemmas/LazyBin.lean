import Verif.Lemmas.LazyPos

/-!
# Infinite binary trees: a traversal cannot tell a tree from its cut at a depth it has not reached
-/

universe u v

namespace TreeIter

variable {N : Type u} {V : Type v}

/-! ## Cut nodes -/

/-- A binary node that shows its descendants only down to `budget` levels below it. -/
structure Cut2 (N : Type u) where
  node : N
  budget : Nat

instance Cut2.binNode [SplitNode2 N V] : BinNode (Cut2 N) V where
  split2 t :=
    match t with
    | ⟨n, 0⟩ => (val2 n, none, none)
    | ⟨n, d + 1⟩ => (val2 n, (split2 n).2.1.map (⟨·, d⟩), (split2 n).2.2.map (⟨·, d⟩))
  size2 := Cut2.budget
  size2_left := by
    rintro ⟨n, _ | d⟩ c h
    · simp at h
    · obtain ⟨c, _, rfl⟩ := Option.map_eq_some_iff.1 h
      exact Nat.lt_succ_self d
  size2_right := by
    rintro ⟨n, _ | d⟩ c h
    · simp at h
    · obtain ⟨c, _, rfl⟩ := Option.map_eq_some_iff.1 h
      exact Nat.lt_succ_self d

theorem Cut2.val_eq [SplitNode2 N V] (t : Cut2 N) : val2 t = val2 t.node := by
  obtain ⟨n, _ | d⟩ := t <;> rfl

/-- Forget the budgets of two slots. -/
def Cut2.strip2 (c : Option (Cut2 N) × Option (Cut2 N)) : Option N × Option N :=
  (c.1.map Cut2.node, c.2.map Cut2.node)

theorem Cut2.kids_node [SplitNode2 N V] (t : Cut2 N) (h : 1 ≤ t.budget) :
    Cut2.strip2 (split2 t).2 = (split2 t.node).2 := by
  obtain ⟨n, _ | d⟩ := t
  · simp at h
  · simp [split2, Cut2.strip2, Function.comp_def]

/-- The nodes in a list of slots may be opened `m` levels deep. -/
def Deep1 (m : Nat) (l : List (Option (Cut2 N))) : Prop := ∀ t, some t ∈ l → m ≤ t.budget

/-- The nodes in a stack or queue of slots may be opened `m` levels deep. -/
def Deep2 (m : Nat) (st : List (List (Option (Cut2 N)))) : Prop := ∀ l ∈ st, Deep1 m l

theorem Cut2.kids_budget [SplitNode2 N V] (t : Cut2 N) {m : Nat} (h : m + 1 ≤ t.budget) :
    Deep1 m [(split2 t).2.1, (split2 t).2.2] := by
  obtain ⟨n, _ | d⟩ := t
  · simp at h
  · intro c hc
    simp only [split2, List.mem_cons, List.not_mem_nil, or_false] at hc
    rcases hc with hc | hc <;>
    · obtain ⟨c, _, rfl⟩ := Option.map_eq_some_iff.1 hc.symm
      simpa using h

theorem Cut2.unfold_node [SplitNode2 N V] (n : N) (d : Nat) : (unfold2 (⟨n, d⟩ : Cut2 N)).map Cut2.node = cut2 d n := by
  have hm : ∀ (o : Option (BinTree (Cut2 N))), BinTree.mapO Cut2.node o = o.map (BinTree.map Cut2.node) := by
    intro o; cases o <;> rfl
  induction d generalizing n with
  | zero => rw [unfold2_eq]; rfl
  | succ d ih =>
    rw [unfold2_eq, BinTree.map, cut2, hm, hm]
    simp only [split2, Option.map_map]
    congr 1 <;> exact congrArg (fun f => Option.map f _) (funext fun c => ih c)

theorem Deep1.mono {m : Nat} {l : List (Option (Cut2 N))} (h : Deep1 (m + 1) l) : Deep1 m l :=
  fun t ht => Nat.le_of_succ_le (h t ht)

theorem Deep1.tail {m : Nat} {a : Option (Cut2 N)} {l : List (Option (Cut2 N))} (h : Deep1 m (a :: l)) : Deep1 m l :=
  fun t ht => h t (List.mem_cons_of_mem _ ht)

theorem Deep2.mono {m : Nat} {st : List (List (Option (Cut2 N)))} (h : Deep2 (m + 1) st) : Deep2 m st :=
  fun l hl => (h l hl).mono

theorem Deep2.cons {m : Nat} {l : List (Option (Cut2 N))} {st : List (List (Option (Cut2 N)))} (hl : Deep1 m l)
    (h : Deep2 m st) : Deep2 m (l :: st) := by
  intro l' hl'
  rcases List.mem_cons.1 hl' with rfl | hl'
  · exact hl
  · exact h l' hl'

theorem Deep2.snoc {m : Nat} {l : List (Option (Cut2 N))} {st : List (List (Option (Cut2 N)))} (hl : Deep1 m l)
    (h : Deep2 m st) : Deep2 m (st ++ [l]) := by
  intro l' hl'
  rcases List.mem_append.1 hl' with hl' | hl'
  · exact h l' hl'
  · rwa [List.mem_singleton.1 hl']

theorem Deep2.tail {m : Nat} {l : List (Option (Cut2 N))} {st : List (List (Option (Cut2 N)))} (h : Deep2 m (l :: st)) :
    Deep2 m st := fun l' hl' => h l' (List.mem_cons_of_mem _ hl')

theorem Deep2.head {m : Nat} {l : List (Option (Cut2 N))} {st : List (List (Option (Cut2 N)))} (h : Deep2 m (l :: st)) :
    Deep1 m l := h l (List.mem_cons_self ..)

/-- Forget the budgets. -/
abbrev stripO (l : List (Option (Cut2 N))) : List (Option N) := l.map (Option.map Cut2.node)

/-- Forget the budgets of the children. -/
def Ctx.strip2 (c : Ctx V (Option (Cut2 N) × Option (Cut2 N))) : Ctx V (Option N × Option N) :=
  ⟨c.path, c.ancestors, c.children.map Cut2.strip2⟩

namespace Preorder

def BinCtxState.strip (s : BinCtxState (Cut2 N) V) : BinCtxState N V :=
  ⟨s.root.map Cut2.node, s.stack.map stripO, s.path, s.ancestors, s.children.map Cut2.strip2⟩

def BinCtxState.good (m : Nat) (s : BinCtxState (Cut2 N) V) : Prop :=
  (∀ t ∈ s.root, m ≤ t.budget) ∧ Deep2 m s.stack ∧ ∀ cs ∈ s.children, Deep1 m [cs.1, cs.2]

theorem binCtxLoop_strip {m : Nat} (st : List (List (Option (Cut2 N)))) (path : List Nat) (anc : List V)
    (h : Deep2 m st) {r} (hr : binCtxLoop st path anc = .ok r) :
    binCtxLoop (st.map stripO) path anc = .ok (r.1.map Cut2.node, r.2.1.map stripO, r.2.2) ∧
      (∀ t ∈ r.1, m ≤ t.budget) ∧ Deep2 m r.2.1 := by
  fun_induction binCtxLoop st path anc with
  | case1 => cases hr; exact ⟨by simp [binCtxLoop], by simp, h⟩
  | case2 path anc rest ih => simpa [stripO, binCtxLoop] using ih h.tail hr
  | case3 anc n ss rest p path =>
    cases hr
    refine ⟨by simp [stripO, binCtxLoop], by simpa using h.head _ (List.mem_cons_self ..), ?_⟩
    exact Deep2.cons h.head.tail h.tail
  | case4 anc ss rest p path ih =>
    simpa [stripO, binCtxLoop] using ih (Deep2.cons h.head.tail h.tail) hr
  | case5 => cases hr

theorem binCtxFinish_strip [SplitNode2 N V] (m : Nat)
    (r : Option (Cut2 N) × List (List (Option (Cut2 N))) × List Nat × List V)
    (h1 : ∀ t ∈ r.1, m + 1 ≤ t.budget) (h2 : Deep2 (m + 1) r.2.1) :
    Except.ok (ε := Panic) (binCtxFinish (r.1.map Cut2.node, r.2.1.map stripO, r.2.2)) = .ok (binCtxFinish r).strip ∧
      (binCtxFinish r).good m := by
  obtain ⟨_ | t, st', path', anc'⟩ := r
  · exact ⟨rfl, by simp [binCtxFinish], h2.mono, by simp [binCtxFinish]⟩
  · have ht : m + 1 ≤ t.budget := h1 t rfl
    refine ⟨?_, by simp [binCtxFinish], h2.mono, ?_⟩
    · simp [binCtxFinish, BinCtxState.strip, Cut2.val_eq, Cut2.kids_node t (by omega)]
    · simpa [binCtxFinish] using t.kids_budget ht

theorem binCtxAdvance_strip [SplitNode2 N V] (m : Nat) (s s' : BinCtxState (Cut2 N) V) (h : s.good (m + 1))
    (hs : binCtxAdvance s = .ok s') : binCtxAdvance s.strip = .ok s'.strip ∧ s'.good m := by
  obtain ⟨root, st, path, anc, cs⟩ := s
  obtain ⟨h1, h2, h3⟩ := h
  simp only at h1 h2 h3
  cases root with
  | some t =>
    have ht : m + 1 ≤ t.budget := h1 t rfl
    simp only [binCtxAdvance] at hs
    cases hs
    refine ⟨?_, by simp, h2.mono, ?_⟩
    · simp [binCtxAdvance, BinCtxState.strip, Cut2.val_eq, Cut2.kids_node t (by omega)]
    · simpa using t.kids_budget ht
  | none =>
    simp only [binCtxAdvance, BinCtxState.strip, Option.map_none] at hs ⊢
    by_cases he : anc.isEmpty
    · simp only [he, if_true] at hs ⊢
      cases hs
      exact ⟨rfl, by simp, h2.mono, fun cs hcs => (h3 cs hcs).mono⟩
    · simp only [he, Bool.false_eq_true, if_false] at hs ⊢
      cases cs with
      | none =>
        dsimp only [Option.map_none] at hs ⊢
        by_cases hp : path.head? = some usizeMax
        · simp only [hp, if_true] at hs ⊢
          cases hc : binCtxLoop st path.tail anc.tail with
          | error e => simp [hc] at hs
          | ok r =>
            obtain ⟨g1, g2⟩ := binCtxLoop_strip st path.tail anc.tail h2 hc
            simp only [hc, Except.ok.injEq] at hs
            simp only [g1, ← hs]
            exact binCtxFinish_strip m r g2.1 g2.2
        · simp only [hp, if_false] at hs ⊢
          cases hc : binCtxLoop st path anc.tail with
          | error e => simp [hc] at hs
          | ok r =>
            obtain ⟨g1, g2⟩ := binCtxLoop_strip st path anc.tail h2 hc
            simp only [hc, Except.ok.injEq] at hs
            simp only [g1, ← hs]
            exact binCtxFinish_strip m r g2.1 g2.2
      | some cs =>
        dsimp only [Option.map_some] at hs ⊢
        cases hc : binCtxLoop ([cs.1, cs.2] :: st) (usizeMax :: path) anc with
        | error e => simp [hc] at hs
        | ok r =>
          obtain ⟨g1, g2⟩ := binCtxLoop_strip ([cs.1, cs.2] :: st) (usizeMax :: path) anc (Deep2.cons (h3 cs rfl) h2) hc
          simp only [stripO, List.map_cons, List.map_nil] at g1
          simp only [hc, Except.ok.injEq] at hs
          simp only [Cut2.strip2, g1, ← hs]
          exact binCtxFinish_strip m r g2.1 g2.2

theorem binCtxNext_strip [SplitNode2 N V] (m : Nat) (s : BinCtxState (Cut2 N) V)
    (o : Option (Ctx V (Option (Cut2 N) × Option (Cut2 N)))) (s' : BinCtxState (Cut2 N) V) (h : s.good (m + 1))
    (hs : binCtxNext s = .ok (o, s')) :
    binCtxNext s.strip = .ok (o.map Ctx.strip2, s'.strip) ∧ s'.good m := by
  simp only [binCtxNext, streamNextE] at hs ⊢
  cases ha : binCtxAdvance s with
  | error e => simp [ha] at hs
  | ok r =>
    simp only [ha, Except.ok.injEq, Prod.mk.injEq] at hs
    obtain ⟨rfl, rfl⟩ := hs
    obtain ⟨g1, g2⟩ := binCtxAdvance_strip m s r h ha
    simp only [g1]
    refine ⟨?_, g2⟩
    simp only [binCtxGet, BinCtxState.strip]
    by_cases he : r.ancestors.isEmpty <;> simp [he, Ctx.strip2]

end Preorder

namespace Bfs

def CtxState.strip2 (s : CtxState V (Option (Cut2 N) × Option (Cut2 N)) (Option (Cut2 N))) :
    CtxState V (Option N × Option N) (Option N) :=
  ⟨s.isRoot, s.cc, s.children.map Cut2.strip2, s.queue.map stripO, s.counter⟩

def CtxState.good2 (m : Nat) (s : CtxState V (Option (Cut2 N) × Option (Cut2 N)) (Option (Cut2 N))) : Prop :=
  Deep2 (m - s.isRoot.toNat) s.queue ∧ ∀ cs ∈ s.children, Deep1 (m - s.isRoot.toNat) [cs.1, cs.2]

theorem binScan_strip {m : Nat} (l : List (Option (Cut2 N))) (counter : Nat) (h : Deep1 m l) {r}
    (hr : binScan l counter = .ok r) :
    binScan (stripO l) counter = .ok (r.1.map Cut2.node, stripO r.2.1, r.2.2) ∧ (∀ t ∈ r.1, m ≤ t.budget) ∧
      Deep1 m r.2.1 := by
  fun_induction binScan l counter with
  | case1 => cases hr; exact ⟨rfl, by simp, h⟩
  | case2 => cases hr
  | case3 counter ss counter' hc ih => simpa [stripO, binScan, hc] using ih h.tail hr
  | case4 counter n ss =>
    cases hr
    exact ⟨rfl, by simpa using h _ (List.mem_cons_self ..), h.tail⟩

theorem binCtxLoop_strip [SplitNode2 N V] (m : Nat) (q : List (List (Option (Cut2 N)))) (cc : CtxCache V) (counter : Nat)
    (s' : CtxState V (Option (Cut2 N) × Option (Cut2 N)) (Option (Cut2 N))) (h : Deep2 (m + 1) q)
    (hs : binCtxLoop q cc counter = .ok s') :
    binCtxLoop (q.map stripO) cc counter = .ok s'.strip2 ∧ s'.good2 m := by
  induction q generalizing cc counter with
  | nil =>
    rw [binCtxLoop] at hs
    split at hs <;> cases hs
  | cons l q ih =>
    rw [binCtxLoop] at hs ⊢
    cases hc : cc.settle with
    | error e => simp [hc] at hs
    | ok cc1 =>
      simp only [hc, List.map_cons] at hs ⊢
      cases hb : binScan l counter with
      | error e => simp [hb] at hs
      | ok r =>
        obtain ⟨o, ss, c1⟩ := r
        obtain ⟨g1, g2, g3⟩ := binScan_strip l counter h.head hb
        simp only [hb, g1] at hs ⊢
        cases o with
        | some t =>
          have ht : m + 1 ≤ t.budget := g2 t rfl
          simp only [Option.map_some] at hs ⊢
          cases hk : checkedSucc c1 with
          | error e => simp [hk] at hs
          | ok c' =>
            simp only [hk, Except.ok.injEq] at hs ⊢
            subst hs
            refine ⟨?_, by simpa [CtxState.good2] using Deep2.cons g3.mono h.tail.mono,
              by simpa [CtxState.good2] using t.kids_budget ht⟩
            simp [CtxState.strip2, Cut2.val_eq, Cut2.kids_node t (by omega)]
        | none =>
          simp only [Option.map_none] at hs ⊢
          cases hr : cc1.retire with
          | error e => simp [hr] at hs
          | ok cc2 =>
            simp only [hr, List.isEmpty_map] at hs ⊢
            by_cases hq : q.isEmpty
            · simp only [hq, if_true] at hs ⊢
              cases hs
              exact ⟨rfl, by simp [CtxState.good2, Deep2]⟩
            · simp only [hq] at hs ⊢
              exact ih cc2 0 h.tail hs

theorem binCtxNext_strip [SplitNode2 N V] (m : Nat)
    (s : CtxState V (Option (Cut2 N) × Option (Cut2 N)) (Option (Cut2 N)))
    (o : Option (Ctx V (Option (Cut2 N) × Option (Cut2 N))))
    (s' : CtxState V (Option (Cut2 N) × Option (Cut2 N)) (Option (Cut2 N))) (h : s.good2 (m + 1))
    (hs : binCtxNext s = .ok (o, s')) :
    binCtxNext s.strip2 = .ok (o.map Ctx.strip2, s'.strip2) ∧ s'.good2 m := by
  have key : ∀ s1, binCtxAdvance s = .ok s1 → binCtxAdvance s.strip2 = .ok s1.strip2 ∧ s1.good2 m := by
    intro s1 h1
    obtain ⟨isRoot, cc, cs, q, counter⟩ := s
    cases isRoot with
    | true =>
      simp only [binCtxAdvance, CtxState.strip2, if_true] at h1 ⊢
      cases h1
      exact ⟨rfl, by simpa [CtxState.good2] using h⟩
    | false =>
      simp only [CtxState.good2, Bool.toNat_false, Nat.sub_zero] at h
      simp only [binCtxAdvance, CtxState.strip2] at h1 ⊢
      by_cases he : cc.ancestors.isEmpty
      · simp only [he, if_true] at h1 ⊢
        cases h1
        refine ⟨rfl, ?_⟩
        simp only [CtxState.good2, Bool.toNat_false, Nat.sub_zero]
        exact ⟨h.1.mono, fun cs hcs => (h.2 cs hcs).mono⟩
      · simp only [he] at h1 ⊢
        cases cs with
        | none => simp at h1
        | some cs =>
          have := binCtxLoop_strip m (q ++ [[cs.1, cs.2]]) cc counter s1 (Deep2.snoc (h.2 cs rfl) h.1) (by simpa using h1)
          simpa [stripO, CtxState.strip2, Cut2.strip2] using this
  simp only [binCtxNext, streamNextE] at hs ⊢
  cases ha : binCtxAdvance s with
  | error e => simp [ha] at hs
  | ok r =>
    simp only [ha, Except.ok.injEq, Prod.mk.injEq] at hs
    obtain ⟨rfl, rfl⟩ := hs
    obtain ⟨g1, g2⟩ := key r ha
    simp only [g1]
    refine ⟨?_, g2⟩
    simp only [ctxGet, CtxState.strip2]
    by_cases he : r.cc.ancestors.isEmpty <;> simp [he, Ctx.strip2]

end Bfs

/-! ## Positions -/

theorem located2_map {α β : Type u} (f : α → β) (t : BinTree α) : (t.map f).located = t.located.map (Pos.map f) := by
  suffices ∀ path anc, (t.map f).withPos path (anc.map f) = (t.withPos path anc).map (Pos.map f) from this [] []
  induction t using BinTree.ind with
  | h a l r ihl ihr =>
    intro path anc
    rw [BinTree.map, BinTree.withPos, BinTree.withPos, BinTree.map]
    simp only [Pos.map, List.map_append, List.map_cons, List.map_nil, BinTree.node.injEq, true_and]
    constructor
    · cases l with
      | none => rfl
      | some l => simpa [BinTree.mapO, BinTree.withPosO] using ihl l rfl (path ++ [0]) (anc ++ [a])
    · cases r with
      | none => rfl
      | some r => simpa [BinTree.mapO, BinTree.withPosO] using ihr r rfl (path ++ [1]) (anc ++ [a])

theorem withPos2_value_path {β : Type u} (t : BinTree β) (path : List Nat) (anc : List β) :
    (t.withPos path anc).toTree.value.path = path := by
  cases t
  rfl

theorem withPos2_graded {β : Type u} (t : BinTree β) (path : List Nat) (anc : List β) :
    Graded (fun p : Pos β => p.path.length) (t.withPos path anc).toTree := by
  induction t using BinTree.ind generalizing path anc with
  | h a l r ihl ihr =>
    rw [BinTree.withPos, BinTree.toTree]
    cases l <;> cases r <;> refine .mk _ _ ?_ ?_ <;>
      simp_all [BinTree.slotTrees, BinTree.withPosO, withPos2_value_path]

theorem preorder2_path_le {β : Type u} (t : BinTree β) (k : Nat) (p : Pos β)
    (h : t.located.toTree.preorder[k]? = some p) : p.path.length ≤ k := by
  have := Graded.preF (g := fun p : Pos β => p.path.length) [t.located.toTree] 0
    (by simp [BinTree.located, withPos2_graded, withPos2_value_path]) k p (by simpa using h)
  omega

theorem levelOrder2_path_le {β : Type u} (t : BinTree β) (k : Nat) (p : Pos β)
    (h : t.located.toTree.levelOrder[k]? = some p) : p.path.length ≤ k := by
  have := Graded.bfsF (g := fun p : Pos β => p.path.length) [t.located.toTree] 0
    (by simp [BinTree.located, withPos2_graded, withPos2_value_path]) k p (by simpa [bfsF_singleton] using h)
  omega

theorem Cut2.budget_pos [SplitNode2 N V] (n : N) (d : Nat) (path : List Nat) (anc : List (Cut2 N)) :
    ∀ p ∈ ((unfold2 (⟨n, d⟩ : Cut2 N)).withPos path anc).toTree.preorder,
      p.item.budget + p.path.length = d + path.length := by
  induction d generalizing n path anc with
  | zero =>
    rw [unfold2_eq]
    simp [split2, BinTree.withPos, BinTree.withPosO, BinTree.toTree, BinTree.slotTrees, Tree.preorder, Tree.preorderL]
  | succ d ih =>
    rw [unfold2_eq, BinTree.withPos, BinTree.toTree, Tree.preorder, Tree.preorderL_eq]
    intro p hp
    rcases List.mem_cons.1 hp with rfl | hp
    · rfl
    · simp only [split2] at hp
      have key : ∀ (o : Option N) (j : Nat), p ∈ (BinTree.slotTrees
          (BinTree.withPosO (path ++ [j]) (anc ++ [⟨n, d + 1⟩]) (Option.map unfold2 (o.map (Cut2.mk · d))))).flatMap
            Tree.preorder → p.item.budget + p.path.length = d + 1 + path.length := by
        intro o j h
        cases o with
        | none => simp [BinTree.withPosO, BinTree.slotTrees] at h
        | some c =>
          have := ih c _ _ p (by simpa [BinTree.withPosO, BinTree.slotTrees] using h)
          simp only [List.length_append, List.length_cons, List.length_nil] at this
          omega
      rw [List.flatMap_append] at hp
      rcases List.mem_append.1 hp with hp | hp
      · exact key _ _ hp
      · exact key _ _ hp

theorem Cut2.ctx_strip [SplitNode2 N V] (p : Pos (Cut2 N)) (h : 1 ≤ p.item.budget) :
    (Pos.ctx2 p).strip2 = Pos.ctx2 (p.map Cut2.node) := by
  simp only [Pos.ctx2, Ctx.strip2, Pos.map, Option.map_some, Cut2.kids_node _ h, List.map_map, Ctx.mk.injEq, true_and,
    and_true]
  exact List.map_congr_left fun t _ => Cut2.val_eq t

end TreeIter
