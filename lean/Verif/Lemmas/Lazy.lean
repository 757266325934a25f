import Verif.Spec.Lazy
import Verif.Model.BfsCtx
import Verif.Lemmas.LevelOrder
import Verif.Lemmas.Positions
import Verif.Lemmas.Located

/-!
# Infinite trees: a traversal cannot tell a tree from its cut at a depth it has not reached
-/

universe u v w x

namespace TreeIter

variable {N : Type u} {V : Type v}

/-! ## Cut nodes -/

theorem size_map {α : Type u} {β : Type v} (f : α → β) (t : Tree α) : (t.map f).size = t.size := by
  induction t using Tree.ind with
  | h a cs ih =>
    rw [Tree.map_node, Tree.size, Tree.size, Tree.sizeL_eq, Tree.sizeL_eq, List.map_map]
    congr 2
    exact List.map_congr_left fun c hc => ih c hc

/-- A node that shows its descendants only down to `budget` levels below it. -/
structure Cut (N : Type u) where
  node : N
  budget : Nat

instance Cut.treeNode [SplitNode N V] : TreeNode (Cut N) V where
  split t :=
    match t with
    | ⟨n, 0⟩ => (val n, [])
    | ⟨n, d + 1⟩ => (val n, (kids n).map fun c => ⟨c, d⟩)
  size := Cut.budget
  size_lt := by
    rintro ⟨n, _ | d⟩ c h
    · simp at h
    · obtain ⟨c, _, rfl⟩ := List.mem_map.1 h
      exact Nat.lt_succ_self d

theorem Cut.val_eq [SplitNode N V] (t : Cut N) : val t = val t.node := by
  obtain ⟨n, _ | d⟩ := t <;> rfl

theorem Cut.kids_zero [SplitNode N V] (n : N) : kids (⟨n, 0⟩ : Cut N) = [] := rfl

theorem Cut.kids_succ [SplitNode N V] (n : N) (d : Nat) :
    kids (⟨n, d + 1⟩ : Cut N) = (kids n).map fun c => ⟨c, d⟩ := rfl

theorem Cut.kids_node [SplitNode N V] (t : Cut N) (h : 1 ≤ t.budget) : (kids t).map Cut.node = kids t.node := by
  obtain ⟨n, _ | d⟩ := t
  · simp at h
  · simp [Cut.kids_succ, Function.comp_def]

theorem Cut.kids_budget [SplitNode N V] (t : Cut N) {m : Nat} (h : m + 1 ≤ t.budget) : ∀ c ∈ kids t, m ≤ c.budget := by
  obtain ⟨n, _ | d⟩ := t
  · simp at h
  · intro c hc
    obtain ⟨c, _, rfl⟩ := List.mem_map.1 hc
    simpa using h

theorem Cut.unfold_node [SplitNode N V] (n : N) (d : Nat) : (unfold (⟨n, d⟩ : Cut N)).map Cut.node = cut d n := by
  induction d generalizing n with
  | zero => rw [unfold_eq, Tree.map_node, Cut.kids_zero, cut]; rfl
  | succ d ih =>
    rw [unfold_eq, Tree.map_node, Cut.kids_succ, cut]
    simp only [List.map_map]
    congr 1
    exact List.map_congr_left fun c _ => ih c

theorem Cut.treeOf_eq [SplitNode N V] (n : N) (d : Nat) : treeOf (⟨n, d⟩ : Cut N) = (cut d n).map val := by
  rw [treeOf, ← Cut.unfold_node, Tree.map_map]
  congr 1
  funext t
  exact Cut.val_eq t

/-! ## Related machines -/

section Sim
variable {S : Type u} {S' : Type v} {O : Type w} {O' : Type x}

/-- `good m s`: the machine may go on for `m` calls before it meets the difference. -/
theorem nthCall_lazy {next : S → Option O × S} {next' : S' → Option O' × S'} (f : S → S') (g : O → O')
    (good : Nat → S → Prop)
    (hstep : ∀ m s, good (m + 1) s → (next' (f s)).1 = (next s).1.map g ∧ (next' (f s)).2 = f (next s).2 ∧
      good m (next s).2) (k : Nat) {s : S} (hs : good (k + 1) s) :
    nthCall next' k (f s) = (nthCall next k s).map g := by
  induction k generalizing s with
  | zero => exact (hstep 0 s hs).1
  | succ k ih =>
    obtain ⟨_, h2, h3⟩ := hstep _ s hs
    have := ih h3
    rw [← h2] at this
    exact this

theorem nthCallE_lazy {next : S → Except Panic (Option O × S)} {next' : S' → Except Panic (Option O' × S')}
    (f : S → S') (g : O → O') (good : Nat → S → Prop)
    (hstep : ∀ m s o s', good (m + 1) s → next s = .ok (o, s') → next' (f s) = .ok (o.map g, f s') ∧ good m s')
    (k : Nat) {s : S} (hs : good (k + 1) s) {o : Option O} (h : nthCallE next k s = .ok o) :
    nthCallE next' k (f s) = .ok (o.map g) := by
  induction k generalizing s with
  | zero =>
    cases hn : next s with
    | error e => simp [nthCallE, stateAfterE, hn] at h
    | ok r =>
      obtain ⟨o', s'⟩ := r
      simp only [nthCallE, stateAfterE, hn] at h
      cases h
      simp only [nthCallE, stateAfterE, (hstep 0 s _ _ hs hn).1]
  | succ k ih =>
    cases hn : next s with
    | error e => simp [nthCallE, stateAfterE, hn] at h
    | ok r =>
      obtain ⟨o', s'⟩ := r
      obtain ⟨h2, h3⟩ := hstep _ s _ _ hs hn
      have := ih h3 (by simpa [nthCallE, stateAfterE, hn] using h)
      simpa [nthCallE, stateAfterE, h2] using this

end Sim

/-- All nodes in a stack or queue may be opened `m` levels deep. -/
def Deep (m : Nat) (st : List (List (Cut N))) : Prop := ∀ l ∈ st, ∀ t ∈ l, m ≤ t.budget

theorem Deep.mono {m : Nat} {st : List (List (Cut N))} (h : Deep (m + 1) st) : Deep m st :=
  fun l hl t ht => Nat.le_of_succ_le (h l hl t ht)

theorem Deep.cons {m : Nat} {l : List (Cut N)} {st : List (List (Cut N))} (hl : ∀ t ∈ l, m ≤ t.budget)
    (h : Deep m st) : Deep m (l :: st) := by
  intro l' hl' t ht
  rcases List.mem_cons.1 hl' with rfl | hl'
  · exact hl t ht
  · exact h l' hl' t ht

theorem Deep.snoc {m : Nat} {l : List (Cut N)} {st : List (List (Cut N))} (hl : ∀ t ∈ l, m ≤ t.budget)
    (h : Deep m st) : Deep m (st ++ [l]) := by
  intro l' hl' t ht
  rcases List.mem_append.1 hl' with hl' | hl'
  · exact h l' hl' t ht
  · rw [List.mem_singleton.1 hl'] at ht
    exact hl t ht

theorem Deep.tail {m : Nat} {l : List (Cut N)} {st : List (List (Cut N))} (h : Deep m (l :: st)) : Deep m st :=
  fun l' hl' => h l' (List.mem_cons_of_mem _ hl')

theorem Deep.head {m : Nat} {t : Cut N} {l : List (Cut N)} {st : List (List (Cut N))} (h : Deep m ((t :: l) :: st)) :
    m ≤ t.budget ∧ Deep m (l :: st) :=
  ⟨h _ (List.mem_cons_self ..) t (List.mem_cons_self ..),
    Deep.cons (fun t' ht' => h _ (List.mem_cons_self ..) t' (List.mem_cons_of_mem _ ht')) h.tail⟩

/-- Forget the budgets. -/
abbrev strip (st : List (List (Cut N))) : List (List N) := st.map (List.map Cut.node)

namespace Preorder

def State.strip (s : State (Cut N)) : State N := ⟨s.root.map Cut.node, TreeIter.strip s.stack⟩

def State.good (m : Nat) (s : State (Cut N)) : Prop := (∀ t ∈ s.root, m ≤ t.budget) ∧ Deep m s.stack

theorem loop_strip (st : List (List (Cut N))) :
    loop (TreeIter.strip st) = ((loop st).1.map Cut.node, TreeIter.strip (loop st).2) := by
  fun_induction loop st with
  | case1 => rfl
  | case2 rest ih => simpa [TreeIter.strip, loop] using ih
  | case3 n ns rest => rfl

theorem loop_deep {m : Nat} (st : List (List (Cut N))) (h : Deep m st) :
    (∀ t ∈ (loop st).1, m ≤ t.budget) ∧ Deep m (loop st).2 := by
  fun_induction loop st with
  | case1 => exact ⟨by simp, h⟩
  | case2 rest ih => exact ih h.tail
  | case3 n ns rest => exact ⟨by simpa using h.head.1, h.head.2⟩

theorem next_strip [SplitNode N V] (m : Nat) (s : State (Cut N)) (h : s.good (m + 1)) :
    (next s.strip).1 = (next s).1.map id ∧ (next s.strip).2 = (next s).2.strip ∧ (next s).2.good m := by
  obtain ⟨root, st⟩ := s
  obtain ⟨h1, h2⟩ := h
  cases root with
  | some t =>
    have ht : m + 1 ≤ t.budget := h1 t rfl
    simp only [next, State.strip, Option.map_some, Cut.val_eq, id]
    refine ⟨trivial, ?_, by simp, Deep.cons (t.kids_budget ht) h2.mono⟩
    simp [TreeIter.strip, Cut.kids_node t (by omega)]
  | none =>
    have e := loop_strip st
    obtain ⟨g1, g2⟩ := loop_deep st h2
    simp only [next, State.strip, Option.map_none, e]
    generalize loop st = r at *
    obtain ⟨_ | t, st'⟩ := r
    · exact ⟨rfl, rfl, by simp, g2.mono⟩
    · have ht : m + 1 ≤ t.budget := g1 t rfl
      simp only [Option.map_some, Cut.val_eq, id]
      refine ⟨trivial, ?_, by simp, Deep.cons (t.kids_budget ht) g2.mono⟩
      simp [TreeIter.strip, Cut.kids_node t (by omega)]

/-! ### Ancestors -/

def AncState.strip (s : AncState (Cut N) V) : AncState N V := ⟨s.root.map Cut.node, TreeIter.strip s.stack, s.items⟩

def AncState.good (m : Nat) (s : AncState (Cut N) V) : Prop := (∀ t ∈ s.root, m ≤ t.budget) ∧ Deep m s.stack

theorem ancLoop_strip (st : List (List (Cut N))) (it : List V) :
    ancLoop (TreeIter.strip st) it =
      ((ancLoop st it).1.map Cut.node, TreeIter.strip (ancLoop st it).2.1, (ancLoop st it).2.2) := by
  fun_induction ancLoop st it with
  | case1 => rfl
  | case2 rest it ih => simpa [TreeIter.strip, ancLoop] using ih
  | case3 n ns rest => rfl

theorem ancLoop_deep {m : Nat} (st : List (List (Cut N))) (it : List V) (h : Deep m st) :
    (∀ t ∈ (ancLoop st it).1, m ≤ t.budget) ∧ Deep m (ancLoop st it).2.1 := by
  fun_induction ancLoop st it with
  | case1 => exact ⟨by simp, h⟩
  | case2 rest it ih => exact ih h.tail
  | case3 n ns rest => exact ⟨by simpa using h.head.1, h.head.2⟩

theorem ancAdvance_strip [SplitNode N V] (m : Nat) (s : AncState (Cut N) V) (h : s.good (m + 1)) :
    ancAdvance s.strip = (ancAdvance s).strip ∧ (ancAdvance s).good m := by
  obtain ⟨root, st, it⟩ := s
  obtain ⟨h1, h2⟩ := h
  cases root with
  | some t =>
    have ht : m + 1 ≤ t.budget := h1 t rfl
    refine ⟨?_, by simp [ancAdvance], Deep.cons (t.kids_budget ht) h2.mono⟩
    simp [ancAdvance, AncState.strip, TreeIter.strip, Cut.val_eq, Cut.kids_node t (by omega)]
  | none =>
    have e := ancLoop_strip st it
    obtain ⟨g1, g2⟩ := ancLoop_deep st it h2
    simp only [ancAdvance, AncState.strip, Option.map_none, e]
    generalize ancLoop st it = r at *
    obtain ⟨_ | t, st', it'⟩ := r
    · exact ⟨rfl, by simp, g2.mono⟩
    · have ht : m + 1 ≤ t.budget := g1 t rfl
      refine ⟨?_, by simp, Deep.cons (t.kids_budget ht) g2.mono⟩
      simp [TreeIter.strip, Cut.val_eq, Cut.kids_node t (by omega)]

theorem ancNext_strip [SplitNode N V] (m : Nat) (s : AncState (Cut N) V) (h : s.good (m + 1)) :
    (ancNext s.strip).1 = (ancNext s).1.map id ∧ (ancNext s.strip).2 = (ancNext s).2.strip ∧ (ancNext s).2.good m := by
  obtain ⟨h1, h2⟩ := ancAdvance_strip m s h
  simp only [ancNext, streamNext, h1, Option.map_id, id]
  exact ⟨rfl, trivial, h2⟩

/-! ### Contexts -/

def CtxState.strip (s : CtxState (Cut N) V) : CtxState N V :=
  ⟨s.root.map Cut.node, TreeIter.strip s.stack, s.path, s.ancestors, s.children.map (List.map Cut.node)⟩

def CtxState.good (m : Nat) (s : CtxState (Cut N) V) : Prop :=
  (∀ t ∈ s.root, m ≤ t.budget) ∧ Deep m s.stack ∧ ∀ cs ∈ s.children, ∀ t ∈ cs, m ≤ t.budget

theorem ctxLoop_strip {m : Nat} (st : List (List (Cut N))) (path : List Nat) (anc : List V) (h : Deep m st)
    {r} (hr : ctxLoop st path anc = .ok r) :
    ctxLoop (TreeIter.strip st) path anc = .ok (r.1.map Cut.node, TreeIter.strip r.2.1, r.2.2) ∧
      (∀ t ∈ r.1, m ≤ t.budget) ∧ Deep m r.2.1 := by
  fun_induction ctxLoop st path anc with
  | case1 => cases hr; exact ⟨rfl, by simp, h⟩
  | case2 path anc rest ih => simpa [TreeIter.strip, ctxLoop] using ih h.tail hr
  | case3 => cases hr; exact ⟨rfl, by simpa using h.head.1, h.head.2⟩
  | case4 => cases hr

theorem ctxFinish_strip [SplitNode N V] (m : Nat) (r : Option (Cut N) × List (List (Cut N)) × List Nat × List V)
    (h1 : ∀ t ∈ r.1, m + 1 ≤ t.budget) (h2 : Deep (m + 1) r.2.1) :
    Except.ok (ε := Panic) (ctxFinish (r.1.map Cut.node, TreeIter.strip r.2.1, r.2.2)) = .ok (ctxFinish r).strip ∧
      (ctxFinish r).good m := by
  obtain ⟨_ | t, st', path', anc'⟩ := r
  · exact ⟨rfl, by simp [ctxFinish], h2.mono, by simp [ctxFinish]⟩
  · have ht : m + 1 ≤ t.budget := h1 t rfl
    refine ⟨?_, by simp [ctxFinish], h2.mono, ?_⟩
    · simp [ctxFinish, CtxState.strip, Cut.val_eq, Cut.kids_node t (by omega)]
    · simpa [ctxFinish] using t.kids_budget ht

theorem ctxAdvance_strip [SplitNode N V] (m : Nat) (s s' : CtxState (Cut N) V) (h : s.good (m + 1))
    (hs : ctxAdvance s = .ok s') : ctxAdvance s.strip = .ok s'.strip ∧ s'.good m := by
  obtain ⟨root, st, path, anc, cs⟩ := s
  obtain ⟨h1, h2, h3⟩ := h
  simp only at h1 h2 h3
  cases root with
  | some t =>
    have ht : m + 1 ≤ t.budget := h1 t rfl
    simp only [ctxAdvance] at hs
    cases hs
    refine ⟨?_, by simp, h2.mono, ?_⟩
    · simp [ctxAdvance, CtxState.strip, Cut.val_eq, Cut.kids_node t (by omega)]
    · simpa using t.kids_budget ht
  | none =>
    simp only [ctxAdvance, CtxState.strip, Option.map_none] at hs ⊢
    by_cases he : anc.isEmpty
    · simp only [he, if_true] at hs ⊢
      cases hs
      exact ⟨rfl, by simp, h2.mono, fun cs hcs t ht => Nat.le_of_succ_le (h3 cs hcs t ht)⟩
    · simp only [he, Bool.false_eq_true, if_false] at hs ⊢
      cases cs with
      | none =>
        dsimp only [Option.map_none] at hs ⊢
        by_cases hp : path.head? = some usizeMax
        · simp only [hp, if_true] at hs ⊢
          cases hc : ctxLoop st path.tail anc.tail with
          | error e => simp [hc] at hs
          | ok r =>
            obtain ⟨g1, g2⟩ := ctxLoop_strip st path.tail anc.tail h2 hc
            simp only [hc, Except.ok.injEq] at hs
            simp only [g1, ← hs]
            exact ctxFinish_strip m r g2.1 g2.2
        · simp only [hp, if_false] at hs ⊢
          cases hc : ctxLoop st path anc.tail with
          | error e => simp [hc] at hs
          | ok r =>
            obtain ⟨g1, g2⟩ := ctxLoop_strip st path anc.tail h2 hc
            simp only [hc, Except.ok.injEq] at hs
            simp only [g1, ← hs]
            exact ctxFinish_strip m r g2.1 g2.2
      | some cs =>
        dsimp only [Option.map_some] at hs ⊢
        cases hc : ctxLoop (cs :: st) (usizeMax :: path) anc with
        | error e => simp [hc] at hs
        | ok r =>
          obtain ⟨g1, g2⟩ := ctxLoop_strip (cs :: st) (usizeMax :: path) anc (Deep.cons (h3 cs rfl) h2) hc
          simp only [TreeIter.strip, List.map_cons] at g1
          simp only [hc, Except.ok.injEq] at hs
          simp only [TreeIter.strip, g1, ← hs]
          exact ctxFinish_strip m r g2.1 g2.2

/-- Forget the budgets of the children. -/
def _root_.TreeIter.Ctx.strip (c : Ctx V (List (Cut N))) : Ctx V (List N) :=
  ⟨c.path, c.ancestors, c.children.map (List.map Cut.node)⟩

theorem ctxNext_strip [SplitNode N V] (m : Nat) (s : CtxState (Cut N) V) (o : Option (Ctx V (List (Cut N))))
    (s' : CtxState (Cut N) V) (h : s.good (m + 1)) (hs : ctxNext s = .ok (o, s')) :
    ctxNext s.strip = .ok (o.map Ctx.strip, s'.strip) ∧ s'.good m := by
  simp only [ctxNext, streamNextE] at hs ⊢
  cases ha : ctxAdvance s with
  | error e => simp [ha] at hs
  | ok r =>
    simp only [ha, Except.ok.injEq, Prod.mk.injEq] at hs
    obtain ⟨rfl, rfl⟩ := hs
    obtain ⟨g1, g2⟩ := ctxAdvance_strip m s r h ha
    simp only [g1]
    refine ⟨?_, g2⟩
    simp only [ctxGet, CtxState.strip]
    by_cases he : r.ancestors.isEmpty <;> simp [he, Ctx.strip]

end Preorder

namespace Bfs

def State.strip (s : State (Cut N)) : State N := ⟨s.root.map Cut.node, TreeIter.strip s.queue⟩

def State.good (m : Nat) (s : State (Cut N)) : Prop := (∀ t ∈ s.root, m ≤ t.budget) ∧ Deep m s.queue

theorem loop_lazy [SplitNode N V] (m : Nat) (q : List (List (Cut N))) (h : Deep (m + 1) q) :
    (loop (TreeIter.strip q)).1 = (loop q).1.map id ∧ (loop (TreeIter.strip q)).2 = (loop q).2.strip ∧
      (loop q).2.good m := by
  fun_induction loop q with
  | case1 => exact ⟨rfl, rfl, by simp, by simp [Deep]⟩
  | case2 rest ih => simpa [TreeIter.strip, loop] using ih h.tail
  | case3 t ns rest =>
    obtain ⟨ht, h⟩ := h.head
    simp only [TreeIter.strip, List.map_cons, loop, State.strip, Option.map_some, Cut.val_eq, id]
    refine ⟨trivial, ?_, by simp, Deep.snoc (t.kids_budget ht) h.mono⟩
    simp [Cut.kids_node t (by omega)]

theorem next_lazy [SplitNode N V] (m : Nat) (s : State (Cut N)) (h : s.good (m + 1)) :
    (next s.strip).1 = (next s).1.map id ∧ (next s.strip).2 = (next s).2.strip ∧ (next s).2.good m := by
  obtain ⟨root, q⟩ := s
  obtain ⟨h1, h2⟩ := h
  cases root with
  | some t =>
    have ht : m + 1 ≤ t.budget := h1 t rfl
    simp only [next, State.strip, Option.map_some, Cut.val_eq, id]
    refine ⟨trivial, ?_, by simp, Deep.snoc (t.kids_budget ht) h2.mono⟩
    simp [TreeIter.strip, Cut.kids_node t (by omega)]
  | none => exact loop_lazy m q h2

/-! ### Ancestors -/

def AncState.strip (s : AncState (Cut N) V) : AncState N V := ⟨s.isRoot, s.cs, TreeIter.strip s.queue⟩

/-- The root has been opened when the machine is made, so before the first call the budget is one less. -/
def AncState.good (m : Nat) (s : AncState (Cut N) V) : Prop := Deep (m - s.isRoot.toNat) s.queue

theorem ancLoop_strip [SplitNode N V] (m : Nat) (q : List (List (Cut N))) (cs : CacheState V) (s' : AncState (Cut N) V)
    (h : Deep (m + 1) q) (hs : ancLoop q cs = .ok s') :
    ancLoop (TreeIter.strip q) cs = .ok s'.strip ∧ s'.good m := by
  induction q generalizing cs with
  | nil =>
    rw [ancLoop] at hs
    split at hs <;> cases hs
  | cons l q ih =>
    rw [ancLoop] at hs ⊢
    cases hc : settle cs with
    | error e => simp [hc] at hs
    | ok cs1 =>
      simp only [hc] at hs ⊢
      cases l with
      | cons t ns =>
        obtain ⟨ht, h⟩ := h.head
        simp only [Except.ok.injEq] at hs
        subst hs
        refine ⟨?_, by simpa [AncState.good] using Deep.snoc (t.kids_budget ht) h.mono⟩
        simp [TreeIter.strip, AncState.strip, Cut.val_eq, Cut.kids_node t (by omega)]
      | nil =>
        simp only [TreeIter.strip, List.map_cons, List.map_nil] at hs ⊢
        cases hr : cs1.retire with
        | error e => simp [hr] at hs
        | ok cs2 =>
          simp only [hr, List.isEmpty_map] at hs ⊢
          by_cases hq : q.isEmpty
          · simp only [hq, if_true] at hs ⊢
            cases hs
            exact ⟨rfl, by simp [AncState.good, Deep]⟩
          · simp only [hq] at hs ⊢
            exact ih cs2 h.tail hs

theorem ancNext_strip [SplitNode N V] (m : Nat) (s : AncState (Cut N) V) (o : Option (List V))
    (s' : AncState (Cut N) V) (h : s.good (m + 1)) (hs : ancNext s = .ok (o, s')) :
    ancNext s.strip = .ok (o.map id, s'.strip) ∧ s'.good m := by
  have key : ∀ s1, ancAdvance s = .ok s1 → ancAdvance s.strip = .ok s1.strip ∧ s1.good m := by
    intro s1 h1
    obtain ⟨isRoot, cs, q⟩ := s
    cases isRoot with
    | true =>
      simp only [ancAdvance, AncState.strip, if_true] at h1 ⊢
      cases h1
      exact ⟨rfl, by simpa [AncState.good] using h⟩
    | false =>
      simp only [ancAdvance, AncState.strip] at h1 ⊢
      exact ancLoop_strip m q cs s1 (by simpa [AncState.good] using h) (by simpa using h1)
  simp only [ancNext, streamNextE] at hs ⊢
  cases ha : ancAdvance s with
  | error e => simp [ha] at hs
  | ok r =>
    simp only [ha, Except.ok.injEq, Prod.mk.injEq] at hs
    obtain ⟨rfl, rfl⟩ := hs
    obtain ⟨g1, g2⟩ := key r ha
    simp only [g1, Option.map_id, id]
    exact ⟨rfl, g2⟩

/-! ### Contexts -/

def CtxState.strip (s : CtxState V (List (Cut N)) (Cut N)) : CtxState V (List N) N :=
  ⟨s.isRoot, s.cc, s.children.map (List.map Cut.node), TreeIter.strip s.queue, s.counter⟩

def CtxState.good (m : Nat) (s : CtxState V (List (Cut N)) (Cut N)) : Prop :=
  Deep (m - s.isRoot.toNat) s.queue ∧ ∀ cs ∈ s.children, ∀ t ∈ cs, m - s.isRoot.toNat ≤ t.budget

theorem ctxLoop_strip [SplitNode N V] (m : Nat) (q : List (List (Cut N))) (cc : CtxCache V) (counter : Nat)
    (s' : CtxState V (List (Cut N)) (Cut N)) (h : Deep (m + 1) q) (hs : ctxLoop q cc counter = .ok s') :
    ctxLoop (TreeIter.strip q) cc counter = .ok s'.strip ∧ s'.good m := by
  induction q generalizing cc counter with
  | nil =>
    rw [ctxLoop] at hs
    split at hs <;> cases hs
  | cons l q ih =>
    rw [ctxLoop] at hs ⊢
    cases hc : cc.settle with
    | error e => simp [hc] at hs
    | ok cc1 =>
      simp only [hc] at hs ⊢
      cases l with
      | cons t ns =>
        obtain ⟨ht, h⟩ := h.head
        simp only [TreeIter.strip, List.map_cons] at hs ⊢
        cases hk : checkedSucc counter with
        | error e => simp [hk] at hs
        | ok c' =>
          simp only [hk, Except.ok.injEq] at hs ⊢
          subst hs
          refine ⟨?_, by simpa [CtxState.good] using h.mono, by simpa [CtxState.good] using t.kids_budget ht⟩
          simp [CtxState.strip, Cut.val_eq, Cut.kids_node t (by omega)]
      | nil =>
        simp only [TreeIter.strip, List.map_cons, List.map_nil] at hs ⊢
        cases hr : cc1.retire with
        | error e => simp [hr] at hs
        | ok cc2 =>
          simp only [hr, List.isEmpty_map] at hs ⊢
          by_cases hq : q.isEmpty
          · simp only [hq, if_true] at hs ⊢
            cases hs
            exact ⟨rfl, by simp [CtxState.good, Deep]⟩
          · simp only [hq] at hs ⊢
            exact ih cc2 0 h.tail hs

theorem ctxNext_strip [SplitNode N V] (m : Nat) (s : CtxState V (List (Cut N)) (Cut N))
    (o : Option (Ctx V (List (Cut N)))) (s' : CtxState V (List (Cut N)) (Cut N)) (h : s.good (m + 1))
    (hs : ctxNext s = .ok (o, s')) :
    ctxNext s.strip = .ok (o.map Ctx.strip, s'.strip) ∧ s'.good m := by
  have key : ∀ s1, ctxAdvance s = .ok s1 → ctxAdvance s.strip = .ok s1.strip ∧ s1.good m := by
    intro s1 h1
    obtain ⟨isRoot, cc, cs, q, counter⟩ := s
    cases isRoot with
    | true =>
      simp only [ctxAdvance, CtxState.strip, if_true] at h1 ⊢
      cases h1
      exact ⟨rfl, by simpa [CtxState.good] using h⟩
    | false =>
      simp only [CtxState.good, Bool.toNat_false, Nat.sub_zero] at h
      simp only [ctxAdvance, CtxState.strip] at h1 ⊢
      by_cases he : cc.ancestors.isEmpty
      · simp only [he, if_true] at h1 ⊢
        cases h1
        refine ⟨rfl, ?_⟩
        simp only [CtxState.good, Bool.toNat_false, Nat.sub_zero]
        exact ⟨h.1.mono, fun cs hcs t ht => Nat.le_of_succ_le (h.2 cs hcs t ht)⟩
      · simp only [he] at h1 ⊢
        cases cs with
        | none => simp at h1
        | some cs =>
          have := ctxLoop_strip m (q ++ [cs]) cc counter s1 (Deep.snoc (h.2 cs rfl) h.1) (by simpa using h1)
          simpa [TreeIter.strip, CtxState.strip] using this
  simp only [ctxNext, streamNextE] at hs ⊢
  cases ha : ctxAdvance s with
  | error e => simp [ha] at hs
  | ok r =>
    simp only [ha, Except.ok.injEq, Prod.mk.injEq] at hs
    obtain ⟨rfl, rfl⟩ := hs
    obtain ⟨g1, g2⟩ := key r ha
    simp only [g1]
    refine ⟨?_, g2⟩
    simp only [ctxGet, CtxState.strip]
    by_cases he : r.cc.ancestors.isEmpty <;> simp [he, Ctx.strip]

end Bfs

end TreeIter
