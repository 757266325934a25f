import Verif.Spec.LazyIn
import Verif.Lemmas.LazyBin
import Verif.Lemmas.Inorder

/-!
# In-order traversals of trees that are infinite to the right
-/

universe u v

namespace TreeIter

variable {N : Type u} {V : Type v}

theorem cutR_zero [LeftNode N V] (n : N) : cutR 0 n = .node n ((split2 n).2.1.map (cutR 0)) none := by
  rw [cutR]
  congr 1
  split <;> simp_all

theorem cutR_succ [LeftNode N V] (d : Nat) (n : N) :
    cutR (d + 1) n = .node n ((split2 n).2.1.map (cutR (d + 1))) ((split2 n).2.2.map (cutR d)) := by
  rw [cutR]
  congr 1
  split <;> simp_all

/-- A node that shows its descendants only down to `budget` steps to the right. -/
structure CutR (N : Type u) where
  node : N
  budget : Nat

instance CutR.binNode [LeftNode N V] : BinNode (CutR N) V where
  split2 t :=
    match t with
    | ⟨n, 0⟩ => (val2 n, (split2 n).2.1.map (⟨·, 0⟩), none)
    | ⟨n, d + 1⟩ => (val2 n, (split2 n).2.1.map (⟨·, d + 1⟩), (split2 n).2.2.map (⟨·, d⟩))
  size2 t := (cutR t.budget t.node).size
  size2_left := by
    rintro ⟨n, _ | d⟩ c h
    · obtain ⟨c, hc, rfl⟩ := Option.map_eq_some_iff.1 h
      simp only [cutR_zero n, hc, Option.map_some, BinTree.size, BinTree.sizeO]
      omega
    · obtain ⟨c, hc, rfl⟩ := Option.map_eq_some_iff.1 h
      simp only [cutR_succ d n, hc, Option.map_some, BinTree.size, BinTree.sizeO]
      omega
  size2_right := by
    rintro ⟨n, _ | d⟩ c h
    · simp at h
    · obtain ⟨c, hc, rfl⟩ := Option.map_eq_some_iff.1 h
      simp only [cutR_succ d n, hc, Option.map_some, BinTree.size, BinTree.sizeO]
      omega

theorem CutR.val_eq [LeftNode N V] (t : CutR N) : val2 t = val2 t.node := by
  obtain ⟨n, _ | d⟩ := t <;> rfl

/-- Forget the budgets of two slots. -/
def CutR.strip2 (c : Option (CutR N) × Option (CutR N)) : Option N × Option N :=
  (c.1.map CutR.node, c.2.map CutR.node)

theorem CutR.left_node [LeftNode N V] (t : CutR N) : (split2 t).2.1.map CutR.node = (split2 t.node).2.1 := by
  obtain ⟨n, _ | d⟩ := t <;> simp [split2, Function.comp_def]

theorem CutR.right_node [LeftNode N V] (t : CutR N) (h : 1 ≤ t.budget) :
    (split2 t).2.2.map CutR.node = (split2 t.node).2.2 := by
  obtain ⟨n, _ | d⟩ := t
  · simp at h
  · simp [split2, Function.comp_def]

theorem CutR.kids_node [LeftNode N V] (t : CutR N) (h : 1 ≤ t.budget) :
    CutR.strip2 (split2 t).2 = (split2 t.node).2 := by
  rw [CutR.strip2, CutR.left_node, CutR.right_node t h]

theorem CutR.left_budget [LeftNode N V] (t c : CutR N) (h : (split2 t).2.1 = some c) : c.budget = t.budget := by
  obtain ⟨n, _ | d⟩ := t <;>
  · obtain ⟨c, _, rfl⟩ := Option.map_eq_some_iff.1 h
    rfl

theorem CutR.right_budget [LeftNode N V] (t c : CutR N) (h : (split2 t).2.2 = some c) : c.budget + 1 = t.budget := by
  obtain ⟨n, _ | d⟩ := t
  · simp [split2] at h
  · obtain ⟨c, _, rfl⟩ := Option.map_eq_some_iff.1 h
    rfl

theorem CutR.unfold_node [LeftNode N V] (n : N) (d : Nat) : (unfold2 (⟨n, d⟩ : CutR N)).map CutR.node = cutR d n := by
  have hm : ∀ (o : Option (BinTree (CutR N))), BinTree.mapO CutR.node o = o.map (BinTree.map CutR.node) := by
    intro o; cases o <;> rfl
  suffices ∀ t : CutR N, (unfold2 t).map CutR.node = cutR t.budget t.node from this ⟨n, d⟩
  intro t
  induction t using binNode_ind with
  | h t ihl ihr =>
    rw [unfold2_eq, BinTree.map, hm, hm]
    obtain ⟨n, _ | d⟩ := t
    · rw [cutR_zero]
      simp only [split2, Option.map_map, Option.map_none]
      congr 1
      cases hl : (split2 n).2.1 with
      | none => rfl
      | some c => exact congrArg some (ihl ⟨c, 0⟩ (by simp [split2, hl]))
    · rw [cutR_succ]
      simp only [split2, Option.map_map]
      congr 1
      · cases hl : (split2 n).2.1 with
        | none => rfl
        | some c => exact congrArg some (ihl ⟨c, d + 1⟩ (by simp [split2, hl]))
      · cases hr : (split2 n).2.2 with
        | none => rfl
        | some c => exact congrArg some (ihr ⟨c, d⟩ (by simp [split2, hr]))

theorem CutR.binTreeOf_eq [LeftNode N V] (n : N) (d : Nat) : binTreeOf (⟨n, d⟩ : CutR N) = (cutR d n).map val2 := by
  rw [binTreeOf, ← CutR.unfold_node, BinTree.map_map]
  congr 1
  funext t
  exact CutR.val_eq t

/-- Position `k` of an in-order traversal is reached with at most `k` steps to the right. -/
theorem CutR.budget_inorder [LeftNode N V] (t : CutR N) (path : List Nat) (anc : List (CutR N)) (k : Nat)
    (p : Pos (CutR N)) (h : ((unfold2 t).withPos path anc).inorder[k]? = some p) : t.budget ≤ p.item.budget + k := by
  induction t using binNode_ind generalizing path anc k with
  | h t ihl ihr =>
    rw [unfold2_eq, BinTree.withPos, BinTree.inorder] at h
    generalize hL : BinTree.inorderO (BinTree.withPosO (path ++ [0]) (anc ++ [t]) (Option.map unfold2 (split2 t).2.1)) = L at h
    by_cases hk : k < L.length
    · rw [List.getElem?_append_left hk] at h
      subst hL
      cases hl : (split2 t).2.1 with
      | none => simp [hl, BinTree.withPosO, BinTree.inorderO] at h
      | some c =>
        simp only [hl, Option.map_some, BinTree.withPosO, BinTree.inorderO] at h
        have := ihl c hl _ _ k h
        rwa [CutR.left_budget t c hl] at this
    · rw [List.getElem?_append_right (Nat.not_lt.1 hk)] at h
      obtain he | ⟨j, hj⟩ : k - L.length = 0 ∨ ∃ j, k - L.length = j + 1 := by
        cases k - L.length <;> simp
      · rw [he, List.getElem?_cons_zero] at h
        cases h
        exact Nat.le_add_right ..
      · rw [hj, List.getElem?_cons_succ] at h
        cases hr : (split2 t).2.2 with
        | none => simp [hr, BinTree.withPosO, BinTree.inorderO] at h
        | some c =>
          simp only [hr, Option.map_some, BinTree.withPosO, BinTree.inorderO] at h
          have := ihr c hr _ _ j h
          have := CutR.right_budget t c hr
          omega

/-- The nodes in a stack of slots may be opened `m` steps to the right. -/
def DeepR (m : Nat) (l : List (Option (CutR N))) : Prop := ∀ t, some t ∈ l → m ≤ t.budget

theorem DeepR.mono {m : Nat} {l : List (Option (CutR N))} (h : DeepR (m + 1) l) : DeepR m l :=
  fun t ht => Nat.le_of_succ_le (h t ht)

theorem DeepR.tail {m : Nat} {a : Option (CutR N)} {l : List (Option (CutR N))} (h : DeepR m (a :: l)) : DeepR m l :=
  fun t ht => h t (List.mem_cons_of_mem _ ht)

theorem DeepR.right [LeftNode N V] {m : Nat} {t : CutR N} {l : List (Option (CutR N))} (ht : m + 1 ≤ t.budget)
    (h : DeepR m l) : DeepR m ((split2 t).2.2 :: l) := by
  intro c hc
  rcases List.mem_cons.1 hc with hc | hc
  · have := CutR.right_budget t c hc.symm
    omega
  · exact h c hc

/-- Forget the budgets. -/
abbrev stripR (l : List (Option (CutR N))) : List (Option N) := l.map (Option.map CutR.node)

/-- Forget the budgets of the children. -/
def Ctx.stripR (c : Ctx V (Option (CutR N) × Option (CutR N))) : Ctx V (Option N × Option N) :=
  ⟨c.path, c.ancestors, c.children.map CutR.strip2⟩

theorem CutR.ctx_strip [LeftNode N V] (p : Pos (CutR N)) (h : 1 ≤ p.item.budget) :
    (Pos.ctx2 p).stripR = Pos.ctx2 (p.map CutR.node) := by
  simp only [Pos.ctx2, Ctx.stripR, Pos.map, Option.map_some, CutR.kids_node _ h, List.map_map, Ctx.mk.injEq, true_and,
    and_true]
  exact List.map_congr_left fun t _ => CutR.val_eq t

namespace Inorder

/-! ## The plain iterator -/

def State.strip (s : State (CutR N) V) : State N V := ⟨stripR s.right, s.items, s.moved⟩

def State.good (m : Nat) (s : State (CutR N) V) : Prop := DeepR m s.right

def Found.strip : Found (CutR N) → Found N
  | .ret => .ret
  | .cur o => .cur (o.map CutR.node)

theorem find_strip {m : Nat} (items : List V) (right : List (Option (CutR N))) (h : DeepR m right) :
    find items (stripR right) = ((find items right).1.strip, stripR (find items right).2) ∧
      (∀ t, (find items right).1 = .cur (some t) → m ≤ t.budget) ∧ DeepR m (find items right).2 := by
  induction right with
  | nil =>
    simp only [find, stripR, List.map_nil]
    by_cases he : items.length = 0 <;> simp [he, Found.strip, DeepR]
  | cons a rest ih =>
    simp only [find, stripR, List.map_cons, List.length_cons, List.length_map, List.isEmpty_map]
    by_cases h1 : rest.length + 1 = items.length
    · simp only [h1, if_true]
      exact ⟨by simp [Found.strip], by simp, h⟩
    · simp only [h1, if_false]
      by_cases h2 : rest.isEmpty
      · simp only [h2, if_true]
        refine ⟨by simp [Found.strip], ?_, h.tail⟩
        intro t ht
        cases ht
        exact h t (List.mem_cons_self ..)
      · simp only [h2]
        cases a with
        | some n =>
          refine ⟨by simp [Found.strip], ?_, h.tail⟩
          intro t ht
          cases ht
          exact h _ (List.mem_cons_self ..)
        | none => exact ih h.tail

theorem descend_strip [LeftNode N V] (m : Nat) (cur : Option (CutR N)) (right : List (Option (CutR N))) (items : List V)
    (hc : ∀ t ∈ cur, m + 1 ≤ t.budget) (h : DeepR m right) :
    descend (cur.map CutR.node) (stripR right) items =
        (stripR (descend cur right items).1, (descend cur right items).2) ∧ DeepR m (descend cur right items).1 := by
  fun_induction descend cur right items with
  | case1 right items => exact ⟨by simp [descend], h⟩
  | case2 n right items ih =>
    have hn : m + 1 ≤ n.budget := hc n rfl
    have := ih (fun c hc => by rw [CutR.left_budget n c hc]; exact hn) (DeepR.right hn h)
    rw [Option.map_some, descend]
    refine ⟨?_, this.2⟩
    rw [← this.1, CutR.left_node, ← CutR.right_node n (by omega), ← CutR.val_eq]
    rfl

theorem next_strip [LeftNode N V] (m : Nat) (s : State (CutR N) V) (h : s.good (m + 1)) :
    (next s.strip).1 = (next s).1.map id ∧ (next s.strip).2 = (next s).2.strip ∧ (next s).2.good m := by
  obtain ⟨right, items, moved⟩ := s
  obtain ⟨h1, h2, h3⟩ := find_strip items right h
  simp only [next, State.strip, h1, Option.map_id, id]
  generalize find items right = r at *
  obtain ⟨f, right'⟩ := r
  cases f with
  | ret => exact ⟨rfl, rfl, h3.mono⟩
  | cur o =>
    simp only [Found.strip]
    obtain ⟨g1, g2⟩ := descend_strip m o right' items (fun t ht => h2 t (by rw [Option.mem_def.1 ht])) h3.mono
    simp only [g1]
    exact ⟨trivial, trivial, g2⟩

/-! ## Contexts -/

def CtxState.strip (s : CtxState (CutR N) V) : CtxState N V :=
  ⟨stripR s.right, s.path, s.ancestors, s.children.map CutR.strip2, s.into.map CutR.strip2, s.status⟩

def CtxState.good (m : Nat) (s : CtxState (CutR N) V) : Prop := DeepR m s.right

theorem ctxFind_strip {m : Nat} (ch : Option (Option (CutR N) × Option (CutR N))) (st : List Status) (anc : List V)
    (path : List Nat) (right : List (Option (CutR N))) (into : List (Option (CutR N) × Option (CutR N)))
    (h : DeepR m right) :
    (∀ s, ctxFind ch st anc path right into = .ok (.inl s) →
      ctxFind (ch.map CutR.strip2) st anc path (stripR right) (into.map CutR.strip2) = .ok (.inl s.strip) ∧ s.good m) ∧
    (∀ n s, ctxFind ch st anc path right into = .ok (.inr (n, s)) →
      ctxFind (ch.map CutR.strip2) st anc path (stripR right) (into.map CutR.strip2) = .ok (.inr (n.node, s.strip)) ∧
        m ≤ n.budget ∧ s.good m) := by
  fun_induction ctxFind ch st anc path right into with
  | case1 ss anc path right into ih => rw [ctxFind]; exact ih h
  | case2 ss anc path right c into =>
    rw [List.map_cons, ctxFind]
    simp only [Except.ok.injEq, Sum.inl.injEq, reduceCtorEq, false_implies, implies_true, and_true]
    rintro s rfl
    exact ⟨rfl, h⟩
  | case3 => simp
  | case4 =>
    rw [stripR, List.map_nil, ctxFind]
    simp only [Except.ok.injEq, Sum.inl.injEq, reduceCtorEq, false_implies, implies_true, and_true]
    rintro s rfl
    exact ⟨rfl, by simp [CtxState.good, DeepR]⟩
  | case5 ss anc path n right into =>
    rw [stripR, List.map_cons, Option.map_some, ctxFind]
    simp only [Except.ok.injEq, Sum.inr.injEq, reduceCtorEq, false_implies, implies_true, true_and, Prod.mk.injEq]
    rintro n s ⟨rfl, rfl⟩
    exact ⟨⟨rfl, rfl⟩, h _ (List.mem_cons_self ..), h.tail⟩
  | case6 ss anc path right into ih =>
    have e : ctxFind (ch.map CutR.strip2) (.returnedSelf :: ss) anc path (stripR (none :: right)) (into.map CutR.strip2) =
        ctxFind (ch.map CutR.strip2) (.wentRight :: ss) anc path (stripR right) (into.map CutR.strip2) := by
      rw [stripR, List.map_cons, Option.map_none]
      conv_lhs => rw [ctxFind]
    rw [e]
    exact ih h.tail
  | case7 =>
    rw [stripR, List.map_nil, ctxFind]
    simp only [Except.ok.injEq, Sum.inl.injEq, reduceCtorEq, false_implies, implies_true, and_true]
    rintro s rfl
    exact ⟨rfl, by simp [CtxState.good, DeepR]⟩
  | case8 anc path n right into =>
    rw [stripR, List.map_cons, Option.map_some, ctxFind]
    simp only [Except.ok.injEq, Sum.inr.injEq, reduceCtorEq, false_implies, implies_true, true_and, Prod.mk.injEq]
    rintro n s ⟨rfl, rfl⟩
    exact ⟨⟨rfl, rfl⟩, h _ (List.mem_cons_self ..), h.tail⟩
  | case9 anc path right into ih => rw [stripR, List.map_cons, Option.map_none, ctxFind]; exact ih h.tail

theorem ctxDescend_strip [LeftNode N V] (m : Nat) (cur : Option (CutR N)) (s : CtxState (CutR N) V)
    (hc : ∀ t ∈ cur, m + 1 ≤ t.budget) (h : s.good m) :
    ctxDescend (cur.map CutR.node) s.strip = (ctxDescend cur s).strip ∧ (ctxDescend cur s).good m := by
  fun_induction ctxDescend cur s with
  | case1 s => exact ⟨by simp [ctxDescend], h⟩
  | case2 n s ih =>
    have hn : m + 1 ≤ n.budget := hc n rfl
    have := ih (fun c hc => by rw [CutR.left_budget n c hc]; exact hn) (DeepR.right hn h)
    rw [Option.map_some, ctxDescend]
    refine ⟨?_, this.2⟩
    rw [← this.1, CutR.left_node, ← CutR.right_node n (by omega), ← CutR.val_eq, ← CutR.kids_node n (by omega)]
    rfl

theorem ctxNext_strip [LeftNode N V] (m : Nat) (s : CtxState (CutR N) V)
    (o : Option (Ctx V (Option (CutR N) × Option (CutR N)))) (s' : CtxState (CutR N) V) (h : s.good (m + 1))
    (hs : ctxNext s = .ok (o, s')) :
    ctxNext s.strip = .ok (o.map Ctx.stripR, s'.strip) ∧ s'.good m := by
  have key : ∀ s1, ctxAdvance s = .ok s1 → ctxAdvance s.strip = .ok s1.strip ∧ s1.good m := by
    intro s1 h1
    obtain ⟨f1, f2⟩ := ctxFind_strip s.children s.status s.ancestors s.path s.right s.into h
    unfold ctxAdvance at h1
    unfold ctxAdvance
    cases hf : ctxFind s.children s.status s.ancestors s.path s.right s.into with
    | error e => rw [hf] at h1; cases h1
    | ok r =>
      rw [hf] at h1
      cases r with
      | inl s2 =>
        cases h1
        obtain ⟨g1, g2⟩ := f1 _ hf
        simp only [CtxState.strip] at g1 ⊢
        simp only [g1]
        exact ⟨trivial, g2.mono⟩
      | inr p =>
        obtain ⟨n, s2⟩ := p
        obtain ⟨g1, g2, g3⟩ := f2 _ _ hf
        obtain ⟨d1, d2⟩ := ctxDescend_strip m (some n) s2 (by simpa using g2) (DeepR.mono g3)
        simp only at h1
        have e : ctxFind s.strip.children s.strip.status s.strip.ancestors s.strip.path s.strip.right s.strip.into =
          .ok (.inr (n.node, s2.strip)) := g1
        rw [e]
        simp only [Option.map_some] at d1
        simp only [d1]
        generalize ctxDescend (some n) s2 = s3 at *
        obtain ⟨right, path, anc, ch, into, status⟩ := s3
        cases status with
        | nil => cases h1
        | cons st ss =>
          cases into with
          | nil => cases h1
          | cons c into => cases h1; exact ⟨rfl, d2⟩
  simp only [ctxNext, streamNextE] at hs ⊢
  cases ha : ctxAdvance s with
  | error e => simp [ha] at hs
  | ok r =>
    simp only [ha, Except.ok.injEq, Prod.mk.injEq] at hs
    obtain ⟨rfl, rfl⟩ := hs
    obtain ⟨g1, g2⟩ := key r ha
    simp only [g1]
    refine ⟨?_, g2⟩
    simp only [ctxGet, CtxState.strip]
    by_cases he : r.ancestors.isEmpty <;> simp [he, Ctx.stripR]

end Inorder

end TreeIter
