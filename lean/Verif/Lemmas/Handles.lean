import Verif.Model.Handles
import Verif.Lemmas.Bfs
import Verif.Lemmas.Postorder

/-! # Lemmas about the ownership of child collections -/

universe u v w x

namespace TreeIter

namespace Handles

variable {N : Type u} {V : Type v} {S : Type w} {O : Type x}

@[simp] theorem opened_append (a b : List (Event N)) : opened (a ++ b) = opened a ++ opened b := by
  induction a with
  | nil => rfl
  | cons e a ih => cases e <;> simp [opened, ih]

@[simp] theorem dropped_append (a b : List (Event N)) : dropped (a ++ b) = dropped a ++ dropped b := by
  induction a with
  | nil => rfl
  | cons e a ih => cases e <;> simp [dropped, ih]

@[simp] theorem opened_overwritten (o : Option (Handle N)) : opened (overwritten o) = [] := by
  cases o <;> rfl

@[simp] theorem dropped_overwritten (o : Option (Handle N)) : dropped (overwritten o) = owners o.toList := by
  cases o <;> rfl

@[simp] theorem owners_cons (h : Handle N) (st : List (Handle N)) : owners (h :: st) = h.owner :: owners st := rfl
@[simp] theorem owners_nil : owners ([] : List (Handle N)) = [] := rfl
@[simp] theorem owners_append (a b : List (Handle N)) : owners (a ++ b) = owners a ++ owners b := List.map_append
@[simp] theorem bare_cons (h : Handle N) (st : List (Handle N)) : bare (h :: st) = h.items :: bare st := rfl
@[simp] theorem bare_nil : bare ([] : List (Handle N)) = [] := rfl
@[simp] theorem bare_append (a b : List (Handle N)) : bare (a ++ b) = bare a ++ bare b := List.map_append
@[simp] theorem owner_handle [SplitNode N V] (n : N) : (handle n).owner = n := rfl
@[simp] theorem items_handle [SplitNode N V] (n : N) : (handle n).items = kids n := rfl

/-! ## Runs -/

/-- Every handle made in a step is either dropped in it or still there; `c` handles are made per node opened. -/
theorem run_perm {next : S → List (Event N) × Option O × S} (live : S → List N)
    (h : ∀ s, (dropped (next s).1 ++ live (next s).2.2).Perm (live s ++ opened (next s).1)) (k : Nat) (s : S) :
    (dropped (run next k s).1 ++ live (run next k s).2.2).Perm (live s ++ opened (run next k s).1) := by
  induction k generalizing s with
  | zero => simp [run, opened, dropped]
  | succ k ih =>
    simp only [run, opened_append, dropped_append, List.append_assoc]
    refine ((ih _).append_left _).trans ?_
    rw [← List.append_assoc, ← List.append_assoc]
    exact (h s).append_right _

/-- What is opened is what was still to be opened. -/
theorem run_open {next : S → List (Event N) × Option O × S} (todo : S → List N)
    (h : ∀ s, opened (next s).1 ++ todo (next s).2.2 = todo s) (k : Nat) (s : S) :
    opened (run next k s).1 ++ todo (run next k s).2.2 = todo s := by
  induction k generalizing s with
  | zero => simp [run, opened]
  | succ k ih =>
    simp only [run, opened_append, List.append_assoc]
    rw [ih, h]

/-- Each call opens the first of the nodes still to be opened, and no other. -/
theorem run_open_one {next : S → List (Event N) × Option O × S} (todo : S → List N)
    (h : ∀ s, opened (next s).1 = (todo s).take 1 ∧ todo (next s).2.2 = (todo s).drop 1) (k : Nat) (s : S) :
    opened (run next k s).1 = (todo s).take k ∧ todo (run next k s).2.2 = (todo s).drop k := by
  induction k generalizing s with
  | zero => simp [run, opened]
  | succ k ih =>
    simp only [run, opened_append]
    rw [(ih _).1, (ih _).2, (h s).1, (h s).2]
    cases todo s <;> simp

/-- Outputs and states are those of the machine without handles. -/
theorem run_erase {T : Type w} {next : S → List (Event N) × Option O × S} {next' : T → Option O × T} (erase : S → T)
    (h : ∀ s, next' (erase s) = ((next s).2.1, erase (next s).2.2)) (k : Nat) (s : S) :
    (run next k s).2.1 = (List.range k).map (fun j => nthCall next' j (erase s)) ∧
      erase (run next k s).2.2 = stateAfter next' k (erase s) := by
  induction k generalizing s with
  | zero => simp [run, stateAfter]
  | succ k ih =>
    obtain ⟨i1, i2⟩ := ih (next s).2.2
    constructor
    · simp only [run, i1, List.range_succ_eq_map, List.map_cons, List.map_map]
      congr 1
      · simp [nthCall, stateAfter, h]
      · apply List.map_congr_left
        intro j _
        simp [nthCall, stateAfter, h]
    · simp only [run, i2, stateAfter, h]

/-- The three facts for machines that may panic. -/
theorem runE_spec {T : Type w} {advance : S → Except Panic (List (Event N) × S)} {get : S → Option O}
    {advance' : T → Except Panic T} {get' : T → Option O} (erase : S → T) (Inv : S → Prop)
    (Step : Nat → S → List (Event N) → S → Prop)
    (herase : ∀ s, advance' (erase s) = (advance s).map fun r => erase r.2) (hget : ∀ s, get s = get' (erase s))
    (hstep : ∀ s es s', Inv s → advance s = .ok (es, s') → Step 1 s es s' ∧ Inv s')
    (hnil : ∀ s, Step 0 s [] s)
    (htrans : ∀ k s es s' es' s'', Step 1 s es s' → Step k s' es' s'' → Step (k + 1) s (es ++ es') s'')
    (k : Nat) (s : S) (hs : Inv s) (f : Nat → Option O)
    (hf : ∀ j, j < k → nthCallE (streamNextE advance' get') j (erase s) = .ok (f j)) :
    ∃ es s', runE advance get k s = .ok (es, (List.range k).map f, s') ∧ Step k s es s' ∧ Inv s' ∧
      stateAfterE (streamNextE advance' get') k (erase s) = .ok (erase s') := by
  induction k generalizing s f with
  | zero => exact ⟨[], s, rfl, hnil s, hs, rfl⟩
  | succ k ih =>
    have h0 := hf 0 (Nat.succ_pos k)
    have he := herase s
    cases ha : advance s with
    | error e =>
      rw [ha] at he
      have he : advance' (erase s) = .error e := he
      simp [nthCallE, stateAfterE, streamNextE, he] at h0
    | ok r =>
      obtain ⟨es, s1⟩ := r
      rw [ha] at he
      have he : advance' (erase s) = .ok (erase s1) := he
      obtain ⟨hs1, hi1⟩ := hstep s es s1 hs ha
      obtain ⟨es', s', h1, h2, h3, h4⟩ := ih s1 hi1 (fun j => f (j + 1)) (fun j hj => by
        have := hf (j + 1) (Nat.succ_lt_succ hj)
        rw [← this]
        simp only [nthCallE, stateAfterE, streamNextE, he])
      refine ⟨es ++ es', s', ?_, htrans _ _ _ _ _ _ hs1 h2, h3, ?_⟩
      · simp only [nthCallE, stateAfterE, streamNextE, he, Except.ok.injEq] at h0
        simp only [runE, ha, h1, List.range_succ_eq_map, List.map_cons, List.map_map, hget, h0]
        rfl
      · simp only [stateAfterE, streamNextE, he]
        exact h4

/-! ## Preorder -/

/-- Nodes still to be opened. -/
def todoS [TreeNode N V] (st : List (Handle N)) : List N :=
  st.flatMap fun h => h.items.flatMap fun n => (unfold n).preorder

theorem preorder_unfold [TreeNode N V] (n : N) :
    (unfold n).preorder = n :: (kids n).flatMap fun c => (unfold c).preorder := by
  rw [unfold_eq, Tree.preorder_node, List.flatMap_map]

theorem todoS_handle [TreeNode N V] (n : N) (st : List (Handle N)) :
    n :: todoS (handle n :: st) = (unfold n).preorder ++ todoS st := by
  rw [preorder_unfold]
  simp [todoS]

def Pre.todo [TreeNode N V] (s : Pre N) : List N :=
  (match s.root with | some r => (unfold r).preorder | none => []) ++ todoS s.stack

theorem preNext_open [TreeNode N V] (s : Pre N) :
    opened (preNext s).1 = s.todo.take 1 ∧ (preNext s).2.2.todo = s.todo.drop 1 := by
  obtain ⟨root, stack⟩ := s
  cases root with
  | some r => simp [preNext, Pre.todo, preorder_unfold r, opened, todoS]
  | none =>
    induction stack with
    | nil => simp [preNext, preLoop, Pre.todo, todoS, opened]
    | cons h rest ih =>
      obtain ⟨o, items⟩ := h
      cases items with
      | nil =>
        simp only [preNext, preLoop, Pre.todo] at ih ⊢
        rcases hl : preLoop rest with ⟨es, _ | m, st⟩ <;> simpa [hl, opened, todoS] using ih
      | cons n ns => simp [preNext, preLoop, Pre.todo, todoS, opened, preorder_unfold n]

theorem preNext_perm [SplitNode N V] (s : Pre N) :
    (dropped (preNext s).1 ++ (preNext s).2.2.live).Perm (s.live ++ opened (preNext s).1) := by
  obtain ⟨root, stack⟩ := s
  cases root with
  | some r => simpa [preNext, Pre.live, opened, dropped] using (List.perm_append_singleton r (owners stack)).symm
  | none =>
    have key : ∀ st : List (Handle N),
        (dropped (preLoop st).1 ++ owners (preLoop st).2.2).Perm (owners st) ∧ opened (preLoop st).1 = [] := by
      intro st
      induction st with
      | nil => simp [preLoop, dropped, opened]
      | cons h rest ih =>
        obtain ⟨o, _ | ⟨n, ns⟩⟩ := h <;> simp [preLoop, dropped, opened, ih]
    obtain ⟨k1, k2⟩ := key stack
    rcases hl : preLoop stack with ⟨es, _ | m, st⟩
    · simp only [hl] at k1 k2
      simpa [preNext, hl, Pre.live, k2] using k1
    · simp only [hl] at k1 k2
      simp only [preNext, hl, Pre.live, dropped_append, opened_append, k2, dropped, opened, List.append_nil,
        List.nil_append, owners_cons, owner_handle]
      exact List.perm_middle.trans (((List.perm_cons m).2 k1).trans (List.perm_append_singleton m _).symm)

theorem preNext_erase [SplitNode N V] (s : Pre N) :
    Preorder.next s.erase = ((preNext s).2.1, (preNext s).2.2.erase) := by
  obtain ⟨root, stack⟩ := s
  cases root with
  | some r => rfl
  | none =>
    have key : ∀ st : List (Handle N), Preorder.loop (bare st) = ((preLoop st).2.1, bare (preLoop st).2.2) := by
      intro st
      induction st with
      | nil => rfl
      | cons h rest ih =>
        obtain ⟨o, _ | ⟨n, ns⟩⟩ := h
        · simpa [preLoop, Preorder.loop] using ih
        · rfl
    simp only [Preorder.next, Pre.erase, preNext, key]
    rcases preLoop stack with ⟨es, _ | m, st⟩ <;> rfl

/-! ## Postorder -/

theorem postLoop_open [TreeNode N V] (st : List (Handle N)) (items : List V) :
    opened (postLoop st items).1 ++ todoS (postLoop st items).2.2.2 = todoS st := by
  fun_induction postLoop st items with
  | case1 => rfl
  | case2 o rest => simp [opened, todoS]
  | case3 o n ns rest items r ih =>
    simp only [opened, List.cons_append]
    rw [ih, todoS_handle]
    simp [todoS]

theorem postLoop_perm [TreeNode N V] (st : List (Handle N)) (items : List V) :
    (dropped (postLoop st items).1 ++ owners (postLoop st items).2.2.2).Perm
      (owners st ++ opened (postLoop st items).1) := by
  fun_induction postLoop st items with
  | case1 => simp [dropped, opened]
  | case2 o rest => simp [dropped, opened]
  | case3 o n ns rest items r ih =>
    simp only [dropped, opened]
    refine ih.trans ?_
    simp only [owners_cons, owner_handle, List.cons_append]
    exact (List.perm_middle (a := n) (l₁ := o :: owners rest)).symm

theorem postLoop_dropped [TreeNode N V] (st : List (Handle N)) (items : List V) :
    (dropped (postLoop st items).1).length = if st = [] then 0 else 1 := by
  fun_induction postLoop st items with
  | case1 => simp [dropped]
  | case2 o rest => simp [dropped]
  | case3 o n ns rest items r ih => simpa [dropped] using ih

theorem postLoop_erase [TreeNode N V] (st : List (Handle N)) (items : List V) :
    Postorder.loop (bare st) items =
      ((postLoop st items).2.1, (postLoop st items).2.2.1, bare (postLoop st items).2.2.2) := by
  fun_induction postLoop st items with
  | case1 => simp [Postorder.loop]
  | case2 o rest => simp [Postorder.loop]
  | case3 o n ns rest items r ih => simpa [Postorder.loop] using ih

/-- One handle is dropped per value returned. -/
def Post.Paired (s : Post N V) : Prop := s.items.length = s.stack.length

theorem postLoop_paired [TreeNode N V] (st : List (Handle N)) (items : List V) (h : items.length = st.length) :
    (dropped (postLoop st items).1).length = (postLoop st items).2.1.toList.length ∧
      (postLoop st items).2.2.1.length = (postLoop st items).2.2.2.length := by
  fun_induction postLoop st items with
  | case1 items =>
    have : items = [] := List.length_eq_zero_iff.1 h
    subst this
    simp [dropped]
  | case2 o rest items =>
    cases items with
    | nil => simp at h
    | cons v items => simpa [dropped] using h
  | case3 o n ns rest items r ih => exact ih (by simpa using h)

theorem postNext_paired [TreeNode N V] (s : Post N V) (h : s.Paired) :
    (dropped (postNext s).1).length = (postNext s).2.1.toList.length ∧ (postNext s).2.2.Paired := by
  obtain ⟨_ | root, items, stack⟩ := s
  · exact postLoop_paired stack items h
  · exact postLoop_paired (handle root :: stack) (val root :: items) (by simpa [Post.Paired] using h)

theorem run_count {next : S → List (Event N) × Option O × S} (Inv : S → Prop)
    (h : ∀ s, Inv s → (dropped (next s).1).length = (next s).2.1.toList.length ∧ Inv (next s).2.2) (k : Nat) (s : S)
    (hs : Inv s) : (dropped (run next k s).1).length = ((run next k s).2.1.flatMap Option.toList).length := by
  induction k generalizing s with
  | zero => rfl
  | succ k ih =>
    simp only [run, dropped_append, List.length_append, List.flatMap_cons]
    rw [ih _ (h s hs).2, (h s hs).1]

theorem flatMap_range_getElem? (l : List O) (k : Nat) :
    ((List.range k).map fun j => l[j]?).flatMap Option.toList = l.take k := by
  induction k generalizing l with
  | zero => rfl
  | succ k ih =>
    rw [List.range_succ_eq_map, List.map_cons, List.flatMap_cons, List.map_map]
    cases l with
    | nil => simp
    | cons a l =>
      have := ih l
      simpa [Function.comp_def] using this

def Post.todo [TreeNode N V] (s : Post N V) : List N :=
  (match s.root with | some r => (unfold r).preorder | none => []) ++ todoS s.stack

theorem postNext_open [TreeNode N V] (s : Post N V) :
    opened (postNext s).1 ++ (postNext s).2.2.todo = s.todo := by
  obtain ⟨root, items, stack⟩ := s
  cases root with
  | some r =>
    simp only [postNext, Post.todo, opened, List.nil_append, List.cons_append]
    rw [postLoop_open, todoS_handle]
  | none =>
    simp only [postNext, Post.todo, List.nil_append]
    exact postLoop_open stack items

theorem postNext_perm [TreeNode N V] (s : Post N V) :
    (dropped (postNext s).1 ++ (postNext s).2.2.live).Perm (s.live ++ opened (postNext s).1) := by
  obtain ⟨root, items, stack⟩ := s
  cases root with
  | some r =>
    simp only [postNext, Post.live, opened, dropped]
    exact (postLoop_perm _ _).trans (List.perm_middle (a := r) (l₁ := owners stack)).symm
  | none => exact postLoop_perm stack items

theorem postNext_erase [TreeNode N V] (s : Post N V) :
    Postorder.next s.erase = ((postNext s).2.1, (postNext s).2.2.erase) := by
  obtain ⟨_ | root, items, stack⟩ := s
  · simp [Postorder.next, Post.erase, postNext, postLoop_erase]
  · have := postLoop_erase (handle root :: stack) (val root :: items)
    simp only [bare_cons, items_handle] at this
    simp [Postorder.next, Post.erase, postNext, this]

/-! ## Breadth first -/

def BfsH.todo [TreeNode N V] (s : BfsH N) : List N :=
  bfsF ((s.root.toList ++ s.queue.flatMap Handle.items).map unfold)

theorem bfsF_unfold [TreeNode N V] (n : N) (ns : List N) :
    bfsF ((n :: ns).map unfold) = n :: bfsF ((ns ++ kids n).map unfold) := by
  rw [List.map_cons, unfold_eq, bfsF_cons, List.map_append]

theorem bfsNext_open [TreeNode N V] (s : BfsH N) :
    opened (bfsNext s).1 = s.todo.take 1 ∧ (bfsNext s).2.2.todo = s.todo.drop 1 := by
  obtain ⟨root, queue⟩ := s
  cases root with
  | some r =>
    have := bfsF_unfold r (queue.flatMap Handle.items)
    simp only [BfsH.todo, bfsNext, Option.toList_some, List.singleton_append, this]
    simp [opened]
  | none =>
    induction queue with
    | nil => simp [bfsNext, bfsLoop, BfsH.todo, opened]
    | cons h rest ih =>
      obtain ⟨o, _ | ⟨n, ns⟩⟩ := h
      · simpa [bfsNext, bfsLoop, BfsH.todo, opened] using ih
      · have := bfsF_unfold n (ns ++ rest.flatMap Handle.items)
        simp only [BfsH.todo, bfsNext, bfsLoop, Option.toList_none, List.nil_append, List.flatMap_cons,
          List.cons_append, this]
        simp [opened]

theorem bfsNext_perm [SplitNode N V] (s : BfsH N) :
    (dropped (bfsNext s).1 ++ (bfsNext s).2.2.live).Perm (s.live ++ opened (bfsNext s).1) := by
  obtain ⟨root, queue⟩ := s
  cases root with
  | some r => simp [bfsNext, BfsH.live, opened, dropped]
  | none =>
    induction queue with
    | nil => simp [bfsNext, bfsLoop, BfsH.live, opened, dropped]
    | cons h rest ih =>
      obtain ⟨o, _ | ⟨n, ns⟩⟩ := h
      · simpa [bfsNext, bfsLoop, BfsH.live, opened, dropped] using ih
      · simp [bfsNext, bfsLoop, BfsH.live, opened, dropped]

theorem bfsNext_erase [SplitNode N V] (s : BfsH N) :
    Bfs.next s.erase = ((bfsNext s).2.1, (bfsNext s).2.2.erase) := by
  obtain ⟨root, queue⟩ := s
  cases root with
  | some r => simp [Bfs.next, BfsH.erase, bfsNext]
  | none =>
    induction queue with
    | nil => rfl
    | cons h rest ih =>
      obtain ⟨o, _ | ⟨n, ns⟩⟩ := h
      · simpa [Bfs.next, BfsH.erase, bfsNext, bfsLoop, Bfs.loop] using ih
      · simp [Bfs.next, BfsH.erase, bfsNext, bfsLoop, Bfs.loop]

/-! ## Preorder with contexts -/

def PreCtx.todo [TreeNode N V] (s : PreCtx N V) : List N :=
  (match s.root with | some r => (unfold r).preorder | none => []) ++ todoS s.children.toList ++ todoS s.stack

/-- What a step does: it opens the next nodes, and what it makes is dropped or still there. -/
def Acc (todo live : S → List N) (s : S) (es : List (Event N)) (s' : S) : Prop :=
  opened es ++ todo s' = todo s ∧ (dropped es ++ live s').Perm (live s ++ opened es)

theorem Acc.nil (todo live : S → List N) (s : S) : Acc todo live s [] s := by simp [Acc, opened, dropped]

theorem Acc.trans {todo live : S → List N} {s s' s'' : S} {es es' : List (Event N)} (h : Acc todo live s es s')
    (h' : Acc todo live s' es' s'') : Acc todo live s (es ++ es') s'' := by
  constructor
  · rw [opened_append, List.append_assoc, h'.1, h.1]
  · rw [opened_append, dropped_append, List.append_assoc]
    refine (h'.2.append_left _).trans ?_
    rw [← List.append_assoc, ← List.append_assoc]
    exact h.2.append_right _

/-- `k` steps, each of which opens the next node if there is one. -/
def AccOne (todo live : S → List N) (k : Nat) (s : S) (es : List (Event N)) (s' : S) : Prop :=
  opened es = (todo s).take k ∧ todo s' = (todo s).drop k ∧ (dropped es ++ live s').Perm (live s ++ opened es)

theorem AccOne.nil (todo live : S → List N) (s : S) : AccOne todo live 0 s [] s := by simp [AccOne, opened, dropped]

theorem AccOne.trans {todo live : S → List N} {k : Nat} {s s' s'' : S} {es es' : List (Event N)}
    (h : AccOne todo live 1 s es s') (h' : AccOne todo live k s' es' s'') :
    AccOne todo live (k + 1) s (es ++ es') s'' := by
  refine ⟨?_, ?_, ?_⟩
  · rw [opened_append, h.1, h'.1, h.2.1]
    cases todo s <;> simp
  · rw [h'.2.1, h.2.1]
    cases todo s <;> simp
  · rw [opened_append, dropped_append, List.append_assoc]
    refine (h'.2.2.append_left _).trans ?_
    rw [← List.append_assoc, ← List.append_assoc]
    exact h.2.2.append_right _

theorem preCtxLoop_spec [TreeNode N V] (st : List (Handle N)) (path : List Nat) (anc : List V) (es : List (Event N))
    (o : Option N) (st' : List (Handle N)) (path' : List Nat) (anc' : List V)
    (h : preCtxLoop st path anc = .ok (es, o, st', path', anc')) :
    opened es = [] ∧ todoS st = (o.toList.flatMap fun n => (unfold n).preorder) ++ todoS st' ∧
      (dropped es ++ owners st').Perm (owners st) ∧ (o = none → st' = []) := by
  fun_induction preCtxLoop st path anc generalizing es with
  | case1 =>
    cases h
    simp [opened, dropped]
  | case2 o rest path anc e he => simp at h
  | case3 o rest path anc es1 r he ih =>
    simp only [Except.ok.injEq, Prod.mk.injEq] at h
    obtain ⟨rfl, rfl⟩ := h
    obtain ⟨h1, h2, h3, h4⟩ := ih es1 he
    exact ⟨by simpa [opened] using h1, by simpa [todoS] using h2, by simpa [dropped] using h3, h4⟩
  | case4 o n ns rest p path anc =>
    cases h
    simp [opened, dropped, todoS]
  | case5 => cases h

theorem preCtxLoop_erase (st : List (Handle N)) (path : List Nat) (anc : List V) :
    Preorder.ctxLoop (bare st) path anc =
      (preCtxLoop st path anc).map fun r => (r.2.1, bare r.2.2.1, r.2.2.2.1, r.2.2.2.2) := by
  fun_induction preCtxLoop st path anc with
  | case1 => rfl
  | case2 o rest path anc e he ih =>
    rw [he] at ih
    simpa [Preorder.ctxLoop] using ih
  | case3 o rest path anc es1 r he ih =>
    rw [he] at ih
    simp only [bare_cons, Preorder.ctxLoop, ih]
    rfl
  | case4 o n ns rest p path anc => rfl
  | case5 => rfl

/-- Nothing is left to open when the iterator is finished; there are no children before the start. -/
def PreCtx.Inv [TreeNode N V] (s : PreCtx N V) : Prop :=
  match s.root with
  | some _ => s.children = none ∧ s.stack = []
  | none => s.ancestors.isEmpty → s.todo = []

theorem preCtxAdvance_acc [TreeNode N V] (s : PreCtx N V) (es : List (Event N)) (s' : PreCtx N V) (hi : s.Inv)
    (h : preCtxAdvance s = .ok (es, s')) :
    AccOne PreCtx.todo PreCtx.live 1 s es s' ∧ s'.Inv := by
  obtain ⟨root, stack, path, anc, children⟩ := s
  cases root with
  | some r =>
    obtain ⟨rfl, rfl⟩ : children = none ∧ stack = [] := hi
    cases h
    refine ⟨⟨?_, ?_, ?_⟩, by simp [PreCtx.Inv]⟩
    · simp [opened, PreCtx.todo, overwritten, preorder_unfold r]
    · simp [PreCtx.todo, preorder_unfold r, todoS]
    · simp [opened, dropped, PreCtx.live, overwritten]
  | none =>
    simp only [preCtxAdvance] at h
    split at h
    · cases h
      rename_i ha
      refine ⟨⟨?_, ?_, ?_⟩, hi⟩
      · rw [hi ha]; rfl
      · rw [hi ha]; rfl
      · simp [opened, dropped]
    · have key : ∀ (st : List (Handle N)) path (anc : List V) r, preCtxLoop st path anc = .ok r →
          ∀ es (s' : PreCtx N V), preCtxFinish none r = (es, s') →
          opened es = (todoS st).take 1 ∧ s'.todo = (todoS st).drop 1 ∧
            (dropped es ++ s'.live).Perm (owners st ++ opened es) ∧ s'.Inv := by
        rintro st path anc ⟨es1, o, st', path', anc'⟩ hl es s' h
        obtain ⟨h1, h2, h3, h4⟩ := preCtxLoop_spec _ _ _ _ _ _ _ _ hl
        cases o with
        | none =>
          simp only [preCtxFinish, Prod.mk.injEq] at h
          obtain ⟨rfl, rfl⟩ := h
          have h4 := h4 rfl
          subst h4
          rw [h2]
          exact ⟨by simp [h1, todoS], by simp [PreCtx.todo, todoS], by simpa [h1, PreCtx.live] using h3,
            by simp [PreCtx.Inv, PreCtx.todo, todoS]⟩
        | some n =>
          simp only [preCtxFinish, Prod.mk.injEq] at h
          obtain ⟨rfl, rfl⟩ := h
          rw [h2]
          refine ⟨?_, ?_, ?_, by simp [PreCtx.Inv]⟩
          · simp [h1, opened, overwritten, preorder_unfold n]
          · simp [PreCtx.todo, preorder_unfold n, todoS]
          · simp only [dropped_append, opened_append, h1, dropped, opened, PreCtx.live, overwritten,
              List.append_nil, List.nil_append, Option.toList_some, owners_cons, owner_handle, owners_nil]
            rw [← List.append_assoc]
            exact h3.append_right _
      cases children with
      | none =>
        simp only at h
        split at h
        · cases h
        · rename_i r hl
          obtain ⟨k1, k2, k3, k4⟩ := key _ _ _ _ hl _ _ (Except.ok.inj h)
          exact ⟨⟨by simpa [PreCtx.todo, todoS] using k1, by simpa [PreCtx.todo, todoS] using k2,
            by simpa [PreCtx.live] using k3⟩, k4⟩
      | some c =>
        simp only at h
        split at h
        · cases h
        · rename_i r hl
          obtain ⟨k1, k2, k3, k4⟩ := key _ _ _ _ hl _ _ (Except.ok.inj h)
          refine ⟨⟨by simpa [PreCtx.todo, todoS] using k1, by simpa [PreCtx.todo, todoS] using k2, k3.trans ?_⟩, k4⟩
          simp only [PreCtx.live, Option.toList_some, owners_cons, owners_nil]
          exact (List.perm_append_singleton _ _).symm.append_right _

theorem preCtxAdvance_erase [SplitNode N V] (s : PreCtx N V) :
    Preorder.ctxAdvance s.erase = (preCtxAdvance s).map fun r => r.2.erase := by
  obtain ⟨root, stack, path, anc, children⟩ := s
  cases root with
  | some r => rfl
  | none =>
    simp only [Preorder.ctxAdvance, PreCtx.erase, preCtxAdvance]
    by_cases ha : anc.isEmpty
    · simp [ha, Except.map]
    · simp only [ha, Bool.false_eq_true, if_false]
      cases children with
      | none =>
        by_cases hp : path.head? = some usizeMax
        · simp only [Option.map_none, hp, if_true, preCtxLoop_erase]
          rcases preCtxLoop stack path.tail anc.tail with e | ⟨es1, _ | n, st', path', anc'⟩ <;> rfl
        · simp only [Option.map_none, hp, if_false, preCtxLoop_erase]
          rcases preCtxLoop stack path anc.tail with e | ⟨es1, _ | n, st', path', anc'⟩ <;> rfl
      | some c =>
        have := preCtxLoop_erase (c :: stack) (usizeMax :: path) anc
        simp only [bare_cons] at this
        simp only [Option.map_some, this]
        generalize preCtxLoop (c :: stack) _ anc = r
        rcases r with e | ⟨es1, _ | n, st', path', anc'⟩ <;> rfl

/-! ## Postorder with contexts, borrowed -/

def PostCtx.todo [TreeNode N V] (s : PostCtx N V) : List N :=
  (match s.root with | some r => (unfold r).preorder | none => []) ++ todoS s.stack

/-- As `Acc`, with two handles per node opened. -/
def Acc2 (todo live : S → List N) (s : S) (es : List (Event N)) (s' : S) : Prop :=
  opened es ++ todo s' = todo s ∧ (dropped es ++ live s').Perm (live s ++ (opened es ++ opened es))

theorem Acc2.nil (todo live : S → List N) (s : S) : Acc2 todo live s [] s := by simp [Acc2, opened, dropped]

theorem perm_middle4 (a b c d e : List N) : (a ++ (b ++ c) ++ (d ++ e)).Perm (a ++ (b ++ d ++ (c ++ e))) := by
  simp only [List.append_assoc]
  refine List.Perm.append_left _ (List.Perm.append_left _ ?_)
  rw [← List.append_assoc, ← List.append_assoc]
  exact List.perm_append_comm.append_right _

theorem Acc2.trans {todo live : S → List N} {s s' s'' : S} {es es' : List (Event N)} (h : Acc2 todo live s es s')
    (h' : Acc2 todo live s' es' s'') : Acc2 todo live s (es ++ es') s'' := by
  constructor
  · rw [opened_append, List.append_assoc, h'.1, h.1]
  · rw [opened_append, dropped_append, List.append_assoc]
    refine (h'.2.append_left _).trans ?_
    rw [← List.append_assoc]
    exact (h.2.append_right _).trans (perm_middle4 ..)

theorem postCtxLoop_spec [TreeNode N V] (old : Option (Handle N)) (st into : List (Handle N)) (path : List Nat)
    (anc : List V) (es : List (Event N)) (s' : PostCtx N V) (h : postCtxLoop old st into path anc = .ok (es, s')) :
    opened es ++ s'.todo = todoS st ∧
      (dropped es ++ s'.live).Perm (owners st ++ owners into ++ owners old.toList ++ (opened es ++ opened es)) ∧
      s'.root = none := by
  fun_induction postCtxLoop old st into path anc generalizing es with
  | case1 o n ns rest into p path anc e he => simp at h
  | case2 o n ns rest into p path anc es1 s1 he ih =>
    simp only [Except.ok.injEq, Prod.mk.injEq] at h
    obtain ⟨rfl, rfl⟩ := h
    obtain ⟨h1, h2, h3⟩ := ih es1 he
    refine ⟨?_, ?_, h3⟩
    · rw [opened, List.cons_append, h1, todoS_handle]
      simp [todoS]
    · refine h2.trans ?_
      simp only [opened, owners_cons, owner_handle]
      classical
      rw [List.perm_iff_count]
      intro a
      simp only [List.count_append, List.count_cons]
      omega
  | case3 => simp at h
  | case4 o rest c into path anc =>
    cases h
    refine ⟨by simp [opened, PostCtx.todo, todoS], ?_, rfl⟩
    simp only [dropped_append, opened_append, dropped_overwritten, opened_overwritten, PostCtx.live, opened, dropped,
      Option.toList_some, owners_cons, owners_nil]
    classical
    rw [List.perm_iff_count]
    intro a
    simp only [List.count_append, List.count_cons, List.count_nil]
    omega
  | case5 c into path anc =>
    cases h
    refine ⟨by simp [PostCtx.todo, todoS], ?_, rfl⟩
    simp only [dropped_overwritten, opened_overwritten, PostCtx.live,
      Option.toList_some, owners_cons, owners_nil]
    classical
    rw [List.perm_iff_count]
    intro a
    simp only [List.count_append, List.count_cons, List.count_nil]
    omega
  | case6 => simp at h
  | case7 => simp at h

theorem postCtxAdvance_acc [TreeNode N V] (s s' : PostCtx N V) (es : List (Event N))
    (h : postCtxAdvance s = .ok (es, s')) : Acc2 PostCtx.todo PostCtx.live s es s' := by
  obtain ⟨root, stack, into, path, anc, children⟩ := s
  cases root with
  | some r =>
    simp only [postCtxAdvance] at h
    split at h
    · cases h
    · rename_i es1 s1 hl
      simp only [Except.ok.injEq, Prod.mk.injEq] at h
      obtain ⟨rfl, rfl⟩ := h
      obtain ⟨h1, h2, _⟩ := postCtxLoop_spec _ _ _ _ _ _ _ hl
      constructor
      · rw [opened, List.cons_append, h1, todoS_handle]
        simp [PostCtx.todo]
      · refine h2.trans ?_
        simp only [opened, PostCtx.live, owners_cons, owner_handle]
        classical
        rw [List.perm_iff_count]
        intro a
        simp only [List.count_append, List.count_cons]
        omega
  | none =>
    simp only [postCtxAdvance] at h
    split at h
    · cases h
      simp [Acc2, opened, dropped, PostCtx.todo, PostCtx.live]
    · obtain ⟨h1, h2, _⟩ := postCtxLoop_spec _ _ _ _ _ _ _ h
      exact ⟨by simpa [PostCtx.todo] using h1, h2⟩

theorem postCtxLoop_erase [TreeNode N V] (old : Option (Handle N)) (st into : List (Handle N)) (path : List Nat)
    (anc : List V) :
    Postorder.ctxLoop (bare st) (bare into) path anc = (postCtxLoop old st into path anc).map fun r => r.2.erase := by
  fun_induction postCtxLoop old st into path anc with
  | case1 o n ns rest into p path anc e he ih =>
    rw [he] at ih
    rw [bare_cons, Postorder.ctxLoop]
    exact ih
  | case2 o n ns rest into p path anc es1 s1 he ih =>
    rw [he] at ih
    rw [bare_cons, Postorder.ctxLoop]
    exact ih
  | case3 => simp [Postorder.ctxLoop, Except.map]
  | case4 o rest c into path anc => simp [Postorder.ctxLoop, Except.map, PostCtx.erase]
  | case5 c into path anc => simp [Postorder.ctxLoop, Except.map, PostCtx.erase]
  | case6 => simp [Postorder.ctxLoop, Except.map]
  | case7 => simp [Postorder.ctxLoop, Except.map]

theorem postCtxAdvance_erase [TreeNode N V] (s : PostCtx N V) :
    Postorder.ctxAdvance s.erase = (postCtxAdvance s).map fun r => r.2.erase := by
  obtain ⟨root, stack, into, path, anc, children⟩ := s
  cases root with
  | some r =>
    have := postCtxLoop_erase children (handle r :: stack) (handle r :: into) (usizeMax :: path) (val r :: anc)
    simp only [bare_cons, items_handle] at this
    simp only [Postorder.ctxAdvance, PostCtx.erase, postCtxAdvance, this]
    generalize postCtxLoop children _ _ _ _ = x
    rcases x with e | ⟨es, s⟩ <;> rfl
  | none =>
    simp only [Postorder.ctxAdvance, PostCtx.erase, postCtxAdvance]
    by_cases ha : anc.tail.isEmpty
    · simp [ha, Except.map]
    · simp only [ha, Bool.false_eq_true, if_false]
      exact postCtxLoop_erase ..

/-- The two stacks go in step, and the handle in the context has been dropped before. -/
def PostCtx.Twin (s : PostCtx N V) : Prop := owners s.stack = owners s.into

theorem postCtxLoop_twin [TreeNode N V] (old : Option (Handle N)) (st into : List (Handle N)) (path : List Nat)
    (anc : List V) (es : List (Event N)) (s' : PostCtx N V) (hi : owners st = owners into)
    (h : postCtxLoop old st into path anc = .ok (es, s')) :
    s'.Twin ∧ ∃ c, s'.children = some c ∧ c.owner ∈ dropped es := by
  fun_induction postCtxLoop old st into path anc generalizing es with
  | case1 o n ns rest into p path anc e he => simp at h
  | case2 o n ns rest into p path anc es1 s1 he ih =>
    simp only [Except.ok.injEq, Prod.mk.injEq] at h
    obtain ⟨rfl, rfl⟩ := h
    exact ih es1 (by simpa using hi) he
  | case3 => simp at h
  | case4 o rest c into path anc =>
    cases h
    simp only [owners_cons, List.cons.injEq] at hi
    exact ⟨hi.2, c, rfl, by simp [dropped, hi.1]⟩
  | case5 c into path anc => simp at hi
  | case6 => simp at h
  | case7 => simp at h

/-- The children in the context have been dropped, unless they are those from before. -/
def Stale (s : PostCtx N V) (es : List (Event N)) (s' : PostCtx N V) : Prop :=
  s'.children = s.children ∨ ∃ c, s'.children = some c ∧ c.owner ∈ dropped es

theorem Stale.trans {s s' s'' : PostCtx N V} {es es' : List (Event N)} (h : Stale s es s') (h' : Stale s' es' s'') :
    Stale s (es ++ es') s'' := by
  rcases h' with h' | ⟨c, h1, h2⟩
  · rcases h with h | ⟨c, h1, h2⟩
    · exact .inl (h'.trans h)
    · exact .inr ⟨c, h'.trans h1, by simp [h2]⟩
  · exact .inr ⟨c, h1, by simp [h2]⟩

theorem postCtxAdvance_stale [TreeNode N V] (s : PostCtx N V) (es : List (Event N)) (s' : PostCtx N V) (hi : s.Twin)
    (h : postCtxAdvance s = .ok (es, s')) : Stale s es s' ∧ s'.Twin := by
  obtain ⟨root, stack, into, path, anc, children⟩ := s
  simp only [PostCtx.Twin] at hi
  cases root with
  | some r =>
    simp only [postCtxAdvance] at h
    split at h
    · cases h
    · rename_i es1 s1 hl
      simp only [Except.ok.injEq, Prod.mk.injEq] at h
      obtain ⟨rfl, rfl⟩ := h
      obtain ⟨h1, h2⟩ := postCtxLoop_twin _ _ _ _ _ _ _ (by simpa using hi) hl
      exact ⟨.inr h2, h1⟩
  | none =>
    simp only [postCtxAdvance] at h
    split at h
    · cases h
      exact ⟨.inl rfl, hi⟩
    · obtain ⟨h1, h2⟩ := postCtxLoop_twin _ _ _ _ _ _ _ hi h
      exact ⟨.inr h2, h1⟩

theorem postCtxAdvance_first [TreeNode N V] (n : N) (path : List Nat) (es : List (Event N)) (s' : PostCtx N V)
    (h : postCtxAdvance (PostCtx.new n path) = .ok (es, s')) : ∃ es', es = .opened n :: es' := by
  simp only [postCtxAdvance, PostCtx.new] at h
  split at h
  · cases h
  · simp only [Except.ok.injEq, Prod.mk.injEq] at h
    exact ⟨_, h.1.symm⟩

/-! ## Postorder with contexts, owned -/

def OwnPostCtx.todo [TreeNode N V] (s : OwnPostCtx N V) : List N :=
  (match s.root with | some r => (unfold r).preorder | none => []) ++ todoS s.stack

theorem ownPostCtxLoop_spec [TreeNode N V] (st : List (Handle N)) (path : List Nat)
    (anc : List V) (es : List (Event N)) (s' : OwnPostCtx N V) (h : ownPostCtxLoop st path anc = .ok (es, s')) :
    opened es ++ s'.todo = todoS st ∧ (dropped es ++ s'.live).Perm (owners st ++ opened es) := by
  fun_induction ownPostCtxLoop st path anc generalizing es with
  | case1 o n ns rest p path anc e he => simp at h
  | case2 o n ns rest p path anc es1 s1 he ih =>
    simp only [Except.ok.injEq, Prod.mk.injEq] at h
    obtain ⟨rfl, rfl⟩ := h
    obtain ⟨h1, h2⟩ := ih es1 he
    refine ⟨?_, ?_⟩
    · rw [opened, List.cons_append, h1, todoS_handle]
      simp [todoS]
    · refine h2.trans ?_
      simp only [owners_cons, owner_handle, List.cons_append, opened]
      exact (List.perm_middle (a := n) (l₁ := o :: owners rest)).symm
  | case3 => simp at h
  | case4 o rest path anc =>
    cases h
    simp [opened, dropped, OwnPostCtx.todo, OwnPostCtx.live, todoS]
  | case5 path anc =>
    cases h
    simp [opened, dropped, OwnPostCtx.todo, OwnPostCtx.live, todoS]

theorem ownPostCtxAdvance_acc [TreeNode N V] (s s' : OwnPostCtx N V) (es : List (Event N))
    (h : ownPostCtxAdvance s = .ok (es, s')) : Acc OwnPostCtx.todo OwnPostCtx.live s es s' := by
  obtain ⟨root, stack, path, anc⟩ := s
  cases root with
  | some r =>
    simp only [ownPostCtxAdvance] at h
    split at h
    · cases h
    · rename_i es1 s1 hl
      simp only [Except.ok.injEq, Prod.mk.injEq] at h
      obtain ⟨rfl, rfl⟩ := h
      obtain ⟨h1, h2⟩ := ownPostCtxLoop_spec _ _ _ _ _ hl
      constructor
      · rw [opened, List.cons_append, h1, todoS_handle]
        simp [OwnPostCtx.todo]
      · exact h2.trans (List.perm_middle (a := r) (l₁ := owners stack)).symm
  | none =>
    simp only [ownPostCtxAdvance] at h
    split at h
    · cases h
      simp [Acc, opened, dropped, OwnPostCtx.todo, OwnPostCtx.live]
    · obtain ⟨h1, h2⟩ := ownPostCtxLoop_spec _ _ _ _ _ h
      exact ⟨by simpa [OwnPostCtx.todo] using h1, h2⟩

theorem ownPostCtxLoop_erase [TreeNode N V] (st : List (Handle N)) (path : List Nat) (anc : List V) :
    Postorder.ownCtxLoop (bare st) path anc = (ownPostCtxLoop st path anc).map fun r => r.2.erase := by
  fun_induction ownPostCtxLoop st path anc with
  | case1 o n ns rest p path anc e he ih =>
    rw [he] at ih
    rw [bare_cons, Postorder.ownCtxLoop]
    exact ih
  | case2 o n ns rest p path anc es1 s1 he ih =>
    rw [he] at ih
    rw [bare_cons, Postorder.ownCtxLoop]
    exact ih
  | case3 => simp [Postorder.ownCtxLoop, Except.map]
  | case4 o rest path anc => simp [Postorder.ownCtxLoop, Except.map, OwnPostCtx.erase]
  | case5 path anc => simp [Postorder.ownCtxLoop, Except.map, OwnPostCtx.erase]

theorem ownPostCtxAdvance_erase [TreeNode N V] (s : OwnPostCtx N V) :
    Postorder.ownCtxAdvance s.erase = (ownPostCtxAdvance s).map fun r => r.2.erase := by
  obtain ⟨root, stack, path, anc⟩ := s
  cases root with
  | some r =>
    have := ownPostCtxLoop_erase (handle r :: stack) (usizeMax :: path) (val r :: anc)
    simp only [bare_cons, items_handle] at this
    simp only [Postorder.ownCtxAdvance, OwnPostCtx.erase, ownPostCtxAdvance, this]
    rcases ownPostCtxLoop (handle r :: stack) (usizeMax :: path) (val r :: anc) with e | ⟨es, s⟩ <;> rfl
  | none =>
    simp only [Postorder.ownCtxAdvance, OwnPostCtx.erase, ownPostCtxAdvance]
    by_cases ha : anc.tail.isEmpty
    · simp [ha, Except.map]
    · simp only [ha, Bool.false_eq_true, if_false]
      exact ownPostCtxLoop_erase ..

/-! ## Breadth first with contexts -/

def BfsCtxH.todo [TreeNode N V] (s : BfsCtxH N V) : List N :=
  bfsF ((s.queue.flatMap Handle.items ++ s.children.toList.flatMap Handle.items).map unfold)

/-- Nothing is left to open when the iterator is finished. -/
def BfsCtxH.Inv [TreeNode N V] (s : BfsCtxH N V) : Prop :=
  s.isRoot = false ∧ (s.cc.ancestors.isEmpty → s.todo = [])

theorem bfsCtxLoop_spec [TreeNode N V] (queue : List (Handle N)) (cc : Bfs.CtxCache V) (counter : Nat)
    (es : List (Event N)) (s' : BfsCtxH N V) (h : bfsCtxLoop queue cc counter = .ok (es, s')) :
    opened es = (bfsF ((queue.flatMap Handle.items).map unfold)).take 1 ∧
      s'.todo = (bfsF ((queue.flatMap Handle.items).map unfold)).drop 1 ∧
      (dropped es ++ s'.live).Perm (owners queue ++ opened es) ∧ s'.Inv := by
  fun_induction bfsCtxLoop queue cc counter generalizing es with
  | case1 => simp_all
  | case2 => simp_all
  | case3 => simp_all
  | case4 cc counter cc1 hs o n ns q counter' hc =>
    cases h
    have := bfsF_unfold (N := N) (V := V) n (ns ++ q.flatMap Handle.items)
    simp only [List.flatMap_cons, List.cons_append, this]
    refine ⟨?_, ?_, ?_, ?_⟩
    · simp [opened]
    · simp [BfsCtxH.todo]
    · simp [opened, dropped, BfsCtxH.live]
    · simp [BfsCtxH.Inv]
  | case5 => simp_all
  | case6 cc counter cc1 hs o q cc2 hr he =>
    cases h
    have : q = [] := List.isEmpty_iff.1 he
    subst this
    simp [opened, dropped, BfsCtxH.todo, BfsCtxH.live, BfsCtxH.Inv]
  | case7 => simp_all
  | case8 cc counter cc1 hs o q cc2 hr he es1 s1 hl ih =>
    cases h
    obtain ⟨h1, h2, h3, h4⟩ := ih es1 hl
    exact ⟨by simpa [opened] using h1, by simpa using h2, by simpa [dropped, opened] using h3, h4⟩

theorem bfsCtxAdvance_acc [TreeNode N V] (s : BfsCtxH N V) (es : List (Event N)) (s' : BfsCtxH N V) (hi : s.Inv)
    (h : bfsCtxAdvance s = .ok (es, s')) : AccOne BfsCtxH.todo BfsCtxH.live 1 s es s' ∧ s'.Inv := by
  obtain ⟨isRoot, cc, children, queue, counter⟩ := s
  obtain ⟨rfl, hi2⟩ : isRoot = false ∧ _ := hi
  simp only [bfsCtxAdvance, Bool.false_eq_true, if_false] at h
  split at h
  · cases h
    rename_i ha
    have hi2 := hi2 ha
    refine ⟨⟨?_, ?_, ?_⟩, rfl, fun _ => hi2⟩
    · rw [hi2]; rfl
    · rw [hi2]; rfl
    · simp [opened, dropped]
  · cases children with
    | none => cases h
    | some c =>
      obtain ⟨h1, h2, h3, h4⟩ := bfsCtxLoop_spec _ _ _ _ _ h
      exact ⟨⟨by simpa [BfsCtxH.todo] using h1, by simpa [BfsCtxH.todo] using h2, by simpa [BfsCtxH.live] using h3⟩, h4⟩

theorem bfsCtxLoop_erase [SplitNode N V] (queue : List (Handle N)) (cc : Bfs.CtxCache V) (counter : Nat) :
    Bfs.ctxLoop (bare queue) cc counter = (bfsCtxLoop queue cc counter).map fun r => r.2.erase := by
  fun_induction bfsCtxLoop queue cc counter with
  | case1 => rw [Bfs.ctxLoop]; simp_all [Except.map]
  | case2 => rw [Bfs.ctxLoop]; simp_all [Except.map]
  | case3 => rw [Bfs.ctxLoop]; simp_all [Except.map]
  | case4 => rw [Bfs.ctxLoop]; simp_all [Except.map, BfsCtxH.erase]
  | case5 => rw [Bfs.ctxLoop]; simp_all [Except.map]
  | case6 => rw [Bfs.ctxLoop]; simp_all [Except.map, BfsCtxH.erase]
  | case7 cc counter cc1 hs o q cc2 hr he e hl ih =>
    rw [hl] at ih
    rw [Bfs.ctxLoop]
    have : (bare q).isEmpty = false := by
      cases q <;> simp_all
    simp only [hs, bare_cons, hr, this, Bool.false_eq_true, if_false]
    exact ih
  | case8 cc counter cc1 hs o q cc2 hr he es1 s1 hl ih =>
    rw [hl] at ih
    rw [Bfs.ctxLoop]
    have : (bare q).isEmpty = false := by
      cases q <;> simp_all
    simp only [hs, bare_cons, hr, this, Bool.false_eq_true, if_false]
    exact ih

theorem bfsCtxAdvance_erase [SplitNode N V] (s : BfsCtxH N V) :
    Bfs.ctxAdvance s.erase = (bfsCtxAdvance s).map fun r => r.2.erase := by
  obtain ⟨isRoot, cc, children, queue, counter⟩ := s
  simp only [Bfs.ctxAdvance, BfsCtxH.erase, bfsCtxAdvance]
  by_cases hr : isRoot
  · simp [hr, Except.map]
  · by_cases ha : cc.ancestors.isEmpty
    · simp [hr, ha, Except.map]
    · simp only [hr, ha, Bool.false_eq_true, if_false]
      cases children with
      | none => rfl
      | some c =>
        have := bfsCtxLoop_erase (queue ++ [c]) cc counter
        simp only [bare_append, bare_cons, bare_nil] at this
        exact this

end Handles

end TreeIter
