import Verif.Spec.Brackets
import Verif.Lemmas.Handles

/-! # Lemmas about the order of the events -/

universe u v w x

namespace TreeIter

namespace Handles

variable {N : Type u} {V : Type v} {S : Type w} {O : Type x}

theorem bracketsL_eq (cs : List (Tree N)) : Tree.bracketsL cs = cs.flatMap Tree.brackets := by
  induction cs with
  | nil => rfl
  | cons c cs ih => simp [Tree.bracketsL, ih]

theorem brackets_unfold [TreeNode N V] (n : N) :
    (unfold n).brackets = .opened n :: ((kids n).flatMap (fun c => (unfold c).brackets) ++ [.dropped n]) := by
  rw [unfold_eq, Tree.brackets, bracketsL_eq, List.flatMap_map]

/-- The events to come for a stack. -/
def restS [TreeNode N V] (st : List (Handle N)) : List (Event N) :=
  st.flatMap fun h => h.items.flatMap (fun n => (unfold n).brackets) ++ [.dropped h.owner]

theorem restS_cons [TreeNode N V] (o n : N) (ns : List N) (rest : List (Handle N)) :
    restS (⟨o, n :: ns⟩ :: rest) = .opened n :: restS (handle n :: ⟨o, ns⟩ :: rest) := by
  simp [restS, brackets_unfold n, handle]

theorem restS_nil [TreeNode N V] (o : N) (rest : List (Handle N)) :
    restS (⟨o, []⟩ :: rest) = .dropped o :: restS rest := by
  simp [restS]

def Pre.rest [TreeNode N V] (s : Pre N) : List (Event N) :=
  (match s.root with | some r => (unfold r).brackets | none => []) ++ restS s.stack

def Post.rest [TreeNode N V] (s : Post N V) : List (Event N) :=
  (match s.root with | some r => (unfold r).brackets | none => []) ++ restS s.stack

theorem restS_root [TreeNode N V] (r : N) (st : List (Handle N)) :
    (unfold r).brackets ++ restS st = .opened r :: restS (handle r :: st) := by
  simp [restS, brackets_unfold r, handle]

theorem preLoop_rest [TreeNode N V] (st : List (Handle N)) :
    (match preLoop st with
      | (es, none, st) => es ++ restS st
      | (es, some n, st) => es ++ .opened n :: restS (handle n :: st)) = restS st := by
  induction st with
  | nil => rfl
  | cons h rest ih =>
    obtain ⟨o, _ | ⟨n, ns⟩⟩ := h
    · rw [preLoop, restS_nil]
      rcases hp : preLoop rest with ⟨es, _ | m, st⟩ <;> rw [hp] at ih <;> simpa using ih
    · rw [preLoop, restS_cons]
      rfl

theorem preNext_rest [TreeNode N V] (s : Pre N) : (preNext s).1 ++ (preNext s).2.2.rest = s.rest := by
  obtain ⟨_ | r, st⟩ := s
  · have h := preLoop_rest st
    rcases hp : preLoop st with ⟨es, _ | m, st'⟩ <;> rw [hp] at h <;> simpa [preNext, Pre.rest, hp] using h
  · simp [preNext, Pre.rest, restS_root]

theorem preNext_last [TreeNode N V] (s : Pre N) (m : N) (h : s.todo.head? = some m) :
    (preNext s).1.getLast? = some (.opened m) := by
  have ho := (preNext_open s).1
  obtain ⟨_ | r, st⟩ := s
  · rcases hp : preLoop st with ⟨es, _ | n, st'⟩
    · have hn : ∀ st : List (Handle N), opened (preLoop st).1 = [] := by
        intro st
        induction st with
        | nil => rfl
        | cons h rest ih => obtain ⟨o, _ | ⟨n, ns⟩⟩ := h <;> simp_all [preLoop, opened]
      have h0 := hn st
      rw [hp] at h0
      simp only [preNext, hp] at ho
      rw [show opened es = [] from h0] at ho
      cases ht : (⟨none, st⟩ : Pre N).todo with
      | nil => rw [ht] at h; cases h
      | cons a l => rw [ht] at ho; cases ho
    · have hn : ∀ st : List (Handle N), opened (preLoop st).1 = [] := by
        intro st
        induction st with
        | nil => rfl
        | cons h rest ih => obtain ⟨o, _ | ⟨n, ns⟩⟩ := h <;> simp_all [preLoop, opened]
      have h0 := hn st
      rw [hp] at h0
      simp only [preNext, hp, opened_append] at ho ⊢
      rw [show opened es = [] from h0] at ho
      cases ht : (⟨none, st⟩ : Pre N).todo with
      | nil => rw [ht] at h; cases h
      | cons a l =>
        rw [ht] at ho h
        simp only [opened, List.nil_append, List.take_succ_cons, List.take_zero, List.cons.injEq, and_true] at ho
        simp only [List.head?_cons, Option.some.injEq] at h
        simp [ho, h]
  · simp only [Pre.todo, preorder_unfold r, List.cons_append, List.head?_cons, Option.some.injEq] at h
    simp [preNext, h]

theorem preNext_end [TreeNode N V] (s : Pre N) (h : s.todo = []) : (preNext s).2.2.rest = [] := by
  have ho := (preNext_open s).1
  obtain ⟨_ | r, st⟩ := s
  · have key : ∀ st : List (Handle N), (preLoop st).2.1 = none → (preLoop st).2.2 = [] := by
      intro st
      induction st with
      | nil => exact fun _ => rfl
      | cons h rest ih =>
        obtain ⟨o, _ | ⟨n, ns⟩⟩ := h
        · exact ih
        · intro h; cases h
    rcases hp : preLoop st with ⟨es, _ | n, st'⟩
    · have := key st (by rw [hp])
      rw [hp] at this
      simp only at this
      simp [preNext, hp, Pre.rest, restS, this]
    · simp [preNext, hp, h, opened] at ho
  · simp [Pre.todo, preorder_unfold r] at h

theorem run_last (next : S → List (Event N) × Option O × S) (k : Nat) (s : S) :
    (run next (k + 1) s).1 = (run next k s).1 ++ (next (run next k s).2.2).1 ∧
      (run next (k + 1) s).2.2 = (next (run next k s).2.2).2.2 := by
  induction k generalizing s with
  | zero => simp [run]
  | succ k ih =>
    have := ih (next s).2.2
    rw [run]
    refine ⟨?_, this.2⟩
    rw [show (run next (k + 1) s).1 = (next s).1 ++ (run next k (next s).2.2).1 from rfl, List.append_assoc, this.1]
    rfl

theorem run_rest {next : S → List (Event N) × Option O × S} (rest : S → List (Event N))
    (h : ∀ s, (next s).1 ++ rest (next s).2.2 = rest s) (k : Nat) (s : S) :
    (run next k s).1 ++ rest (run next k s).2.2 = rest s := by
  induction k generalizing s with
  | zero => rfl
  | succ k ih => simp only [run, List.append_assoc, ih, h]

theorem postLoop_rest [TreeNode N V] (st : List (Handle N)) (items : List V) :
    (postLoop st items).1 ++ restS (postLoop st items).2.2.2 = restS st := by
  fun_induction postLoop st items with
  | case1 => rfl
  | case2 => simp [restS_nil]
  | case3 items o n ns rest r ih =>
    rw [restS_cons, ← ih]
    rfl

theorem postNext_rest [TreeNode N V] (s : Post N V) : (postNext s).1 ++ (postNext s).2.2.rest = s.rest := by
  obtain ⟨_ | r, items, st⟩ := s
  · simpa [postNext, Post.rest] using postLoop_rest st items
  · simp only [postNext, Post.rest, restS_root, List.nil_append, List.cons_append]
    rw [postLoop_rest]

theorem postLoop_last [TreeNode N V] (st : List (Handle N)) (items : List V) (m : N)
    (h : dropped (postLoop st items).1 = [m]) : (postLoop st items).1.getLast? = some (.dropped m) := by
  fun_induction postLoop st items with
  | case1 => cases h
  | case2 => cases h; rfl
  | case3 items o n ns rest r ih =>
    have := ih h
    rw [List.getLast?_cons, this]
    rfl

theorem postNext_last [TreeNode N V] (s : Post N V) (m : N) (h : dropped (postNext s).1 = [m]) :
    (postNext s).1.getLast? = some (.dropped m) := by
  obtain ⟨_ | r, items, st⟩ := s
  · exact postLoop_last st items m h
  · simp only [postNext, dropped] at h ⊢
    rw [List.getLast?_cons, postLoop_last _ _ m h]
    rfl

theorem postorder_unfold [TreeNode N V] (n : N) :
    (unfold n).postorder = (kids n).flatMap (fun c => (unfold c).postorder) ++ [n] := by
  rw [unfold_eq, Tree.postorder_node, List.flatMap_map]

theorem dropped_flatMap (f : N → List (Event N)) (g : N → List N) (cs : List N) (h : ∀ c ∈ cs, dropped (f c) = g c) :
    dropped (cs.flatMap f) = cs.flatMap g := by
  induction cs with
  | nil => rfl
  | cons c cs ih =>
    simp only [List.flatMap_cons, dropped_append]
    rw [h c (by simp), ih fun c hc => h c (by simp [hc])]

theorem dropped_brackets [TreeNode N V] (n : N) : dropped (unfold n).brackets = (unfold n).postorder := by
  induction n using node_ind with
  | h n ih =>
    rw [brackets_unfold, postorder_unfold]
    simp only [dropped, dropped_append]
    rw [dropped_flatMap _ _ _ ih]

theorem Post.rest_nil [TreeNode N V] (s : Post N V) (h : dropped s.rest = []) : s.rest = [] := by
  obtain ⟨_ | r, items, _ | ⟨a, st⟩⟩ := s
  · rfl
  · simp [Post.rest, restS, dropped] at h
  · simp [Post.rest, restS, brackets_unfold r, dropped] at h
  · simp [Post.rest, restS, brackets_unfold r, dropped] at h

/-! ### Breadth first -/

/-- The events to come for a queue. -/
def restQ [TreeNode N V] (q : List (Handle N)) : List (Event N) :=
  (q.flatMap fun h => h.items.map .opened ++ [.dropped h.owner]) ++
    (bfsF ((q.flatMap Handle.items).map unfold)).flatMap fun m => (kids m).map .opened ++ [.dropped m]

def BfsH.rest [TreeNode N V] (s : BfsH N) : List (Event N) :=
  match s.root with
  | some r => wideBrackets r
  | none => restQ s.queue

/-- The root is gone, or nothing else is there yet. -/
def BfsH.Fresh (s : BfsH N) : Prop := s.root = none ∨ s.queue = []

theorem bfsLoop_rest [TreeNode N V] (q : List (Handle N)) : (bfsLoop q).1 ++ (bfsLoop q).2.2.rest = restQ q := by
  induction q with
  | nil => simp [bfsLoop, BfsH.rest]
  | cons h q ih =>
    obtain ⟨o, _ | ⟨n, ns⟩⟩ := h
    · rw [bfsLoop, List.cons_append, ih]
      simp [restQ]
    · rw [bfsLoop]
      simp only [BfsH.rest, restQ, handle, List.flatMap_cons, List.flatMap_append, List.map_append, List.map_cons,
        List.cons_append, List.nil_append, List.flatMap_nil, List.append_nil, List.append_assoc]
      rw [unfold_eq n, bfsF_cons]
      simp [List.append_assoc]

theorem bfsNext_rest [TreeNode N V] (s : BfsH N) (hs : s.Fresh) :
    (bfsNext s).1 ++ (bfsNext s).2.2.rest = s.rest ∧ (bfsNext s).2.2.Fresh := by
  obtain ⟨_ | r, q⟩ := s
  · refine ⟨bfsLoop_rest q, .inl ?_⟩
    simp only [bfsNext]
    induction q with
    | nil => rfl
    | cons h q ih =>
      obtain ⟨o, _ | ⟨n, ns⟩⟩ := h
      · exact ih (.inl rfl)
      · rfl
  · obtain rfl : q = [] := by simpa [BfsH.Fresh] using hs
    refine ⟨?_, .inl rfl⟩
    simp only [bfsNext, BfsH.rest, restQ, wideBrackets, handle]
    rw [← bfsF_singleton, unfold_eq r, bfsF_cons]
    simp

theorem bfsNext_end [TreeNode N V] (s : BfsH N) (h : (bfsNext s).2.1 = none) : (bfsNext s).2.2.rest = [] := by
  obtain ⟨_ | r, q⟩ := s
  · simp only [bfsNext] at h ⊢
    induction q with
    | nil => simp [bfsLoop, BfsH.rest, restQ]
    | cons a q ih =>
      obtain ⟨o, _ | ⟨n, ns⟩⟩ := a
      · exact ih h
      · cases h
  · cases h

theorem bfsNext_last [TreeNode N V] (s : BfsH N) (m : N) (h : opened (bfsNext s).1 = [m]) :
    (bfsNext s).1.getLast? = some (.opened m) := by
  obtain ⟨_ | r, q⟩ := s
  · simp only [bfsNext] at h ⊢
    induction q with
    | nil => cases h
    | cons a q ih =>
      obtain ⟨o, _ | ⟨n, ns⟩⟩ := a
      · rw [bfsLoop] at h ⊢
        rw [List.getLast?_cons, ih h]
        rfl
      · cases h
        rfl
  · cases h
    rfl

theorem run_rest_inv {next : S → List (Event N) × Option O × S} (rest : S → List (Event N)) (Inv : S → Prop)
    (h : ∀ s, Inv s → (next s).1 ++ rest (next s).2.2 = rest s ∧ Inv (next s).2.2) (k : Nat) (s : S) (hs : Inv s) :
    (run next k s).1 ++ rest (run next k s).2.2 = rest s := by
  induction k generalizing s with
  | zero => rfl
  | succ k ih =>
    simp only [run, List.append_assoc]
    rw [ih _ (h s hs).2, (h s hs).1]

end Handles

end TreeIter
