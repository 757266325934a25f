import Verif.Spec.Tour
import Verif.Lemmas.Handles

/-! # Lemmas about the order in which the children of the nodes are released -/

universe u v w x

namespace TreeIter

namespace Handles

variable {N : Type u} {V : Type v} {S : Type w} {O : Type x}

theorem tourL_eq (ts : List (Tree N)) : tourL ts = ts.flatMap tour := by
  induction ts with
  | nil => rfl
  | cons t ts ih => simp [tourL, ih]

theorem tour_unfold [TreeNode N V] (n : N) :
    tour (unfold n) = .opened n :: ((kids n).flatMap (fun c => tour (unfold c)) ++ [.dropped n]) := by
  rw [unfold_eq, tour, tourL_eq, List.flatMap_map]

/-- What is still to happen to a stack of collections. -/
def walk [TreeNode N V] : List (Handle N) → List (Event N)
  | [] => []
  | h :: st => h.items.flatMap (fun c => tour (unfold c)) ++ .dropped h.owner :: walk st

theorem walk_cons [TreeNode N V] (o n : N) (ns : List N) (st : List (Handle N)) :
    walk (⟨o, n :: ns⟩ :: st) = .opened n :: walk (handle n :: ⟨o, ns⟩ :: st) := by
  simp [walk, tour_unfold n, handle]

theorem tour_walk [TreeNode N V] (n : N) (st : List (Handle N)) :
    tour (unfold n) ++ walk st = .opened n :: walk (handle n :: st) := by
  simp [walk, tour_unfold n, handle]

/-! ## Runs -/

/-- Each step does the events up to the next cut. -/
theorem run_cut {next : S → List (Event N) × Option O × S} (cut : Nat → List (Event N) → List (Event N))
    (h0 : ∀ l, cut 0 l = []) (rem : S → List (Event N))
    (h : ∀ k s, cut (k + 1) (rem s) = (next s).1 ++ cut k (rem (next s).2.2)) (k : Nat) (s : S) :
    (run next k s).1 = cut k (rem s) := by
  induction k generalizing s with
  | zero => rw [h0]; rfl
  | succ k ih => rw [h, ← ih]; rfl

/-- The same for machines that may panic, as a relation between the states before and after `k` steps. -/
def Cuts (cut : Nat → List (Event N) → List (Event N)) (rem : S → List (Event N)) (k : Nat) (s : S)
    (es : List (Event N)) (s' : S) : Prop :=
  ∀ j, cut (j + k) (rem s) = es ++ cut j (rem s')

theorem Cuts.nil (cut : Nat → List (Event N) → List (Event N)) (rem : S → List (Event N)) (s : S) :
    Cuts cut rem 0 s [] s := fun _ => rfl

theorem Cuts.trans {cut : Nat → List (Event N) → List (Event N)} {rem : S → List (Event N)} {k : Nat} {s s' s'' : S}
    {es es' : List (Event N)} (h : Cuts cut rem 1 s es s') (h' : Cuts cut rem k s' es' s'') :
    Cuts cut rem (k + 1) s (es ++ es') s'' := fun j => by
  rw [List.append_assoc, ← h' j, ← h (j + k), Nat.add_assoc]

theorem untilOpened_zero (l : List (Event N)) : untilOpened 0 l = [] := by rw [untilOpened]
theorem untilDropped_zero (l : List (Event N)) : untilDropped 0 l = [] := by rw [untilDropped]
theorem untilOpened_nil (k : Nat) : untilOpened k ([] : List (Event N)) = [] := by cases k <;> rw [untilOpened]
theorem untilDropped_nil (k : Nat) : untilDropped k ([] : List (Event N)) = [] := by cases k <;> rw [untilDropped]

/-! ## Preorder -/

def Pre.rem [TreeNode N V] (s : Pre N) : List (Event N) :=
  (match s.root with | some r => tour (unfold r) | none => []) ++ walk s.stack

theorem preNext_cut [TreeNode N V] (k : Nat) (s : Pre N) :
    untilOpened (k + 1) s.rem = (preNext s).1 ++ untilOpened k (preNext s).2.2.rem := by
  obtain ⟨root, stack⟩ := s
  cases root with
  | some r => simp [preNext, Pre.rem, tour_walk, untilOpened]
  | none =>
    induction stack with
    | nil => simp [preNext, preLoop, Pre.rem, walk, untilOpened_nil]
    | cons h rest ih =>
      obtain ⟨o, _ | ⟨n, ns⟩⟩ := h
      · simp only [preNext, preLoop, Pre.rem, List.nil_append] at ih ⊢
        rcases hl : preLoop rest with ⟨es, _ | m, st⟩ <;> simpa [hl, walk, untilOpened] using ih
      · simp [preNext, preLoop, Pre.rem, walk_cons, untilOpened]

/-! ## Postorder -/

def Post.rem [TreeNode N V] (s : Post N V) : List (Event N) :=
  (match s.root with | some r => tour (unfold r) | none => []) ++ walk s.stack

theorem postLoop_cut [TreeNode N V] (k : Nat) (st : List (Handle N)) (items : List V) :
    untilDropped (k + 1) (walk st) = (postLoop st items).1 ++ untilDropped k (walk (postLoop st items).2.2.2) := by
  fun_induction postLoop st items with
  | case1 items => simp [walk, untilDropped_nil]
  | case2 o rest items => simp [walk, untilDropped]
  | case3 o n ns rest items r ih =>
    rw [walk_cons, untilDropped, ih]
    rfl

theorem postNext_cut [TreeNode N V] (k : Nat) (s : Post N V) :
    untilDropped (k + 1) s.rem = (postNext s).1 ++ untilDropped k (postNext s).2.2.rem := by
  obtain ⟨root, items, stack⟩ := s
  cases root with
  | some r =>
    simp only [postNext, Post.rem, tour_walk, untilDropped, List.nil_append, List.cons_append]
    rw [postLoop_cut]
  | none =>
    simp only [postNext, Post.rem, List.nil_append]
    exact postLoop_cut k stack items

/-! ## Breadth first -/

/-- What is still to happen to a queue of collections. -/
def sweep [TreeNode N V] (q : List (Handle N)) : List (Event N) :=
  q.flatMap (fun h => h.items.map .opened ++ [.dropped h.owner]) ++
    (bfsF ((q.flatMap Handle.items).map unfold)).flatMap fun m => (kids m).map .opened ++ [.dropped m]

theorem sweep_nil [TreeNode N V] : sweep ([] : List (Handle N)) = [] := by simp [sweep]

theorem sweep_drop [TreeNode N V] (o : N) (q : List (Handle N)) : sweep (⟨o, []⟩ :: q) = .dropped o :: sweep q := by
  simp [sweep]

theorem sweep_open [TreeNode N V] (o n : N) (ns : List N) (q : List (Handle N)) :
    sweep (⟨o, n :: ns⟩ :: q) = .opened n :: sweep (⟨o, ns⟩ :: q ++ [handle n]) := by
  have := bfsF_unfold (N := N) (V := V) n (ns ++ q.flatMap Handle.items)
  simp only [sweep, List.flatMap_cons, List.cons_append, this]
  simp

def BfsH.rem [TreeNode N V] (s : BfsH N) : List (Event N) :=
  match s.root with
  | some r => .opened r :: sweep (s.queue ++ [handle r])
  | none => sweep s.queue

theorem bfsNext_cut [TreeNode N V] (k : Nat) (s : BfsH N) :
    untilOpened (k + 1) s.rem = (bfsNext s).1 ++ untilOpened k (bfsNext s).2.2.rem := by
  obtain ⟨root, queue⟩ := s
  cases root with
  | some r => simp [bfsNext, BfsH.rem, untilOpened]
  | none =>
    induction queue with
    | nil => simp [bfsNext, bfsLoop, BfsH.rem, sweep_nil, untilOpened_nil]
    | cons h rest ih =>
      obtain ⟨o, _ | ⟨n, ns⟩⟩ := h
      · simpa [bfsNext, bfsLoop, BfsH.rem, sweep_drop, untilOpened] using ih
      · simp [bfsNext, bfsLoop, BfsH.rem, sweep_open, untilOpened]

theorem sweep_root [TreeNode N V] (n : N) : .opened n :: sweep [handle n] = levelTour kids (unfold n) := by
  have hlv : (unfold n).levelOrder = n :: bfsF ((kids n).map unfold) := by
    rw [← bfsF_singleton, unfold_eq, bfsF_cons, List.nil_append]
  have hv : (unfold n).value = n := by rw [unfold_eq]; rfl
  rw [levelTour, hlv, hv]
  simp [sweep]

/-! ## Preorder with contexts -/

def PreCtx.rem [TreeNode N V] (s : PreCtx N V) : List (Event N) :=
  (match s.root with | some r => tour (unfold r) | none => []) ++ walk (s.children.toList ++ s.stack)

/-- The iterator is finished only if nothing is left to happen; there are no children before the start. -/
def PreCtx.Live [TreeNode N V] (s : PreCtx N V) : Prop :=
  match s.root with
  | some _ => s.children = none ∧ s.stack = []
  | none => s.ancestors.isEmpty → s.rem = []

theorem preCtxLoop_cut [TreeNode N V] (k : Nat) (st : List (Handle N)) (path : List Nat) (anc : List V)
    (r : List (Event N) × Option N × List (Handle N) × List Nat × List V) (h : preCtxLoop st path anc = .ok r) :
    untilOpened (k + 1) (walk st) = (preCtxFinish none r).1 ++ untilOpened k (preCtxFinish none r).2.rem ∧
      (preCtxFinish none r).2.Live := by
  induction st generalizing path anc r with
  | nil =>
    cases h
    simp [preCtxFinish, PreCtx.rem, PreCtx.Live, walk, untilOpened_nil]
  | cons hd rest ih =>
    obtain ⟨o, _ | ⟨n, ns⟩⟩ := hd
    · simp only [preCtxLoop] at h
      split at h
      · cases h
      · rename_i es r' hl
        cases h
        obtain ⟨h1, h2⟩ := ih _ _ _ hl
        obtain ⟨_ | m, st, p, a⟩ := r'
        · exact ⟨by simpa [walk, untilOpened, preCtxFinish] using h1, h2⟩
        · exact ⟨by simpa [walk, untilOpened, preCtxFinish] using h1, h2⟩
    · cases path with
      | nil => simp [preCtxLoop] at h
      | cons p path =>
        simp only [preCtxLoop] at h
        cases h
        simp [preCtxFinish, PreCtx.rem, PreCtx.Live, walk_cons, untilOpened, overwritten]

theorem preCtxAdvance_cut [TreeNode N V] (s : PreCtx N V) (es : List (Event N)) (s' : PreCtx N V) (hi : s.Live)
    (h : preCtxAdvance s = .ok (es, s')) : Cuts untilOpened PreCtx.rem 1 s es s' ∧ s'.Live := by
  obtain ⟨root, stack, path, anc, children⟩ := s
  cases root with
  | some r =>
    obtain ⟨rfl, rfl⟩ : children = none ∧ stack = [] := hi
    cases h
    refine ⟨fun j => ?_, by simp [PreCtx.Live]⟩
    simp only [PreCtx.rem, Option.toList_none, List.nil_append, tour_walk, untilOpened]
    simp [overwritten]
  | none =>
    simp only [preCtxAdvance] at h
    split at h
    · cases h
      rename_i ha
      exact ⟨fun j => by rw [hi ha]; simp [untilOpened_nil], hi⟩
    · cases children with
      | none =>
        simp only at h
        split at h
        · cases h
        · rename_i r hl
          simp only [Except.ok.injEq] at h
          have h1 := congrArg Prod.fst h
          have h2 := congrArg Prod.snd h
          simp only at h1 h2
          refine ⟨fun j => ?_, h2 ▸ (preCtxLoop_cut 0 _ _ _ _ hl).2⟩
          have := (preCtxLoop_cut j _ _ _ _ hl).1
          rw [h1, h2] at this
          simpa [PreCtx.rem] using this
      | some c =>
        simp only at h
        split at h
        · cases h
        · rename_i r hl
          simp only [Except.ok.injEq] at h
          have h1 := congrArg Prod.fst h
          have h2 := congrArg Prod.snd h
          simp only at h1 h2
          refine ⟨fun j => ?_, h2 ▸ (preCtxLoop_cut 0 _ _ _ _ hl).2⟩
          have := (preCtxLoop_cut j _ _ _ _ hl).1
          rw [h1, h2] at this
          simpa [PreCtx.rem] using this

/-! ## Postorder with contexts, owned -/

def OwnPostCtx.rem [TreeNode N V] (s : OwnPostCtx N V) : List (Event N) :=
  (match s.root with | some r => tour (unfold r) | none => []) ++ walk s.stack

/-- The node just returned and one ancestor per collection. -/
def OwnPostCtx.Level (s : OwnPostCtx N V) : Prop :=
  match s.root with
  | some _ => s.stack = [] ∧ s.ancestors = []
  | none => s.ancestors.tail.length = s.stack.length

theorem ownPostCtxLoop_cut [TreeNode N V] (k : Nat) (st : List (Handle N)) (path : List Nat) (anc : List V)
    (es : List (Event N)) (s' : OwnPostCtx N V) (hl : anc.length = st.length)
    (h : ownPostCtxLoop st path anc = .ok (es, s')) :
    untilDropped (k + 1) (walk st) = es ++ untilDropped k s'.rem ∧ s'.Level := by
  fun_induction ownPostCtxLoop st path anc generalizing es with
  | case1 => simp at h
  | case2 o n ns rest p path anc es1 s1 he ih =>
    simp only [Except.ok.injEq, Prod.mk.injEq] at h
    obtain ⟨rfl, rfl⟩ := h
    obtain ⟨h1, h2⟩ := ih es1 (by simpa using hl) he
    refine ⟨?_, h2⟩
    rw [walk_cons, untilDropped, h1]
    rfl
  | case3 => simp at h
  | case4 o rest path anc =>
    cases h
    refine ⟨by simp [walk, untilDropped, OwnPostCtx.rem], ?_⟩
    simp only [OwnPostCtx.Level, List.length_tail, hl, List.length_cons]
    omega
  | case5 path anc =>
    cases h
    refine ⟨by simp [walk, untilDropped_nil, OwnPostCtx.rem], ?_⟩
    simp only [OwnPostCtx.Level, List.length_tail, hl, List.length_nil]

theorem ownPostCtxAdvance_cut [TreeNode N V] (s : OwnPostCtx N V) (es : List (Event N)) (s' : OwnPostCtx N V)
    (hi : s.Level) (h : ownPostCtxAdvance s = .ok (es, s')) : Cuts untilDropped OwnPostCtx.rem 1 s es s' ∧ s'.Level := by
  obtain ⟨root, stack, path, anc⟩ := s
  cases root with
  | some r =>
    obtain ⟨rfl, rfl⟩ : stack = [] ∧ anc = [] := hi
    simp only [ownPostCtxAdvance] at h
    split at h
    · cases h
    · rename_i es1 s1 hl
      simp only [Except.ok.injEq, Prod.mk.injEq] at h
      obtain ⟨rfl, rfl⟩ := h
      refine ⟨fun j => ?_, (ownPostCtxLoop_cut 0 _ _ _ _ _ (by simp) hl).2⟩
      simp only [OwnPostCtx.rem, tour_walk, untilDropped]
      rw [(ownPostCtxLoop_cut j _ _ _ _ _ (by simp) hl).1]
      rfl
  | none =>
    have hi : anc.tail.length = stack.length := hi
    simp only [ownPostCtxAdvance] at h
    split at h
    · cases h
      rename_i ha
      have h0 : anc.tail = [] := List.isEmpty_iff.1 ha
      have h1 : stack = [] := List.length_eq_zero_iff.1 (by rw [← hi, h0]; rfl)
      subst h1
      exact ⟨fun j => by simp [OwnPostCtx.rem, walk, untilDropped_nil], by simp [OwnPostCtx.Level, h0]⟩
    · refine ⟨fun j => ?_, (ownPostCtxLoop_cut 0 _ _ _ _ _ hi h).2⟩
      have := (ownPostCtxLoop_cut j _ _ _ _ _ hi h).1
      simpa [OwnPostCtx.rem] using this

/-! ## Breadth first with contexts -/

def BfsCtxH.rem [TreeNode N V] (s : BfsCtxH N V) : List (Event N) := sweep (s.queue ++ s.children.toList)

def BfsCtxH.Live [TreeNode N V] (s : BfsCtxH N V) : Prop :=
  s.isRoot = false ∧ (s.cc.ancestors.isEmpty → s.rem = [])

theorem bfsCtxLoop_cut [TreeNode N V] (k : Nat) (queue : List (Handle N)) (cc : Bfs.CtxCache V) (counter : Nat)
    (es : List (Event N)) (s' : BfsCtxH N V) (h : bfsCtxLoop queue cc counter = .ok (es, s')) :
    untilOpened (k + 1) (sweep queue) = es ++ untilOpened k s'.rem ∧ s'.Live := by
  fun_induction bfsCtxLoop queue cc counter generalizing es with
  | case1 => simp_all
  | case2 => simp_all
  | case3 => simp_all
  | case4 cc counter cc1 hs o n ns q counter' hc =>
    cases h
    simp [BfsCtxH.rem, BfsCtxH.Live, sweep_open, untilOpened]
  | case5 => simp_all
  | case6 cc counter cc1 hs o q cc2 hr he =>
    cases h
    have : q = [] := List.isEmpty_iff.1 he
    subst this
    simp [BfsCtxH.rem, BfsCtxH.Live, sweep_drop, sweep_nil, untilOpened, untilOpened_nil]
  | case7 => simp_all
  | case8 cc counter cc1 hs o q cc2 hr he es1 s1 hl ih =>
    cases h
    obtain ⟨h1, h2⟩ := ih es1 hl
    exact ⟨by simp [sweep_drop, untilOpened, h1], h2⟩

theorem bfsCtxAdvance_cut [TreeNode N V] (s : BfsCtxH N V) (es : List (Event N)) (s' : BfsCtxH N V) (hi : s.Live)
    (h : bfsCtxAdvance s = .ok (es, s')) : Cuts untilOpened BfsCtxH.rem 1 s es s' ∧ s'.Live := by
  obtain ⟨isRoot, cc, children, queue, counter⟩ := s
  obtain ⟨rfl, hi2⟩ : isRoot = false ∧ _ := hi
  simp only [bfsCtxAdvance, Bool.false_eq_true, if_false] at h
  split at h
  · cases h
    rename_i ha
    have hi2 := hi2 ha
    exact ⟨fun j => by rw [hi2]; simp [untilOpened_nil], rfl, fun _ => hi2⟩
  · cases children with
    | none => cases h
    | some c =>
      exact ⟨fun j => by simpa [BfsCtxH.rem] using (bfsCtxLoop_cut j _ _ _ _ _ h).1, (bfsCtxLoop_cut 0 _ _ _ _ _ h).2⟩

/-! ## How many collections are held at once -/

theorem untilOpened_prefix (k : Nat) (l : List (Event N)) : untilOpened k l <+: l := by
  fun_induction untilOpened k l <;> simp_all

theorem untilDropped_prefix (k : Nat) (l : List (Event N)) : untilDropped k l <+: l := by
  fun_induction untilDropped k l <;> simp_all

theorem balance_tour (t : Tree N) : (opened (tour t)).length = (dropped (tour t)).length := by
  induction t using Tree.ind with
  | h a cs ih =>
    rw [tour, tourL_eq]
    simp only [opened, opened_append, dropped_append, dropped, List.length_cons, List.length_append, List.length_nil]
    have : (opened (cs.flatMap tour)).length = (dropped (cs.flatMap tour)).length := by
      clear a
      induction cs with
      | nil => rfl
      | cons c cs ih2 =>
        simp only [List.flatMap_cons, opened_append, dropped_append, List.length_append]
        rw [ih c List.mem_cons_self, ih2 fun d hd => ih d (List.mem_cons_of_mem _ hd)]
    omega

theorem prefix_append_cases {A : Type u} {p a b : List A} (h : p <+: a ++ b) : p <+: a ∨ ∃ q, p = a ++ q ∧ q <+: b := by
  rcases Nat.le_total p.length a.length with hl | hl
  · exact .inl (List.prefix_of_prefix_length_le h (List.prefix_append a b) hl)
  · obtain ⟨q, rfl⟩ := List.prefix_of_prefix_length_le (List.prefix_append a b) h hl
    exact .inr ⟨q, rfl, (List.prefix_append_right_inj a).1 h⟩

theorem held_forest (cs : List (Tree N)) (b : Nat)
    (ih : ∀ c ∈ cs, ∀ p, p <+: tour c → (opened p).length ≤ (dropped p).length + b) (p : List (Event N))
    (hp : p <+: cs.flatMap tour) : (opened p).length ≤ (dropped p).length + b := by
  induction cs generalizing p with
  | nil =>
    have : p = [] := List.prefix_nil.1 hp
    subst this
    simp [opened]
  | cons c cs ih2 =>
    rw [List.flatMap_cons] at hp
    rcases prefix_append_cases hp with hp | ⟨q, rfl, hq⟩
    · exact ih c List.mem_cons_self p hp
    · have := ih2 (fun d hd => ih d (List.mem_cons_of_mem _ hd)) q hq
      have hb := balance_tour c
      simp only [opened_append, dropped_append, List.length_append]
      omega

theorem height_mem {c : Tree N} {cs : List (Tree N)} (h : c ∈ cs) : c.height ≤ Tree.heightL cs := by
  induction cs with
  | nil => cases h
  | cons d cs ih =>
    rw [Tree.heightL]
    rcases List.mem_cons.1 h with rfl | h
    · exact Nat.le_max_left ..
    · exact Nat.le_trans (ih h) (Nat.le_max_right ..)

theorem held_tour (t : Tree N) : ∀ p, p <+: tour t → (opened p).length ≤ (dropped p).length + t.height := by
  induction t using Tree.ind with
  | h a cs ih =>
    intro p hp
    rw [tour, tourL_eq] at hp
    cases p with
    | nil => simp [opened]
    | cons e p =>
      obtain ⟨rfl, hp'⟩ := List.cons_prefix_cons.1 hp
      have hf : ∀ q, q <+: cs.flatMap tour → (opened q).length ≤ (dropped q).length + Tree.heightL cs :=
        held_forest cs _ fun c hc q hq => Nat.le_trans (ih c hc q hq) (Nat.add_le_add_left (height_mem hc) _)
      rcases prefix_append_cases hp' with hp | ⟨q, rfl, hq⟩
      · have := hf p hp
        simp only [opened, dropped, List.length_cons, Tree.height]
        omega
      · have := hf _ (List.prefix_refl _)
        have h1 : opened q = [] := by
          rcases q with _ | ⟨e, q⟩
          · rfl
          · obtain ⟨rfl, hq'⟩ := List.cons_prefix_cons.1 hq
            have : q = [] := List.prefix_nil.1 hq'
            subst this
            rfl
        simp only [opened, dropped, List.length_cons, Tree.height, opened_append, dropped_append, List.length_append, h1,
          List.length_nil]
        omega

end Handles

end TreeIter
