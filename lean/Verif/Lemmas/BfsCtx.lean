import Verif.Model.BfsCtx
import Verif.Lemmas.BfsAnc

/-! # Lemmas about the breadth-first context iterators -/

universe u v w

namespace TreeIter

namespace Bfs

variable {N : Type u} {V : Type v}

/-! ## The two stacks as one -/

/-- The context cache that holds what `s` holds; `pre` is the path of the root. -/
def ofCache (pre : List Nat) (s : CacheState (V × Nat)) : CtxCache V :=
  ⟨s.items.map Prod.fst, s.items.dropLast.map Prod.snd ++ pre, s.stack, s.cache⟩

theorem ofCache_topChildren (pre : List Nat) (s : CacheState (V × Nat)) :
    (ofCache pre s).topChildren = s.topChildren := by
  obtain ⟨items, stack, cache⟩ := s
  cases stack <;> rfl

theorem ofCache_setTop (pre : List Nat) (s : CacheState (V × Nat)) (cs : List (Option (Cache (V × Nat)))) :
    (ofCache pre s).setTop cs = ofCache pre (s.setTop cs) := by
  obtain ⟨items, stack, cache⟩ := s
  cases stack <;> rfl

theorem setTop_items (s : CacheState (V × Nat)) (cs : List (Option (Cache (V × Nat)))) :
    (s.setTop cs).items = s.items := by
  obtain ⟨items, stack, cache⟩ := s
  cases stack <;> rfl

theorem ofCache_moveUp (pre : List Nat) (s : CacheState (V × Nat)) :
    (ofCache pre s).giveBack.map CtxCache.popToParent = s.moveUp.map (ofCache pre) := by
  obtain ⟨items, stack, cache⟩ := s
  rcases items with _ | ⟨x, _ | ⟨y, items⟩⟩ <;> rcases stack with _ | ⟨t, _ | ⟨t', stack⟩⟩ <;> rfl

theorem moveUp_items (s s' : CacheState (V × Nat)) (h : s.moveUp = .ok s') (hs : s.items ≠ []) : s'.items ≠ [] := by
  obtain ⟨items, stack, cache⟩ := s
  rcases items with _ | ⟨x, _ | ⟨y, items⟩⟩ <;> rcases stack with _ | ⟨t, _ | ⟨t', stack⟩⟩ <;>
    simp_all [CacheState.moveUp] <;> subst h <;> simp

theorem ofCache_advanceDfs (pre : List Nat) (start fuel : Nat) (s : CacheState (V × Nat)) (hs : s.items ≠ []) :
    (ofCache pre s).advanceDfs start fuel = (s.advanceDfs start fuel).map (ofCache pre) := by
  induction fuel generalizing s with
  | zero => rfl
  | succ fuel ih =>
    rw [CtxCache.advanceDfs, CacheState.advanceDfs, ofCache_topChildren]
    rcases s.topChildren with _ | ⟨_ | c, rest⟩
    · rfl
    rotate_left
    · simp only
      cases hc : c.value with
      | none => rfl
      | some vp =>
        obtain ⟨v, p⟩ := vp
        have e : (⟨v :: ((ofCache pre s).setTop rest).ancestors, p :: ((ofCache pre s).setTop rest).path,
              .mk none c.children :: ((ofCache pre s).setTop rest).stack,
              ((ofCache pre s).setTop rest).cache⟩ : CtxCache V) =
            ofCache pre ⟨(v, p) :: (s.setTop rest).items, .mk none c.children :: (s.setTop rest).stack,
              (s.setTop rest).cache⟩ := by
          rw [ofCache_setTop]
          have : (s.setTop rest).items ≠ [] := by rw [setTop_items]; exact hs
          simp [ofCache, List.dropLast_cons_of_ne_nil this]
        simp only [e]
        have l : (v :: ((ofCache pre s).setTop rest).ancestors).length = ((v, p) :: (s.setTop rest).items).length := by
          rw [ofCache_setTop]
          simp [ofCache]
        rw [l]
        split
        · rfl
        · exact ih _ (by simp)
    · simp only
      rw [ofCache_setTop]
      generalize hcs : (if rest.isEmpty then [] else rest ++ [none]) = cs
      have hm := ofCache_moveUp pre (s.setTop cs)
      have hi : (s.setTop cs).items ≠ [] := by rw [setTop_items]; exact hs
      cases h1 : (ofCache pre (s.setTop cs)).giveBack with
      | error e =>
        cases h2 : (s.setTop cs).moveUp with
        | error e' => rw [h1, h2] at hm; simpa [Except.map] using hm
        | ok s' => rw [h1, h2] at hm; simp [Except.map] at hm
      | ok c1 =>
        cases h2 : (s.setTop cs).moveUp with
        | error e' => rw [h1, h2] at hm; simp [Except.map] at hm
        | ok s' =>
          rw [h1, h2] at hm
          have hm' : c1.popToParent = ofCache pre s' := by simpa [Except.map] using hm
          simp only [hm']
          exact ih s' (moveUp_items _ _ h2 hi)

theorem ofCache_popItem (pre : List Nat) (s : CacheState (V × Nat)) :
    (ofCache pre s).popItem = s.popItem.map (ofCache pre) := by
  obtain ⟨items, stack, cache⟩ := s
  rcases items with _ | ⟨x, _ | ⟨y, _ | ⟨z, items⟩⟩⟩
  · rfl
  · rfl
  · rfl
  · simp only [CacheState.popItem, ofCache, List.map_cons, CtxCache.popItem, List.isEmpty_cons, Bool.false_eq_true,
      if_false, List.length_cons, List.length_map, List.dropLast_cons_cons, List.map_cons, List.cons_append]
    split
    · rfl
    · rfl

theorem ofCache_settle (pre : List Nat) (s : CacheState (V × Nat)) :
    (ofCache pre s).settle = (Bfs.settle s).map (ofCache pre) := by
  have : (ofCache pre s).ancestors.length = s.items.length := by simp [ofCache]
  rw [CtxCache.settle, Bfs.settle, this, ofCache_popItem]
  show (if s.items.length = s.stack.length + 2 then _ else _) = _
  split <;> rfl

theorem ofCache_dropSpent (pre : List Nat) (stack : List (Cache (V × Nat))) (items : List (V × Nat))
    (h : stack.length < items.length) :
    CtxCache.dropSpent stack (items.map Prod.fst) (items.dropLast.map Prod.snd ++ pre) =
      ((CacheState.dropSpent stack items).1, (CacheState.dropSpent stack items).2.map Prod.fst,
        (CacheState.dropSpent stack items).2.dropLast.map Prod.snd ++ pre) ∧
      (CacheState.dropSpent stack items).2 ≠ [] := by
  induction stack generalizing items with
  | nil =>
    refine ⟨rfl, ?_⟩
    simp only [CacheState.dropSpent]
    intro h'
    simp [h'] at h
  | cons t stack ih =>
    rw [CtxCache.dropSpent, CacheState.dropSpent]
    split
    · refine ⟨rfl, ?_⟩
      intro h'
      simp only at h'
      simp [h'] at h
    · rcases items with _ | ⟨x, _ | ⟨y, items⟩⟩
      · simp at h
      · simp at h
      · exact ih (y :: items) (by simpa using h)

theorem ofCache_retire (pre : List Nat) (s : CacheState (V × Nat)) (h : s.stack.length < s.items.length) :
    (ofCache pre s).retire = s.retire.map (ofCache pre) := by
  have hi : s.items ≠ [] := by
    intro h'
    simp [h'] at h
  rw [CtxCache.retire, CacheState.retire, ofCache_topChildren, ofCache_setTop]
  by_cases ht : s.topChildren.isEmpty
  · obtain ⟨d1, d2⟩ := ofCache_dropSpent pre s.stack s.items h
    simp only [ht, Bool.not_true, Bool.false_eq_true, if_false]
    rw [show CtxCache.dropSpent (ofCache pre s).stack (ofCache pre s).ancestors (ofCache pre s).path = _ from d1]
    have := ofCache_advanceDfs pre (CacheState.dropSpent s.stack s.items).2.length
      (2 * CacheState.total ⟨(CacheState.dropSpent s.stack s.items).2, (CacheState.dropSpent s.stack s.items).1, s.cache⟩ + 2)
      ⟨(CacheState.dropSpent s.stack s.items).2, (CacheState.dropSpent s.stack s.items).1, s.cache⟩ d2
    rw [← this]
    simp [ofCache, CtxCache.total, CacheState.total]
  · have := ofCache_advanceDfs pre (s.setTop (none :: s.topChildren)).items.length
      (2 * (s.setTop (none :: s.topChildren)).total + 2) (s.setTop (none :: s.topChildren))
      (by rw [setTop_items]; exact hi)
    simp only [ht, Bool.not_false, if_true]
    rw [← this]
    simp [ofCache, CtxCache.total, CacheState.total]

/-! ## The pending trees -/

variable {I : Type u} {O : Type w}

/-- Path of a pending node, given root-last as in `Zip.cur`. -/
def pathOf (pre : List Nat) (p : List (V × Nat)) : List Nat := (p.dropLast.map Prod.snd ++ pre).reverse

/-- Values from the root to a pending node. -/
def valsOf (p : List (V × Nat)) : List V := (p.map Prod.fst).reverse

/-- The trees still to be traversed.  `F path anc i items` are those below a node at `path` with values `anc`, where
`items` are left of its child iterator, the first of them having index `i`. -/
def pendQ (F : List Nat → List V → Nat → List I → List (Tree O)) (pre : List Nat) :
    Nat → List (List (V × Nat)) → List (List I) → List (Tree O)
  | i, p :: ps, it :: q => F (pathOf pre p) (valsOf p) i it ++ pendQ F pre 0 ps q
  | _, _, _ => []

variable {F : List Nat → List V → Nat → List I → List (Tree O)} {pre : List Nat}

theorem pendQ_append (i : Nat) (ps : List (List (V × Nat))) (q : List (List I)) (p : List (V × Nat)) (it : List I)
    (h : ps.length = q.length) (hi : ps ≠ [] ∨ i = 0) :
    pendQ F pre i (ps ++ [p]) (q ++ [it]) = pendQ F pre i ps q ++ F (pathOf pre p) (valsOf p) 0 it := by
  induction ps generalizing q i with
  | nil =>
    obtain rfl : i = 0 := by simpa using hi
    cases q with
    | nil => simp [pendQ]
    | cons a q => simp at h
  | cons a ps ih =>
    cases q with
    | nil => simp at h
    | cons b q =>
      simp only [List.cons_append, pendQ, ih 0 q (by simpa using h) (.inr rfl), List.append_assoc]

/-- Between two calls, after the root was handed out and the children of the last node were put in the queue: the trees
still to be traversed are `ts`. -/
def CtxRun (F : List Nat → List V → Nat → List I → List (Tree O)) (pre : List Nat)
    (cc : CtxCache V) (queue : List (List I)) (counter : Nat) (ts : List (Tree O)) : Prop :=
  ∃ z : Zip (V × Nat), cc.settle = .ok (ofCache pre z.enc) ∧ queue.length = (z.cur :: z.others).length ∧
    Levels (z.cur :: z.others) ∧ ts = pendQ F pre counter (z.cur :: z.others) queue

theorem ctxRun_push (z : Zip (V × Nat)) (v : V) (c : Nat) (it it' new : List I) (q : List (List I))
    (hlen : (it :: q).length = (z.cur :: z.others).length) (hlev : Levels (z.cur :: z.others)) :
    CtxRun F pre ⟨v :: (ofCache pre z.enc).ancestors, c :: (ofCache pre z.enc).path, (ofCache pre z.enc).stack,
        (ofCache pre z.enc).cache⟩ (it' :: q ++ [new]) (c + 1)
      (pendQ F pre (c + 1) (z.cur :: z.others) (it' :: q) ++
        F (pathOf pre z.cur ++ [c]) (valsOf z.cur ++ [v]) 0 new) := by
  have hne : z.enc.items ≠ [] := by rw [Zip.items_enc]; cases z <;> simp [Zip.cur, ancOf]
  have hne' : z.cur ≠ [] := by rw [← Zip.items_enc]; exact hne
  refine ⟨z.push (v, c), ?_, ?_, ?_, ?_⟩
  · have e : (⟨v :: (ofCache pre z.enc).ancestors, c :: (ofCache pre z.enc).path, (ofCache pre z.enc).stack,
        (ofCache pre z.enc).cache⟩ : CtxCache V) = ofCache pre { z.enc with items := (v, c) :: z.enc.items } := by
      simp [ofCache, List.dropLast_cons_of_ne_nil hne]
    rw [e, ofCache_settle, settle_push]
    rfl
  · simp only [Zip.cur_push, Zip.others_push, List.length_append, List.length_cons, List.length_nil] at hlen ⊢
    omega
  · rw [Zip.cur_push, Zip.others_push]
    exact hlev.push _
  · rw [Zip.cur_push, Zip.others_push, ← List.cons_append,
      pendQ_append _ _ _ _ _ (by simpa using hlen.symm) (.inl (by simp))]
    simp [pathOf, valsOf, List.dropLast_cons_of_ne_nil hne']

theorem ctxRun_retire (z : Zip (V × Nat)) (it : List I) (q : List (List I)) (c : Nat)
    (hF : ∀ path anc, F path anc c it = [])
    (hlen : (it :: q).length = (z.cur :: z.others).length) (hlev : Levels (z.cur :: z.others)) :
    (q = [] → ∃ s, (ofCache pre z.enc).retire = .ok s) ∧
      (q ≠ [] → ∃ z' : Zip (V × Nat), (ofCache pre z.enc).retire = .ok (ofCache pre z'.enc) ∧
        CtxRun F pre (ofCache pre z'.enc) q 0 (pendQ F pre c (z.cur :: z.others) (it :: q))) ∧
      (q = [] → pendQ F pre c (z.cur :: z.others) (it :: q) = []) := by
  obtain ⟨r1, r2⟩ := retire_spec z hlev.le
  have hlt : z.enc.stack.length < z.enc.items.length := by
    cases z <;> simp [Zip.enc, ancOf]
  refine ⟨fun h => ?_, fun h => ?_, fun h => ?_⟩
  · obtain ⟨s, hs⟩ := r1 (by simpa [h] using hlen.symm)
    exact ⟨ofCache pre s, by rw [ofCache_retire _ _ hlt, hs]; rfl⟩
  · obtain ⟨z', e1, e2⟩ := r2 (by
      intro h'
      simp [h', h] at hlen)
    refine ⟨z', by rw [ofCache_retire _ _ hlt, e1]; rfl, z', ?_, ?_, ?_, ?_⟩
    · rw [ofCache_settle, settle_enc]; rfl
    · rw [e2]; simpa using hlen
    · rw [e2]; exact hlev.tail
    · rw [e2]; simp [pendQ, hF]
  · have : z.others = [] := by simpa [h] using hlen.symm
    simp [this, h, pendQ, hF]

/-! ## General trees -/

/-- The trees below a node with the given children. -/
def kidsF [TreeNode N V] (path : List Nat) (anc : List V) (i : Nat) (ns : List N) : List (Tree (Ctx V (List N))) :=
  ctxTL path anc i (ns.map unfold)

theorem ctxT_unfold [TreeNode N V] (path : List Nat) (anc : List V) (n : N) :
    ctxT path anc (unfold n) =
      .node ⟨path, anc ++ [val n], some (kids n)⟩ (kidsF path (anc ++ [val n]) 0 (kids n)) := by
  rw [unfold_eq, ctxT]
  rfl

theorem arityLt_iff [TreeNode N V] (n : N) :
    ArityLt n ↔ (kids n).length < 2 ^ 64 ∧ ∀ c ∈ kids n, ArityLt c := by
  rw [ArityLt, unfold_eq, Tree.preorder_node]
  simp only [List.mem_cons, List.mem_flatMap, List.mem_map]
  constructor
  · intro h
    exact ⟨h n (Or.inl rfl), fun c hc m hm => h m (Or.inr ⟨unfold c, ⟨c, hc, rfl⟩, hm⟩)⟩
  · rintro ⟨h1, h2⟩ m (rfl | ⟨t, ⟨c, hc, rfl⟩, hm⟩)
    · exact h1
    · exact h2 c hc m hm

/-- The path counter cannot overflow. -/
def ArQ [TreeNode N V] (queue : List (List N)) (counter : Nat) : Prop :=
  (∀ ns ∈ queue, ns.length < 2 ^ 64 ∧ ∀ n ∈ ns, ArityLt n) ∧ ∀ ns, queue.head? = some ns → counter + ns.length < 2 ^ 64

theorem ArQ.tail [TreeNode N V] {it : List N} {q : List (List N)} {c : Nat} (h : ArQ (it :: q) c) : ArQ q 0 :=
  ⟨fun ns hns => h.1 ns (by simp [hns]), fun ns hns => by
    have := (h.1 ns (by simp [List.mem_of_mem_head? hns])).1
    omega⟩

theorem ctxLoop_spec [TreeNode N V] (queue : List (List N)) (cc : CtxCache V) (counter : Nat)
    (ts : List (Tree (Ctx V (List N)))) (h : CtxRun kidsF pre cc queue counter ts) (ha : ArQ queue counter) :
    ∃ s', ctxLoop queue cc counter = .ok s' ∧ s'.isRoot = false ∧ (ts = [] → s'.cc.ancestors = []) ∧
      ∀ a us rest, ts = .node a us :: rest → ctxGet s' = some a ∧ s'.cc.ancestors ≠ [] ∧
        ∃ cs, s'.children = some cs ∧ CtxRun kidsF pre s'.cc (s'.queue ++ [cs]) s'.counter (rest ++ us) ∧
          ArQ (s'.queue ++ [cs]) s'.counter := by
  induction queue generalizing cc counter with
  | nil =>
    obtain ⟨z, _, h2, _⟩ := h
    simp at h2
  | cons it q ih =>
    obtain ⟨z, h1, h2, h3, h4⟩ := h
    cases it with
    | cons n ns =>
      have hc : counter + (n :: ns).length < 2 ^ 64 := ha.2 _ rfl
      have e1 : checkedSucc counter = .ok (counter + 1) := by
        rw [checkedSucc, if_pos]
        simp only [List.length_cons] at hc
        omega
      have hn : ArityLt n := (ha.1 (n :: ns) (by simp)).2 n (by simp)
      have e2 := ctxRun_push (F := kidsF) (pre := pre) z (val n) counter (n :: ns) ns (kids n) q h2 h3
      refine ⟨⟨false, ⟨val n :: (ofCache pre z.enc).ancestors, counter :: (ofCache pre z.enc).path,
        (ofCache pre z.enc).stack, (ofCache pre z.enc).cache⟩, some (kids n), ns :: q, counter + 1⟩, ?_, rfl, ?_, ?_⟩
      · rw [ctxLoop, h1]
        simp only [e1]
      · intro h
        rw [h4] at h
        simp [pendQ, kidsF, ctxTL] at h
      · intro a us rest h
        have e3 : ts = .node ⟨pathOf pre z.cur ++ [counter], valsOf z.cur ++ [val n], some (kids n)⟩
            (kidsF (pathOf pre z.cur ++ [counter]) (valsOf z.cur ++ [val n]) 0 (kids n)) ::
              pendQ kidsF pre (counter + 1) (z.cur :: z.others) (ns :: q) := by
          rw [h4, pendQ, kidsF, List.map_cons, ctxTL, ctxT_unfold]
          rfl
        rw [e3] at h
        obtain ⟨⟨rfl, rfl⟩, rfl⟩ : (_ ∧ _) ∧ _ := by simpa only [List.cons.injEq, Tree.node.injEq] using h
        refine ⟨?_, by simp, kids n, rfl, e2, ?_⟩
        · simp [ctxGet, ofCache, pathOf, valsOf, Zip.items_enc]
        · refine ⟨?_, ?_⟩
          · intro ms hms
            rcases List.mem_append.1 hms with hms | hms
            · rcases List.mem_cons.1 hms with rfl | hms
              · have := ha.1 (n :: ms) (by simp)
                refine ⟨?_, fun m hm => this.2 m (by simp [hm])⟩
                have := this.1
                simp only [List.length_cons] at this
                omega
              · exact ha.1 ms (by simp [hms])
            · obtain rfl : ms = kids n := by simpa using hms
              exact (arityLt_iff n).1 hn
          · intro ms hms
            obtain rfl : ns = ms := by simpa using hms
            simp only [List.length_cons] at hc ⊢
            omega
    | nil =>
      obtain ⟨r1, r2, r3⟩ := ctxRun_retire (F := kidsF) (pre := pre) z ([] : List N) q counter
        (fun _ _ => rfl) h2 h3
      by_cases hq : q = []
      · obtain ⟨s, hs⟩ := r1 hq
        refine ⟨⟨false, { s with ancestors := [] }, none, [], 0⟩, ?_, rfl, fun _ => rfl, ?_⟩
        · rw [ctxLoop, h1]
          simp [hs, hq]
        · intro a us rest h
          rw [h4, r3 hq] at h
          simp at h
      · obtain ⟨z', e1, e2⟩ := r2 hq
        have e3 : ctxLoop ([] :: q) cc counter = ctxLoop q (ofCache pre z'.enc) 0 := by
          rw [ctxLoop, h1]
          simp [e1, hq]
        rw [e3]
        exact ih _ 0 (h4 ▸ e2) ha.tail

/-- States of `attach_context` and the trees they have yet to traverse. -/
inductive CtxRel [TreeNode N V] (pre : List Nat) (s : CtxState V (List N) N) : List (Tree (Ctx V (List N))) → Prop where
  | root (v : V) (cs : List N) (h : s = ⟨true, ⟨[v], pre, [], .mk none []⟩, some cs, [], 0⟩) (ha : ArQ [cs] 0) :
    CtxRel pre s [.node ⟨pre.reverse, [v], some cs⟩ (kidsF pre.reverse [v] 0 cs)]
  | run (cs : List N) (ts : List (Tree (Ctx V (List N)))) (hr : s.isRoot = false) (hc : s.children = some cs)
      (hn : s.cc.ancestors ≠ []) (h : CtxRun kidsF pre s.cc (s.queue ++ [cs]) s.counter ts)
      (ha : ArQ (s.queue ++ [cs]) s.counter) : CtxRel pre s ts
  | done (hr : s.isRoot = false) (hn : s.cc.ancestors = []) : CtxRel pre s []

theorem ctxNext_spec [TreeNode N V] (s : CtxState V (List N) N) (ts : List (Tree (Ctx V (List N))))
    (h : CtxRel pre s ts) :
    ∃ s', s'.isRoot = false ∧ (ts = [] → ctxNext s = .ok (none, s') ∧ CtxRel pre s' []) ∧
      ∀ a us rest, ts = .node a us :: rest → ctxNext s = .ok (some a, s') ∧ CtxRel pre s' (rest ++ us) := by
  cases h with
  | root v cs h ha =>
    subst h
    refine ⟨⟨false, ⟨[v], pre, [], .mk none []⟩, some cs, [], 0⟩, rfl, by simp, ?_⟩
    intro a us rest h
    obtain ⟨⟨rfl, rfl⟩, rfl⟩ : (_ ∧ _) ∧ _ := by simpa only [List.cons.injEq, Tree.node.injEq] using h
    refine ⟨rfl, .run cs _ rfl rfl (by simp) ⟨.root (v, 0) [], ?_, rfl, ?_, ?_⟩ ha⟩
    · rfl
    · exact ⟨by simp [Zip.cur, Zip.others], by simp [Zip.others]⟩
    · simp [Zip.cur, Zip.others, pendQ, pathOf, valsOf]
  | run cs ts hr hc hn h ha =>
    obtain ⟨s', e1, e2, e3, e4⟩ := ctxLoop_spec _ _ _ _ h ha
    have e5 : ctxNext s = .ok (ctxGet s', s') := by
      have : s.cc.ancestors.isEmpty = false := by simpa using hn
      simp [ctxNext, streamNextE, ctxAdvance, hr, this, hc, e1]
    refine ⟨s', e2, fun ht => ⟨?_, .done e2 (e3 ht)⟩, fun a us rest ht => ?_⟩
    · rw [e5]
      simp [ctxGet, e3 ht]
    · obtain ⟨f1, f2, cs', f3, f4, f5⟩ := e4 a us rest ht
      exact ⟨by rw [e5, f1], .run cs' _ e2 f3 f2 f4 f5⟩
  | done hr hn =>
    refine ⟨s, hr, fun _ => ⟨?_, .done hr hn⟩, by simp⟩
    simp [ctxNext, streamNextE, ctxAdvance, hr, hn, ctxGet]

theorem ctxRel_new [TreeNode N V] (n : N) (path : List Nat) (ha : ArityLt n) :
    CtxRel path.reverse (CtxState.new n path) [ctxT path [] (unfold n)] := by
  have := CtxRel.root (pre := path.reverse) (s := CtxState.new n path) (val n) (kids n) rfl
    ⟨by
      intro ns hns
      obtain rfl : ns = kids n := by simpa using hns
      exact (arityLt_iff n).1 ha,
     by
      intro ns hns
      obtain rfl : kids n = ns := by simpa using hns
      have := ((arityLt_iff n).1 ha).1
      omega⟩
  rw [List.reverse_reverse] at this
  rw [ctxT_unfold]
  exact this

theorem ctx_calls [TreeNode N V] (k : Nat) (s : CtxState V (List N) N) (ts : List (Tree (Ctx V (List N))))
    (h : CtxRel pre s ts) :
    nthCallE ctxNext k s = .ok (bfsF ts)[k]? := by
  refine (nthCallE_rel (fun s l => ∃ ts, CtxRel pre s ts ∧ l = bfsF ts) ?_ ⟨ts, h, rfl⟩ k).1
  rintro s l ⟨ts, h, rfl⟩
  obtain ⟨s', _, e2, e3⟩ := ctxNext_spec s ts h
  rcases ts with _ | ⟨⟨a, us⟩, rest⟩
  · exact ⟨s', by simpa using (e2 rfl).1, [], (e2 rfl).2, by simp⟩
  · obtain ⟨f1, f2⟩ := e3 a us rest rfl
    exact ⟨s', by rw [f1, bfsF_cons]; rfl, _, f2, by rw [bfsF_cons]; rfl⟩

/-! ## Binary trees -/

/-- The trees below a node with the given slots. -/
def slotsF [BinNode N V] (path : List Nat) (anc : List V) (i : Nat) (ss : List (Option N)) :
    List (Tree (Ctx V (Option N × Option N))) :=
  (ctxSlots path anc i ss).map BinTree.toTree

theorem ctxB_unfold2 [BinNode N V] (path : List Nat) (anc : List V) (n : N) :
    (ctxB path anc (unfold2 n)).toTree =
      .node ⟨path, anc ++ [val2 n], some (split2 n).2⟩
        (slotsF path (anc ++ [val2 n]) 0 [(split2 n).2.1, (split2 n).2.2]) := by
  rw [unfold2_eq, ctxB, BinTree.toTree, slotsF]
  congr 1
  cases (split2 n).2.1 <;> cases (split2 n).2.2 <;> simp [ctxBO, BinTree.slotTrees, ctxSlots]

/-- No iterator has more than two slots left and the path counter counts the slots seen. -/
def SlQ (queue : List (List (Option N))) (counter : Nat) : Prop :=
  (∀ ss ∈ queue, ss.length ≤ 2) ∧ ∀ ss, queue.head? = some ss → counter + ss.length ≤ 2

theorem SlQ.tail {it : List (Option N)} {q : List (List (Option N))} {c : Nat} (h : SlQ (it :: q) c) : SlQ q 0 :=
  ⟨fun ns hns => h.1 ns (by simp [hns]), fun ns hns => by
    have := h.1 ns (by simp [List.mem_of_mem_head? hns])
    omega⟩

theorem checkedSucc_ok {c : Nat} (h : c < 2) : checkedSucc c = .ok (c + 1) := by
  rw [checkedSucc, if_pos]
  omega

/-- Scanning either finds nothing, or a node at the slot whose index is the counter. -/
theorem binScan_spec [BinNode N V] (it : List (Option N)) (c : Nat) (h : c + it.length ≤ 2) :
    (∃ c', binScan it c = .ok (none, [], c') ∧ ∀ path (anc : List V), slotsF path anc c it = []) ∨
      ∃ n ss c', binScan it c = .ok (some n, ss, c') ∧ c' + 1 + ss.length ≤ 2 ∧
        ∀ path (anc : List V), slotsF path anc c it =
          (ctxB (path ++ [c']) anc (unfold2 n)).toTree :: slotsF path anc (c' + 1) ss := by
  induction it generalizing c with
  | nil => exact .inl ⟨c, rfl, fun _ _ => rfl⟩
  | cons o it ih =>
    simp only [List.length_cons] at h
    cases o with
    | none =>
      have := ih (c + 1) (by omega)
      simp only [binScan, checkedSucc_ok (show c < 2 by omega), slotsF, ctxSlots]
      exact this
    | some n =>
      exact .inr ⟨n, it, c, rfl, by omega, fun _ _ => rfl⟩

theorem binCtxLoop_spec [BinNode N V] (queue : List (List (Option N))) (cc : CtxCache V) (counter : Nat)
    (ts : List (Tree (Ctx V (Option N × Option N)))) (h : CtxRun slotsF pre cc queue counter ts)
    (ha : SlQ queue counter) :
    ∃ s', binCtxLoop queue cc counter = .ok s' ∧ s'.isRoot = false ∧ (ts = [] → s'.cc.ancestors = []) ∧
      ∀ a us rest, ts = .node a us :: rest → ctxGet s' = some a ∧ s'.cc.ancestors ≠ [] ∧
        ∃ cs : Option N × Option N, s'.children = some cs ∧
          CtxRun slotsF pre s'.cc (s'.queue ++ [[cs.1, cs.2]]) s'.counter (rest ++ us) ∧
          SlQ (s'.queue ++ [[cs.1, cs.2]]) s'.counter := by
  induction queue generalizing cc counter with
  | nil =>
    obtain ⟨z, _, h2, _⟩ := h
    simp at h2
  | cons it q ih =>
    obtain ⟨z, h1, h2, h3, h4⟩ := h
    rcases binScan_spec (V := V) it counter (ha.2 it rfl) with ⟨c', hs, hF⟩ | ⟨n, ss, c', hs, hlen, hF⟩
    · obtain ⟨r1, r2, r3⟩ := ctxRun_retire (F := slotsF) (pre := pre) z it q counter hF h2 h3
      by_cases hq : q = []
      · obtain ⟨s, hs'⟩ := r1 hq
        refine ⟨⟨false, { s with ancestors := [] }, none, [], 0⟩, ?_, rfl, fun _ => rfl, ?_⟩
        · rw [binCtxLoop, h1]
          simp [hs, hs', hq]
        · intro a us rest h
          rw [h4, r3 hq] at h
          simp at h
      · obtain ⟨z', e1, e2⟩ := r2 hq
        have e3 : binCtxLoop (it :: q) cc counter = binCtxLoop q (ofCache pre z'.enc) 0 := by
          rw [binCtxLoop, h1]
          simp [hs, e1, hq]
        rw [e3]
        exact ih _ 0 (h4 ▸ e2) ha.tail
    · have e2 := ctxRun_push (F := slotsF) (pre := pre) z (val2 n) c' it ss [(split2 n).2.1, (split2 n).2.2] q h2 h3
      refine ⟨⟨false, ⟨val2 n :: (ofCache pre z.enc).ancestors, c' :: (ofCache pre z.enc).path,
        (ofCache pre z.enc).stack, (ofCache pre z.enc).cache⟩, some (split2 n).2, ss :: q, c' + 1⟩, ?_, rfl, ?_, ?_⟩
      · rw [binCtxLoop, h1]
        simp only [hs, checkedSucc_ok (show c' < 2 by omega)]
      · intro h
        rw [h4, pendQ, hF] at h
        simp at h
      · intro a us rest h
        have e3 : ts = .node ⟨pathOf pre z.cur ++ [c'], valsOf z.cur ++ [val2 n], some (split2 n).2⟩
            (slotsF (pathOf pre z.cur ++ [c']) (valsOf z.cur ++ [val2 n]) 0 [(split2 n).2.1, (split2 n).2.2]) ::
              pendQ slotsF pre (c' + 1) (z.cur :: z.others) (ss :: q) := by
          rw [h4, pendQ, hF, ctxB_unfold2]
          rfl
        rw [e3] at h
        obtain ⟨⟨rfl, rfl⟩, rfl⟩ : (_ ∧ _) ∧ _ := by simpa only [List.cons.injEq, Tree.node.injEq] using h
        refine ⟨?_, by simp, (split2 n).2, rfl, e2, ?_⟩
        · simp [ctxGet, ofCache, pathOf, valsOf, Zip.items_enc]
        · refine ⟨?_, ?_⟩
          · intro ms hms
            rcases List.mem_append.1 hms with hms | hms
            · rcases List.mem_cons.1 hms with rfl | hms
              · omega
              · exact ha.1 ms (by simp [hms])
            · obtain rfl : ms = [(split2 n).2.1, (split2 n).2.2] := by simpa using hms
              simp
          · intro ms hms
            obtain rfl : ss = ms := by simpa using hms
            exact hlen

/-- States of the binary `attach_context` and the trees they have yet to traverse. -/
inductive BinCtxRel [BinNode N V] (pre : List Nat) (s : CtxState V (Option N × Option N) (Option N)) :
    List (Tree (Ctx V (Option N × Option N))) → Prop where
  | root (v : V) (cs : Option N × Option N) (h : s = ⟨true, ⟨[v], pre, [], .mk none []⟩, some cs, [], 0⟩) :
    BinCtxRel pre s [.node ⟨pre.reverse, [v], some cs⟩ (slotsF pre.reverse [v] 0 [cs.1, cs.2])]
  | run (cs : Option N × Option N) (ts : List (Tree (Ctx V (Option N × Option N)))) (hr : s.isRoot = false)
      (hc : s.children = some cs) (hn : s.cc.ancestors ≠ [])
      (h : CtxRun slotsF pre s.cc (s.queue ++ [[cs.1, cs.2]]) s.counter ts)
      (ha : SlQ (s.queue ++ [[cs.1, cs.2]]) s.counter) : BinCtxRel pre s ts
  | done (hr : s.isRoot = false) (hn : s.cc.ancestors = []) : BinCtxRel pre s []

theorem binCtxNext_spec [BinNode N V] (s : CtxState V (Option N × Option N) (Option N))
    (ts : List (Tree (Ctx V (Option N × Option N)))) (h : BinCtxRel pre s ts) :
    ∃ s', s'.isRoot = false ∧ (ts = [] → binCtxNext s = .ok (none, s') ∧ BinCtxRel pre s' []) ∧
      ∀ a us rest, ts = .node a us :: rest → binCtxNext s = .ok (some a, s') ∧ BinCtxRel pre s' (rest ++ us) := by
  cases h with
  | root v cs h =>
    subst h
    refine ⟨⟨false, ⟨[v], pre, [], .mk none []⟩, some cs, [], 0⟩, rfl, by simp, ?_⟩
    intro a us rest h
    obtain ⟨⟨rfl, rfl⟩, rfl⟩ : (_ ∧ _) ∧ _ := by simpa only [List.cons.injEq, Tree.node.injEq] using h
    refine ⟨rfl, .run cs _ rfl rfl (by simp) ⟨.root (v, 0) [], ?_, rfl, ?_, ?_⟩ ⟨by simp, by simp⟩⟩
    · rfl
    · exact ⟨by simp [Zip.cur, Zip.others], by simp [Zip.others]⟩
    · simp [Zip.cur, Zip.others, pendQ, pathOf, valsOf]
  | run cs ts hr hc hn h ha =>
    obtain ⟨s', e1, e2, e3, e4⟩ := binCtxLoop_spec _ _ _ _ h ha
    have e5 : binCtxNext s = .ok (ctxGet s', s') := by
      have : s.cc.ancestors.isEmpty = false := by simpa using hn
      simp [binCtxNext, streamNextE, binCtxAdvance, hr, this, hc, e1]
    refine ⟨s', e2, fun ht => ⟨?_, .done e2 (e3 ht)⟩, fun a us rest ht => ?_⟩
    · rw [e5]
      simp [ctxGet, e3 ht]
    · obtain ⟨f1, f2, cs', f3, f4, f5⟩ := e4 a us rest ht
      exact ⟨by rw [e5, f1], .run cs' _ e2 f3 f2 f4 f5⟩
  | done hr hn =>
    refine ⟨s, hr, fun _ => ⟨?_, .done hr hn⟩, by simp⟩
    simp [binCtxNext, streamNextE, binCtxAdvance, hr, hn, ctxGet]

theorem binCtxRel_new [BinNode N V] (n : N) (path : List Nat) :
    BinCtxRel path.reverse (CtxState.binNew n path) [(ctxB path [] (unfold2 n)).toTree] := by
  have := BinCtxRel.root (pre := path.reverse) (s := CtxState.binNew n path) (val2 n) (split2 n).2 rfl
  rw [List.reverse_reverse] at this
  rw [ctxB_unfold2]
  exact this

theorem binCtx_calls [BinNode N V] (k : Nat) (s : CtxState V (Option N × Option N) (Option N))
    (ts : List (Tree (Ctx V (Option N × Option N)))) (h : BinCtxRel pre s ts) :
    nthCallE binCtxNext k s = .ok (bfsF ts)[k]? := by
  refine (nthCallE_rel (fun s l => ∃ ts, BinCtxRel pre s ts ∧ l = bfsF ts) ?_ ⟨ts, h, rfl⟩ k).1
  rintro s l ⟨ts, h, rfl⟩
  obtain ⟨s', _, e2, e3⟩ := binCtxNext_spec s ts h
  rcases ts with _ | ⟨⟨a, us⟩, rest⟩
  · exact ⟨s', by simpa using (e2 rfl).1, [], (e2 rfl).2, by simp⟩
  · obtain ⟨f1, f2⟩ := e3 a us rest rfl
    exact ⟨s', by rw [f1, bfsF_cons]; rfl, _, f2, by rw [bfsF_cons]; rfl⟩

end Bfs

end TreeIter
