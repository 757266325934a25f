import Verif.Lemmas.BfsCache

/-! # Lemmas about the breadth-first ancestor iterators -/

universe u v w

namespace TreeIter

section Rel
variable {S : Type u} {O : Type v}

/-- As `nthCallE_spec`, with a relation between states and the outputs still to come, for iterators that may only be
used up to the first `None`. -/
theorem nthCallE_until {next : S → Except Panic (Option O × S)} (R : S → List O → Prop)
    (hnext : ∀ s l, R s l → ∃ s', next s = .ok (l.head?, s') ∧ (l ≠ [] → R s' l.tail))
    {s : S} {l : List O} (hs : R s l) (k : Nat) (hk : k ≤ l.length) :
    nthCallE next k s = .ok l[k]? ∧ ∃ s', stateAfterE next k s = .ok s' ∧ R s' (l.drop k) := by
  induction k generalizing s l with
  | zero =>
    obtain ⟨s', h1, h2⟩ := hnext s l hs
    refine ⟨?_, s, rfl, by simpa using hs⟩
    simp [nthCallE, stateAfterE, h1, List.head?_eq_getElem?]
  | succ k ih =>
    obtain ⟨s', h1, h2⟩ := hnext s l hs
    cases l with
    | nil => simp at hk
    | cons a l =>
      obtain ⟨i1, s'', i2, i3⟩ := ih (h2 (by simp)) (by simpa using hk)
      refine ⟨?_, s'', ?_, i3⟩
      · rw [nthCallE, stateAfterE, h1]
        exact i1
      · rw [stateAfterE, h1]
        exact i2

/-- As `nthCallE_spec`, with a relation between states and the outputs still to come. -/
theorem nthCallE_rel {next : S → Except Panic (Option O × S)} (R : S → List O → Prop)
    (hnext : ∀ s l, R s l → ∃ s', next s = .ok (l.head?, s') ∧ R s' l.tail)
    {s : S} {l : List O} (hs : R s l) (k : Nat) :
    nthCallE next k s = .ok l[k]? ∧ ∃ s', stateAfterE next k s = .ok s' ∧ R s' (l.drop k) := by
  induction k generalizing s l with
  | zero =>
    obtain ⟨s', h1, h2⟩ := hnext s l hs
    refine ⟨?_, s, rfl, by simpa using hs⟩
    simp [nthCallE, stateAfterE, h1, List.head?_eq_getElem?]
  | succ k ih =>
    obtain ⟨s', h1, h2⟩ := hnext s l hs
    obtain ⟨i1, s'', i2, i3⟩ := ih h2
    refine ⟨?_, s'', ?_, by simpa using i3⟩
    · rw [nthCallE, stateAfterE, h1]
      rw [List.getElem?_tail] at i1
      exact i1
    · rw [stateAfterE, h1]
      exact i2

theorem stateAfterE_succ {next : S → Except Panic (Option O × S)} {k : Nat} {s s' s'' : S} {o : Option O}
    (h1 : stateAfterE next k s = .ok s') (h2 : next s' = .ok (o, s'')) : stateAfterE next (k + 1) s = .ok s'' := by
  induction k generalizing s with
  | zero =>
    obtain rfl : s = s' := by simpa [stateAfterE] using h1
    simp [stateAfterE, h2]
  | succ k ih =>
    rw [stateAfterE] at h1 ⊢
    split at h1
    · simp at h1
    · exact ih h1

end Rel

namespace Bfs

variable {N : Type u} {V : Type v} {β : Type w}

/-- Lengths as in a breadth-first queue: not decreasing, and at most one more than at the front. -/
def Levels : List (List β) → Prop
  | [] => True
  | p :: ps => (p :: ps).Pairwise (fun a b => a.length ≤ b.length) ∧ ∀ q ∈ ps, q.length ≤ p.length + 1

theorem Levels.tail {p : List β} {ps : List (List β)} (h : Levels (p :: ps)) : Levels ps := by
  cases ps with
  | nil => trivial
  | cons q qs =>
    obtain ⟨h1, h2⟩ := h
    rw [List.pairwise_cons] at h1
    refine ⟨h1.2, fun x hx => ?_⟩
    have a := h2 x (by simp [hx])
    have b := h1.1 q (by simp)
    omega

theorem Levels.push {p : List β} {ps : List (List β)} (h : Levels (p :: ps)) (y : β) :
    Levels (p :: (ps ++ [y :: p])) := by
  obtain ⟨h1, h2⟩ := h
  constructor
  · rw [← List.cons_append, List.pairwise_append]
    refine ⟨h1, by simp, fun a ha b hb => ?_⟩
    obtain rfl : b = y :: p := by simpa using hb
    rcases List.mem_cons.1 ha with rfl | ha
    · simp
    · simpa using h2 a ha
  · intro q hq
    rcases List.mem_append.1 hq with hq | hq
    · exact h2 q hq
    · obtain rfl : q = y :: p := by simpa using hq
      simp

theorem Levels.le {p : List β} {ps : List (List β)} (h : Levels (p :: ps)) : ∀ q ∈ ps, p.length ≤ q.length :=
  (List.pairwise_cons.1 h.1).1

/-- The trees still to be traversed: below each pending node, what is left of its child iterator. -/
def pendT [TreeNode N V] : List (List V) → List (List N) → List (Tree (List V))
  | p :: ps, ns :: q => (ns.map fun n => ancT p.reverse (treeOf n)) ++ pendT ps q
  | _, _ => []

theorem pendT_append [TreeNode N V] (ps : List (List V)) (q : List (List N)) (p : List V) (ns : List N)
    (h : ps.length = q.length) :
    pendT (ps ++ [p]) (q ++ [ns]) = pendT ps q ++ ns.map fun n => ancT p.reverse (treeOf n) := by
  induction ps generalizing q with
  | nil =>
    cases q with
    | nil => simp [pendT]
    | cons a q => simp at h
  | cons a ps ih =>
    cases q with
    | nil => simp at h
    | cons b q => simp [pendT, ih q (by simpa using h)]

/-- Between two calls, after the root was handed out: the trees still to be traversed are `ts`. -/
def AncRun [TreeNode N V] (cs : CacheState V) (queue : List (List N)) (ts : List (Tree (List V))) : Prop :=
  ∃ z : Zip V, settle cs = .ok z.enc ∧ queue.length = (z.cur :: z.others).length ∧ Levels (z.cur :: z.others) ∧
    ts = pendT (z.cur :: z.others) queue

/-- What taking a node from the first iterator does. -/
theorem ancRun_push [TreeNode N V] (z : Zip V) (n : N) (ns : List N) (q : List (List N))
    (hlen : ((n :: ns) :: q).length = (z.cur :: z.others).length) (hlev : Levels (z.cur :: z.others)) :
    ∃ rest, pendT (z.cur :: z.others) ((n :: ns) :: q) =
        .node (val n :: z.cur).reverse ((kids n).map fun c => ancT (val n :: z.cur).reverse (treeOf c)) :: rest ∧
      AncRun { z.enc with items := val n :: z.enc.items } ((ns :: q) ++ [kids n])
        (rest ++ (kids n).map fun c => ancT (val n :: z.cur).reverse (treeOf c)) := by
  refine ⟨pendT (z.cur :: z.others) (ns :: q), ?_, z.push (val n), settle_push z (val n), ?_, ?_, ?_⟩
  · rw [pendT, List.map_cons, ancT_treeOf, List.cons_append, pendT, List.reverse_cons]
  · simp only [Zip.cur_push, Zip.others_push, List.length_append, List.length_cons, List.length_nil] at hlen ⊢
    omega
  · rw [Zip.cur_push, Zip.others_push]
    exact hlev.push _
  · rw [Zip.cur_push, Zip.others_push, ← List.cons_append, pendT_append _ _ _ _ (by simpa using hlen.symm)]

/-- What dropping a spent iterator does. -/
theorem ancRun_retire [TreeNode N V] (z : Zip V) (q : List (List N))
    (hlen : (([] : List N) :: q).length = (z.cur :: z.others).length) (hlev : Levels (z.cur :: z.others)) :
    (q = [] → ∃ s, z.enc.retire = .ok s) ∧
      (q ≠ [] → ∃ z' : Zip V, z.enc.retire = .ok z'.enc ∧
        AncRun z'.enc q (pendT (z.cur :: z.others) ([] :: q))) ∧
      (q = [] → pendT (z.cur :: z.others) ([] :: q) = []) := by
  obtain ⟨r1, r2⟩ := retire_spec z hlev.le
  refine ⟨fun h => r1 ?_, fun h => ?_, fun h => ?_⟩
  · simpa [h] using hlen.symm
  · obtain ⟨z', e1, e2⟩ := r2 (by
      intro h'
      simp [h', h] at hlen)
    refine ⟨z', e1, z', settle_enc z', ?_, ?_, ?_⟩
    · rw [e2]; simpa using hlen
    · rw [e2]; exact hlev.tail
    · rw [e2]; simp [pendT]
  · have : z.others = [] := by simpa [h] using hlen.symm
    simp [this, h, pendT]

theorem ancLoop_spec [TreeNode N V] (queue : List (List N)) (cs : CacheState V) (ts : List (Tree (List V)))
    (h : AncRun cs queue ts) :
    ∃ s', ancLoop queue cs = .ok s' ∧ s'.isRoot = false ∧
      (ts = [] → s'.cs.items = [] ∧ s'.queue = []) ∧
      ∀ a us rest, ts = .node a us :: rest → ancGet s' = some a ∧ AncRun s'.cs s'.queue (rest ++ us) := by
  induction queue generalizing cs with
  | nil =>
    obtain ⟨z, _, h2, _⟩ := h
    simp at h2
  | cons it q ih =>
    obtain ⟨z, h1, h2, h3, h4⟩ := h
    cases it with
    | cons n ns =>
      obtain ⟨rest, e1, e2⟩ := ancRun_push z n ns q h2 h3
      rw [e1] at h4
      refine ⟨⟨false, { z.enc with items := val n :: z.enc.items }, (ns :: q) ++ [kids n]⟩, ?_, rfl, ?_, ?_⟩
      · rw [ancLoop, h1]
      · intro h; simp [h4] at h
      · intro a us rest' h
        rw [h4] at h
        obtain ⟨⟨rfl, rfl⟩, rfl⟩ : (_ ∧ _) ∧ _ := by simpa only [List.cons.injEq, Tree.node.injEq] using h
        exact ⟨by simp [ancGet, Zip.items_enc], e2⟩
    | nil =>
      obtain ⟨r1, r2, r3⟩ := ancRun_retire z q h2 h3
      by_cases hq : q = []
      · obtain ⟨s, hs⟩ := r1 hq
        refine ⟨⟨false, { s with items := [] }, []⟩, ?_, rfl, fun _ => ⟨rfl, rfl⟩, ?_⟩
        · rw [ancLoop, h1]
          simp [hs, hq]
        · intro a us rest h
          rw [h4, r3 hq] at h
          simp at h
      · obtain ⟨z', e1, e2⟩ := r2 hq
        have e3 : ancLoop ([] :: q) cs = ancLoop q z'.enc := by
          rw [ancLoop, h1]
          simp [e1, hq]
        rw [e3]
        exact ih z'.enc (h4 ▸ e2)

/-- States of `attach_ancestors` and the trees they have yet to traverse. -/
def AncRel [TreeNode N V] (s : AncState N V) (ts : List (Tree (List V))) : Prop :=
  match s.isRoot with
  | true => ∃ v q, s.cs = (Zip.root v []).enc ∧ s.queue = [q] ∧ ts = [.node [v] (q.map fun n => ancT [v] (treeOf n))]
  | false => AncRun s.cs s.queue ts

theorem ancRun_first [TreeNode N V] (v : V) (q : List N) :
    AncRun (Zip.root v []).enc [q] (q.map fun n => ancT [v] (treeOf n)) :=
  ⟨.root v [], settle_enc _, rfl, ⟨by simp [Zip.cur, Zip.others], by simp [Zip.others]⟩,
    by simp [Zip.cur, Zip.others, pendT]⟩

theorem ancNext_spec [TreeNode N V] (s : AncState N V) (ts : List (Tree (List V))) (h : AncRel s ts) :
    ∃ s', s'.isRoot = false ∧ (ts = [] → ancNext s = .ok (none, s') ∧ s'.cs.items = [] ∧ s'.queue = []) ∧
      ∀ a us rest, ts = .node a us :: rest → ancNext s = .ok (some a, s') ∧ AncRun s'.cs s'.queue (rest ++ us) := by
  obtain ⟨isRoot, cs, queue⟩ := s
  cases isRoot with
  | true =>
    obtain ⟨v, q, h1, h2, h3⟩ := h
    simp only at h1 h2
    subst h1 h2 h3
    refine ⟨⟨false, (Zip.root v []).enc, [q]⟩, rfl, by simp, ?_⟩
    intro a us rest h
    obtain ⟨⟨rfl, rfl⟩, rfl⟩ : (_ ∧ _) ∧ _ := by simpa only [List.cons.injEq, Tree.node.injEq] using h
    exact ⟨rfl, ancRun_first v q⟩
  | false =>
    obtain ⟨s', e1, e2, e3, e4⟩ := ancLoop_spec queue cs ts h
    refine ⟨s', e2, fun hl => ⟨?_, e3 hl⟩, fun a us rest hl => ⟨?_, (e4 a us rest hl).2⟩⟩
    · simp [ancNext, streamNextE, ancAdvance, e1, ancGet, (e3 hl).1]
    · simp [ancNext, streamNextE, ancAdvance, e1, (e4 a us rest hl).1]

theorem ancRel_new [TreeNode N V] (n : N) : AncRel (AncState.new n) [ancT [] (treeOf n)] :=
  ⟨val n, kids n, rfl, rfl, by rw [ancT_treeOf]; rfl⟩

/-- The queue of trees after `k` nodes have been taken from it. -/
def bfsDrop {α : Type u} : Nat → List (Tree α) → List (Tree α)
  | 0, ts => ts
  | _ + 1, [] => []
  | k + 1, .node _ us :: rest => bfsDrop k (rest ++ us)

theorem bfsF_bfsDrop {α : Type u} (k : Nat) (ts : List (Tree α)) : bfsF (bfsDrop k ts) = (bfsF ts).drop k := by
  induction k generalizing ts with
  | zero => rfl
  | succ k ih =>
    cases ts with
    | nil => simp [bfsDrop]
    | cons t ts =>
      obtain ⟨a, us⟩ := t
      rw [bfsDrop, ih, bfsF_cons, List.drop_succ_cons]

theorem bfsDrop_mark {α : Type u} (k : Nat) (ts : List (Tree α)) :
    (bfsDrop k ts).map Tree.markLeaves = bfsDrop k (ts.map Tree.markLeaves) := by
  induction k generalizing ts with
  | zero => rfl
  | succ k ih =>
    cases ts with
    | nil => simp [bfsDrop]
    | cons t ts =>
      obtain ⟨a, us⟩ := t
      rw [bfsDrop, ih, List.map_cons, Tree.markLeaves_node, bfsDrop, List.map_append]

theorem bfsF_eq_nil {α : Type u} (ts : List (Tree α)) : bfsF ts = [] ↔ ts = [] := by
  cases ts with
  | nil => simp
  | cons t ts => obtain ⟨a, us⟩ := t; simp [bfsF_cons]

/-- The state after at most as many calls as there are nodes. -/
theorem anc_stateAfter [TreeNode N V] (k : Nat) (s : AncState N V) (ts : List (Tree (List V))) (h : AncRel s ts)
    (hk : k ≤ (bfsF ts).length) : ∃ s', stateAfterE ancNext k s = .ok s' ∧ AncRel s' (bfsDrop k ts) := by
  induction k generalizing s ts with
  | zero => exact ⟨s, rfl, h⟩
  | succ k ih =>
    cases ts with
    | nil => simp at hk
    | cons t ts =>
      obtain ⟨a, us⟩ := t
      obtain ⟨s', e1, _, e3⟩ := ancNext_spec s _ h
      obtain ⟨e4, e5⟩ := e3 a us ts rfl
      have h' : AncRel s' (ts ++ us) := by rw [AncRel, e1]; exact e5
      obtain ⟨s'', e6, e7⟩ := ih s' _ h' (by simpa [bfsF_cons] using hk)
      exact ⟨s'', by rw [stateAfterE, e4]; exact e6, e7⟩

/-- After the call that returned the first `None`. -/
theorem anc_stateAfter_end [TreeNode N V] (s : AncState N V) (ts : List (Tree (List V))) (h : AncRel s ts) :
    ∃ s', stateAfterE ancNext ((bfsF ts).length + 1) s = .ok s' ∧ s'.isRoot = false ∧ s'.cs.items = [] ∧
      s'.queue = [] := by
  obtain ⟨s', e1, e2⟩ := anc_stateAfter _ s ts h (Nat.le_refl _)
  have : bfsDrop (bfsF ts).length ts = [] := by
    rw [← bfsF_eq_nil, bfsF_bfsDrop, List.drop_length]
  rw [this] at e2
  obtain ⟨s'', e3, e4, _⟩ := ancNext_spec s' [] e2
  obtain ⟨e5, e6, e7⟩ := e4 rfl
  refine ⟨s'', ?_, e3, e6, e7⟩
  exact stateAfterE_succ e1 e5

/-! ## `attach_ancestors().leaves()` -/

/-- The outputs still to come. -/
def lvRem {α : Type u} (ts : List (Tree α)) : List α := Tree.onlyLeaves (bfsF (ts.map Tree.markLeaves))

theorem lvRem_cons {α : Type u} (a : α) (us ts : List (Tree α)) :
    lvRem (.node a us :: ts) = if us.isEmpty then a :: lvRem (ts ++ us) else lvRem (ts ++ us) := by
  rw [lvRem, List.map_cons, Tree.markLeaves_node, bfsF_cons, ← List.map_append, lvRem, Tree.onlyLeaves]
  cases us <;> simp [Tree.onlyLeaves]

/-- States of the leaves iterator. -/
def LvRel [TreeNode N V] (s : AncState N V) (ts : List (Tree (List V))) : Prop :=
  AncRel s ts ∨ (s.isRoot = false ∧ s.queue = [] ∧ ts = [])

theorem lvLoop_spec [TreeNode N V] (m : Nat) (queue : List (List N)) (cs : CacheState V)
    (hm : 2 * stackNodes queue + queue.length ≤ m) (ts : List (Tree (List V))) 
    (h : AncRun cs queue ts ∨ (queue = [] ∧ ts = [])) :
    ∃ s' ts', lvLoop false queue cs = .ok s' ∧ ancGet s' = (lvRem ts).head? ∧ lvRem ts' = (lvRem ts).tail ∧
      s'.isRoot = false ∧ (AncRun s'.cs s'.queue ts' ∨ (s'.queue = [] ∧ ts' = [])) := by
  induction m generalizing queue cs ts with
  | zero =>
    obtain rfl : queue = [] := List.length_eq_zero_iff.1 (by omega)
    rcases h with ⟨z, _, h2, _⟩ | ⟨_, rfl⟩
    · simp at h2
    · exact ⟨⟨false, { cs with items := [] }, []⟩, [], by rw [lvLoop], by simp [ancGet, lvRem, Tree.onlyLeaves],
        by simp [lvRem, Tree.onlyLeaves], rfl, .inr ⟨rfl, rfl⟩⟩
  | succ m ih =>
    rcases h with ⟨z, h1, h2, h3, h4⟩ | ⟨rfl, rfl⟩
    · cases queue with
      | nil => simp at h2
      | cons it q =>
        cases it with
        | cons n ns =>
          obtain ⟨rest, e1, e2⟩ := ancRun_push z n ns q h2 h3
          rw [e1] at h4
          by_cases hk : (kids n).isEmpty
          · refine ⟨⟨false, { z.enc with items := val n :: z.enc.items }, (ns :: q) ++ [kids n]⟩, _, ?_, ?_, ?_, rfl,
              .inl e2⟩
            · rw [lvLoop, h1]
              simp [hk]
            · simp [h4, lvRem_cons, hk, ancGet, Zip.items_enc]
            · rw [h4, lvRem_cons]
              simp [hk]
          · have e3 : lvLoop false ((n :: ns) :: q) cs =
                lvLoop false ((ns :: q) ++ [kids n]) { z.enc with items := val n :: z.enc.items } := by
              rw [lvLoop, h1]
              simp [hk]
            have e4 : lvRem ts = lvRem (rest ++ (kids n).map fun c => ancT (val n :: z.cur).reverse (treeOf c)) := by
              rw [h4, lvRem_cons]
              simp [hk]
            rw [e3, e4]
            refine ih _ _ ?_ _ (.inl e2)
            have := stackNodes_push n ns q
            simp only [List.length_append, List.length_cons, List.length_nil] at hm ⊢
            omega
        | nil =>
          obtain ⟨r1, r2, r3⟩ := ancRun_retire z q h2 h3
          have hm' : 2 * stackNodes q + q.length ≤ m := by
            simp only [stackNodes, List.map_cons, List.sum_cons, List.map_nil, List.sum_nil, List.length_cons] at hm ⊢
            omega
          by_cases hq : q = []
          · obtain ⟨s, hs⟩ := r1 hq
            have e3 : lvLoop false ([] :: q) cs = lvLoop false q s := by
              rw [lvLoop, h1]
              simp [hs]
            rw [e3]
            exact ih q s hm' ts (.inr ⟨hq, h4.trans (r3 hq)⟩)
          · obtain ⟨z', e1, e2⟩ := r2 hq
            have e3 : lvLoop false ([] :: q) cs = lvLoop false q z'.enc := by
              rw [lvLoop, h1]
              simp [e1]
            rw [e3]
            exact ih q z'.enc hm' ts (.inl (h4 ▸ e2))
    · exact ⟨⟨false, { cs with items := [] }, []⟩, [], by rw [lvLoop], by simp [ancGet, lvRem, Tree.onlyLeaves],
        by simp [lvRem, Tree.onlyLeaves], rfl, .inr ⟨rfl, rfl⟩⟩

theorem lvNext_spec [TreeNode N V] (s : AncState N V) (ts : List (Tree (List V))) (h : LvRel s ts) :
    ∃ s' ts', lvNext s = .ok ((lvRem ts).head?, s') ∧ lvRem ts' = (lvRem ts).tail ∧ LvRel s' ts' := by
  obtain ⟨isRoot, cs, queue⟩ := s
  cases isRoot with
  | false =>
    have h' : AncRun cs queue ts ∨ (queue = [] ∧ ts = []) := by
      rcases h with h | ⟨_, h⟩
      · exact .inl h
      · exact .inr h
    obtain ⟨s', ts', e1, e2, e3, e4, e5⟩ := lvLoop_spec _ queue cs (Nat.le_refl _) ts h'
    refine ⟨s', ts', ?_, e3, ?_⟩
    · simp [lvNext, streamNextE, lvAdvance, e1, e2]
    · rcases e5 with e5 | e5
      · left; rw [AncRel, e4]; exact e5
      · exact .inr ⟨e4, e5⟩
  | true =>
    rcases h with ⟨v, q, h1, h2, h3⟩ | ⟨h, _⟩
    · simp only at h1 h2
      subst h1 h2 h3
      cases q with
      | nil =>
        refine ⟨⟨false, (Zip.root v []).enc, [[]]⟩, [], ?_, ?_, .inl (ancRun_first v ([] : List N))⟩
        · rw [lvNext, streamNextE, lvAdvance, lvLoop, settle_enc]
          simp [ancGet, lvRem_cons, Zip.items_enc, Zip.cur]
        · simp [lvRem_cons]
      | cons n ns =>
        have e : lvLoop true [n :: ns] (Zip.root v []).enc = lvLoop false [n :: ns] (Zip.root v []).enc := by
          rw [lvLoop, lvLoop]
        obtain ⟨s', ts', e1, e2, e3, e4, e5⟩ := lvLoop_spec _ [n :: ns] _ (Nat.le_refl _) _
          (.inl (ancRun_first v (n :: ns)))
        have e6 : lvRem [.node [v] ((n :: ns).map fun n => ancT [v] (treeOf n))] =
            lvRem ((n :: ns).map fun n => ancT [v] (treeOf n)) := by
          rw [lvRem_cons]; simp
        rw [e6]
        refine ⟨s', ts', ?_, e3, ?_⟩
        · simp only [lvNext, streamNextE, lvAdvance, e, e1, e2]
        · rcases e5 with e5 | e5
          · left; rw [AncRel, e4]; exact e5
          · exact .inr ⟨e4, e5⟩
    · simp at h

end Bfs

end TreeIter
