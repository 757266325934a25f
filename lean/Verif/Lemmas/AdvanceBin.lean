import Verif.Lemmas.Advance

/-! # Binary pipelines advanced by hand: lemmas -/

universe u v w x y z

namespace TreeIter

section
variable {V : Type u}

/-- A tree in one of the slots of another. -/
def BinTree.put (i : Nat) : BinTree V → BinTree V → BinTree V
  | .node a l r, c => if i = 0 then .node a (some c) r else .node a l (some c)

theorem putSlot_put {i : Nat} (hi : i ≤ 1) (c u : BinTree V) : Pipe.putSlot i c u = .ok (u.put i c) := by
  obtain ⟨a, l, r⟩ := u
  match i, hi with
  | 0, _ => rfl
  | 1, _ => rfl

theorem put_leaf (i : Nat) (v : V) (u : BinTree V) : u.put i (.node v none none) = u.hang i v := by
  obtain ⟨a, l, r⟩ := u
  rfl

/-- The trees of a stack, the root first, become one tree. -/
def plug2 : List (Nat × BinTree V) → Nat × BinTree V → BinTree V
  | [], t => t.2
  | u :: r, t => u.2.put (r.head?.getD t).1 (plug2 r t)

theorem plug2_append (r : List (Nat × BinTree V)) (u t : Nat × BinTree V) :
    plug2 (r ++ [u]) t = plug2 r (u.1, u.2.put t.1 t.2) := by
  induction r with
  | nil => rfl
  | cons b r ih =>
    rw [List.cons_append, plug2, ih, plug2]
    cases r <;> rfl

/-- The part of a stack above some height as one tree. -/
def plugged2 (t : Nat × BinTree V) : List (Nat × BinTree V) → Nat × BinTree V
  | [] => t
  | u :: r => (u.1, plug2 (u :: r) t)

theorem plugged2_fst (t : Nat × BinTree V) (r : List (Nat × BinTree V)) : (plugged2 t r).1 = (r.head?.getD t).1 := by
  cases r <;> rfl

theorem binCollapse_plug (d : Nat) (hd : 1 ≤ d) (rest : List (Nat × BinTree V)) (hr : ∀ u ∈ rest, u.1 ≤ 1) :
    ∀ (t : Nat × BinTree V), t.1 ≤ 1 →
    Pipe.binCollapse d (t :: rest) =
      .ok (plugged2 t (rest.reverse.drop (d - 1)) :: (rest.reverse.take (d - 1)).reverse) := by
  induction rest with
  | nil =>
    intro t _
    rw [Pipe.binCollapse_le (by simpa using hd)]
    simp [plugged2]
  | cons u rest ih =>
    intro t ht
    by_cases h : rest.length + 2 > d
    · rw [Pipe.binCollapse_step h (putSlot_put ht t.2 u.2),
        ih (fun u hu => hr u (by simp [hu])) (u.1, u.2.put t.1 t.2) (hr u (by simp)), List.reverse_cons]
      have hle : d - 1 ≤ rest.reverse.length := by simp; omega
      rw [List.take_append_of_le_length hle, List.drop_append_of_le_length hle]
      congr 2
      cases rest.reverse.drop (d - 1) with
      | nil => rfl
      | cons b r =>
        rw [List.cons_append, plugged2, plugged2, ← List.cons_append, plug2_append]
    · rw [Pipe.binCollapse_le (by simp; omega), List.drop_eq_nil_of_le (by simp; omega), List.take_of_length_le (by simp; omega)]
      simp [plugged2]

/-- A node without children. -/
def IsLeaf : BinTree V → Prop
  | .node _ l r => l = none ∧ r = none

/-- A left child is put into a node without children. -/
def LeftFirst : List (Nat × BinTree V) → Nat × BinTree V → Prop
  | [], _ => True
  | u :: r, t => ((r.head?.getD t).1 = 0 → IsLeaf u.2) ∧ LeftFirst r t

theorem LeftFirst.append {r : List (Nat × BinTree V)} {u t : Nat × BinTree V} (h : LeftFirst r u)
    (ht : t.1 = 0 → IsLeaf u.2) : LeftFirst (r ++ [u]) t := by
  induction r with
  | nil => exact ⟨ht, trivial⟩
  | cons b r ih =>
    refine ⟨?_, ih h.2⟩
    cases r with
    | nil => exact h.1
    | cons c r => exact h.1

theorem LeftFirst.take {r : List (Nat × BinTree V)} {t : Nat × BinTree V} (h : LeftFirst r t) :
    ∀ e, LeftFirst (r.take e) (plugged2 t (r.drop e)) := by
  induction r with
  | nil => intro e; simp [LeftFirst]
  | cons b r ih =>
    intro e
    cases e with
    | zero => simp [LeftFirst]
    | succ e =>
      refine ⟨?_, ih h.2 e⟩
      intro h1
      apply h.1
      rw [← h1, List.drop_succ_cons]
      cases r with
      | nil => simp [plugged2]
      | cons c r =>
        cases e with
        | zero => simp [plugged2]
        | succ e => simp

theorem attachAt_plug (i : Nat) (v x : V) (j : Nat) (r : List (Nat × BinTree V))
    (h : LeftFirst r (j, .node x none none)) : ∀ e,
    (plug2 r (j, .node x none none)).attachAt e i v =
      plug2 (r.take e) ((plugged2 (j, .node x none none) (r.drop e)).1,
        (plugged2 (j, .node x none none) (r.drop e)).2.hang i v) := by
  induction r with
  | nil =>
    intro e
    cases e <;> rfl
  | cons b r ih =>
    intro e
    obtain ⟨k, a, l, r'⟩ := b
    cases e with
    | zero => simp [BinTree.attachAt, plug2, plugged2]
    | succ e =>
      have h2 := ih h.2 e
      have h3 : ((r.take e).head?.getD ((plugged2 (j, .node x none none) (r.drop e)).1,
          (plugged2 (j, .node x none none) (r.drop e)).2.hang i v)).1 = (r.head?.getD (j, .node x none none)).1 := by
        cases r with
        | nil => simp [plugged2]
        | cons c r =>
          cases e with
          | zero => simp [plugged2]
          | succ e => simp
      rw [List.take_succ_cons, List.drop_succ_cons, plug2, plug2, h3, ← h2]
      by_cases h0 : (r.head?.getD (j, .node x none none)).1 = 0
      · have h4 := h.1 h0
        simp only [IsLeaf] at h4
        obtain ⟨rfl, rfl⟩ := h4
        simp [BinTree.put, h0, BinTree.attachAt]
      · simp [BinTree.put, h0, BinTree.attachAt]

/-- What is known of the paths of the items after one at `q`: they end in 0 or 1, and one that ends in 0 is right below the one
before. -/
def Steps : List Nat → List (V × List Nat) → Prop
  | _, [] => True
  | q, (_, p) :: l => p ≠ [] ∧ p.getLast?.getD 0 ≤ 1 ∧ (p.getLast?.getD 0 = 0 → p.length = q.length + 1) ∧ Steps p l

theorem binCollectList_regroup (l : List (V × List Nat)) : ∀ (q : List Nat) (x : V) (i : Nat) (rest : List (Nat × BinTree V)),
    Steps q l → i ≤ 1 → (∀ u ∈ rest, u.1 ≤ 1) → rest.length ≤ q.length → LeftFirst rest.reverse (i, .node x none none) →
    ∃ j y rest', Pipe.binCollectList l ((i, .node x none none) :: rest) = .ok ((j, .node y none none) :: rest') ∧
      j ≤ 1 ∧ (∀ u ∈ rest', u.1 ≤ 1) ∧
      plug2 rest'.reverse (j, .node y none none) =
        l.foldl (fun t x => BinTree.attachAt (x.2.length - 1) (x.2.getLast?.getD 0) x.1 t)
          (plug2 rest.reverse (i, .node x none none)) := by
  induction l with
  | nil => intro q x i rest _ hi hr _ _; exact ⟨i, x, rest, rfl, hi, hr, rfl⟩
  | cons z l ih =>
    intro q x i rest hs hi hr hq hg
    obtain ⟨v, p⟩ := z
    obtain ⟨h1, h2, h3, h4⟩ := hs
    have hp : 1 ≤ p.length := by
      cases p with
      | nil => exact absurd rfl h1
      | cons i p => simp
    have hT : ∀ u ∈ plugged2 (i, .node x none none) (rest.reverse.drop (p.length - 1)) ::
        (rest.reverse.take (p.length - 1)).reverse, u.1 ≤ 1 := by
      intro u hu
      rcases List.mem_cons.1 hu with rfl | hu
      · rw [plugged2_fst]
        cases hd : rest.reverse.drop (p.length - 1) with
        | nil => exact hi
        | cons b r =>
          have : b ∈ rest.reverse := List.mem_of_mem_drop (hd ▸ List.mem_cons_self)
          exact hr b (List.mem_reverse.1 this)
      · exact hr u (List.mem_reverse.1 (List.mem_of_mem_take (List.mem_reverse.1 hu)))
    obtain ⟨j, y, rest', k1, k2, k3, k4⟩ := ih p v (p.getLast?.getD 0)
      (plugged2 (i, .node x none none) (rest.reverse.drop (p.length - 1)) :: (rest.reverse.take (p.length - 1)).reverse)
      h4 h2 hT (by simp; omega) (by
        rw [List.reverse_cons, List.reverse_reverse]
        refine (hg.take _).append fun h0 => ?_
        rw [List.drop_eq_nil_of_le (by have := h3 h0; simp; omega)]
        exact ⟨rfl, rfl⟩)
    refine ⟨j, y, rest', ?_, k2, k3, ?_⟩
    · rw [Pipe.binCollectList, binCollapse_plug _ hp rest hr _ hi]
      exact k1
    · rw [k4, List.foldl_cons]
      congr 1
      rw [attachAt_plug _ _ _ _ _ hg, List.reverse_cons, List.reverse_reverse, plug2_append, put_leaf]

theorem binCollectList_all (l : List (V × List Nat)) (hl : ∀ x l', l = x :: l' → Steps x.2 l' ∧ x.2.getLast?.getD 0 ≤ 1) :
    ∃ keep, Pipe.binCollectList l [] = .ok keep ∧ ∃ keep', Pipe.binCollapse 1 keep = .ok keep' ∧
      keep'.head?.map (·.2) = regroup2 l := by
  cases l with
  | nil => exact ⟨[], rfl, [], by simp [Pipe.binCollapse], rfl⟩
  | cons z l =>
    obtain ⟨x, p⟩ := z
    obtain ⟨h1, h2⟩ := hl _ _ rfl
    obtain ⟨j, y, rest, k1, k2, k3, k4⟩ := binCollectList_regroup l p x (p.getLast?.getD 0) [] h1 h2 (by simp) (by simp)
      trivial
    refine ⟨_, ?_, _, binCollapse_plug 1 (Nat.le_refl 1) rest k3 (j, .node y none none) k2, ?_⟩
    · rw [Pipe.binCollectList, Pipe.binCollapse_le (by simp)]
      exact k1
    · simp only [Nat.sub_self, List.drop_zero, List.take_zero, List.reverse_nil, List.head?_cons, Option.map_some, regroup2]
      rw [List.reverse_nil, plug2] at k4
      rw [← k4]
      cases rest.reverse <;> rfl

theorem Steps.drop {q : List Nat} {l : List (V × List Nat)} (h : Steps q l) : ∀ k x l', l.drop k = x :: l' →
    Steps x.2 l' ∧ x.2.getLast?.getD 0 ≤ 1 := by
  induction l generalizing q with
  | nil => intro k x l' h; simp at h
  | cons z l ih =>
    obtain ⟨v, p⟩ := z
    obtain ⟨h1, h2, h3, h4⟩ := h
    intro k x l' h
    cases k with
    | zero =>
      obtain ⟨rfl, rfl⟩ := List.cons.inj h
      exact ⟨h4, h2⟩
    | succ k => exact ih h4 k x l' h

theorem steps_emitted (t : BinTree V) : ∀ (q p : List Nat) (l : List (V × List Nat)), p ≠ [] → p.getLast?.getD 0 ≤ 1 →
    (p.getLast?.getD 0 = 0 → p.length = q.length + 1) → (∀ q', Steps q' l) → Steps q ((t.emitted p).preorder ++ l) := by
  induction t using BinTree.ind with
  | h a lo ro ihl ihr =>
    intro q p l h1 h2 h3 hl
    rw [BinTree.emitted, Tree.preorder_node, List.flatMap_append, List.cons_append, List.append_assoc]
    refine ⟨h1, h2, h3, ?_⟩
    have hr : ∀ q', Steps q' ((BinTree.emittedO (p ++ [1]) ro).flatMap Tree.preorder ++ l) := by
      intro q'
      cases ro with
      | none => simpa [BinTree.emittedO] using hl q'
      | some r =>
        simpa [BinTree.emittedO] using ihr r rfl q' (p ++ [1]) l (by simp) (by simp) (by simp) hl
    cases lo with
    | none => simpa [BinTree.emittedO] using hr p
    | some t =>
      simpa [BinTree.emittedO] using ihl t rfl p (p ++ [0]) _ (by simp) (by simp) (by simp) hr

theorem steps_root (t : BinTree V) (k : Nat) : ∀ x l', (t.emitted []).preorder.drop k = x :: l' →
    Steps x.2 l' ∧ x.2.getLast?.getD 0 ≤ 1 := by
  obtain ⟨a, lo, ro⟩ := t
  have hr : ∀ q', Steps q' ((BinTree.emittedO [1] ro).flatMap Tree.preorder) := by
    intro q'
    cases ro with
    | none => simp [BinTree.emittedO, Steps]
    | some r =>
      have := steps_emitted r q' [1] [] (by simp) (by simp) (by simp) (by simp [Steps])
      simpa [BinTree.emittedO] using this
  have hb : Steps [] ((BinTree.emittedO [0] lo).flatMap Tree.preorder ++ (BinTree.emittedO [1] ro).flatMap Tree.preorder) := by
    cases lo with
    | none => simpa [BinTree.emittedO] using hr []
    | some t =>
      have := steps_emitted t [] [0] _ (by simp) (by simp) (by simp) hr
      simpa [BinTree.emittedO] using this
  intro x l' h
  rw [BinTree.emitted, Tree.preorder_node, List.flatMap_append] at h
  simp only [List.nil_append] at h
  cases k with
  | zero =>
    obtain ⟨rfl, rfl⟩ := List.cons.inj h
    exact ⟨hb, by simp⟩
  | succ k => exact hb.drop k x l' h

end

section
variable {S : Type u} {V : Type v} {O : Type x} {σ : Type w}

theorem Pipe.binCollectTree_advanced {M : Pipe S V σ} {s : S} {w w' : σ} {l : List (V × List Nat)}
    (h : M.emits s w = .ok (l, w')) (hl : ∀ x l', l = x :: l' → Steps x.2 l' ∧ x.2.getLast?.getD 0 ≤ 1) :
    M.binCollectTree s w = .ok (regroup2 l, w') := by
  obtain ⟨keep, h1, keep', h2, h3⟩ := binCollectList_all l hl
  rw [binCollectTree, binCollectLoop_eq [] h, h1]
  simp only [h2, h3]

end

/-! ## Folding -/

section
variable {V : Type u} {O : Type v}

/-- The values of the children of the trees of a stack, in the order in which a fold has closed them. -/
def closedS : List (Tree V) → List V
  | [] => []
  | .node _ cs :: rest => closedS rest ++ cs.flatMap Tree.postorder

/-- What a binary `fold_tree` holds when a general `collect_tree` with the same depths holds a stack of trees. -/
structure FoldRel (keep : List (Tree V)) (inv : List V) (folded : List (Option O × Option O)) (paths : List Nat)
    (t : List V) : Prop where
  inv_eq : inv = keep.map Tree.value
  folded_eq : folded.length = keep.length
  paths_ge : keep.length ≤ paths.length + 1
  paths_le : ∀ i ∈ paths, i ≤ 1
  log : t = closedS keep

theorem foldRel_collapse {f : List V → Option O × Option O → List Nat → V → List V × O}
    (hf : ∀ t os p v, (f t os p v).1 = t ++ [v]) (d : Nat) (keep : List (Tree V)) :
    ∀ {inv : List V} {folded : List (Option O × Option O)} {paths : List Nat} {t : List V} {keep' : List (Tree V)},
    FoldRel keep inv folded paths t → Pipe.collapse d keep = .ok keep' →
    ∃ inv' folded' paths' t', Pipe.binFoldCollapse f d inv folded paths t = .ok (inv', folded', paths', t') ∧
      FoldRel keep' inv' folded' paths' t' := by
  fun_induction Pipe.collapse d keep with
  | case1 =>
    intro inv folded paths t keep' h h1
    cases h1
    exact ⟨inv, folded, paths, t, Pipe.binFoldCollapse_le (by rw [h.folded_eq]; simp), h⟩
  | case2 => intro inv folded paths t keep' h h1; cases h1
  | case3 b h0 =>
    intro inv folded paths t keep' h h1
    cases h1
    exact ⟨inv, folded, paths, t, Pipe.binFoldCollapse_le (by rw [h.folded_eq]; simp only [List.length_cons, List.length_nil]; omega), h⟩
  | case4 b a cs rest h0 ih =>
    intro inv folded paths t keep' h h1
    obtain ⟨b, bs⟩ := b
    obtain ⟨rfl, g2, g3, g4, rfl⟩ := h
    match folded, g2 with
    | items :: last :: folded, g2 =>
      match paths, g3 with
      | [], g3 => simp at g3
      | i :: paths, g3 =>
        obtain ⟨last', hl⟩ : ∃ last', Pipe.setSlot i (f (closedS (.node b bs :: .node a cs :: rest)) items (i :: paths).reverse b).2
            last = .ok last' := by
          match i, g4 i (by simp) with
          | 0, _ => exact ⟨_, rfl⟩
          | 1, _ => exact ⟨_, rfl⟩
        simp only [List.map_cons, Tree.value]
        rw [Pipe.binFoldCollapse_step (by simp at g2; omega) hl]
        refine ih ⟨rfl, by simpa using g2, by simp at g3 ⊢; omega, fun i hi => g4 i (by simp [hi]), ?_⟩ h1
        rw [hf]
        simp [closedS, Tree.postorder_node]
  | case5 b a cs rest h0 =>
    intro inv folded paths t keep' h h1
    cases h1
    exact ⟨inv, folded, paths, t, Pipe.binFoldCollapse_le (by rw [h.folded_eq]; simp; omega), h⟩

theorem collapse_length {d : Nat} {keep keep' : List (Tree V)} (h : Pipe.collapse d keep = .ok keep') : keep'.length ≤ d := by
  fun_induction Pipe.collapse d keep with
  | case1 => cases h; simp
  | case2 => cases h
  | case3 b h0 => cases h; simp only [List.length_cons, List.length_nil]; omega
  | case4 b a cs rest h0 ih => exact ih h
  | case5 b a cs rest h0 => cases h; simp; omega

theorem foldRel_list {f : List V → Option O × Option O → List Nat → V → List V × O}
    (hf : ∀ t os p v, (f t os p v).1 = t ++ [v]) (l : List (V × List Nat)) (hl : ∀ x ∈ l, x.2.getLast?.getD 0 ≤ 1) :
    ∀ {keep : List (Tree V)} {inv : List V} {folded : List (Option O × Option O)} {paths : List Nat} {t : List V}
      {keep' : List (Tree V)},
    FoldRel keep inv folded paths t → Pipe.collectList l keep = .ok keep' →
    ∃ inv' folded' paths' t', Pipe.binFoldList f l inv folded paths t = .ok (inv', folded', paths', t') ∧
      FoldRel keep' inv' folded' paths' t' := by
  induction l with
  | nil => intro keep inv folded paths t keep' h h1; cases h1; exact ⟨inv, folded, paths, t, rfl, h⟩
  | cons z l ih =>
    obtain ⟨x, p⟩ := z
    intro keep inv folded paths t keep' h h1
    rw [Pipe.collectList] at h1
    split at h1
    · cases h1
    · next k hk =>
      obtain ⟨inv1, folded1, paths1, t1, e1, g⟩ := foldRel_collapse hf _ _ h hk
      have hlen := collapse_length hk
      obtain ⟨paths2, e2, e3, e4⟩ : ∃ paths2, Pipe.pushPath p paths1 = .ok paths2 ∧ k.length ≤ paths2.length ∧
          ∀ i ∈ paths2, i ≤ 1 := by
        rw [Pipe.pushPath]
        have g3 := g.paths_ge
        split
        · next hlt =>
          cases hp : p.getLast? with
          | none => rw [List.getLast?_eq_none_iff] at hp; rw [hp] at hlt; simp at hlt
          | some i =>
            refine ⟨i :: paths1, rfl, by simpa using g3, ?_⟩
            intro j hj
            rcases List.mem_cons.1 hj with rfl | hj
            · have := hl (x, p) (by simp)
              simpa [hp] using this
            · exact g.paths_le j hj
        · exact ⟨paths1, rfl, by omega, g.paths_le⟩
      rw [Pipe.binFoldList, e1]
      simp only [e2]
      refine ih (fun x hx => hl x (by simp [hx])) ⟨?_, ?_, ?_, e4, ?_⟩ h1
      · rw [g.inv_eq]; rfl
      · simp [g.folded_eq]
      · simpa using e3
      · rw [g.log]; simp [closedS]

end

section
variable {S : Type u} {V : Type v} {O : Type x} {σ : Type w}

theorem Pipe.binFoldPath_advanced {M : Pipe S V σ} {s : S} {w w' : σ} {l : List (V × List Nat)}
    (h : M.emits s w = .ok (l, w')) (hl : ∀ x ∈ l.tail, x.2 ≠ []) (hs : ∀ x ∈ l, x.2.getLast?.getD 0 ≤ 1)
    {f : List V → Option O × Option O → List Nat → V → List V × O} (hf : ∀ t os p v, (f t os p v).1 = t ++ [v]) :
    ∃ o, M.binFoldPath f s w [] =
      .ok (o, ((regroup (l.map fun x => (x.2.length, x.1))).map Tree.postorder).getD [], w') ∧
      o.isSome = (regroup (l.map fun x => (x.2.length, x.1))).isSome := by
  obtain ⟨keep, h1, h2⟩ := collectList_all l hl
  obtain ⟨inv, folded, paths, t, e1, g1⟩ := foldRel_list (O := O) hf l hs (keep := []) (inv := []) (folded := []) (paths := [])
    (t := []) ⟨rfl, rfl, by simp, by simp, rfl⟩ h1
  obtain ⟨inv', folded', paths', t', e2, g2⟩ := foldRel_collapse hf 1 keep g1 h2
  rw [binFoldPath, binFoldLoop_eq [] [] [] [] h, e1]
  simp only [e2]
  obtain ⟨rfl, -, -, -, rfl⟩ := g2
  cases regroup (l.map fun x => (x.2.length, x.1)) with
  | none => exact ⟨none, rfl, rfl⟩
  | some t =>
    obtain ⟨a, cs⟩ := t
    simp only [Option.toList_some, List.map_cons, Tree.value]
    refine ⟨some (f (closedS [.node a cs]) (folded'.head?.getD (none, none)) [] a).2, ?_, rfl⟩
    rw [hf]
    simp [closedS, Tree.postorder_node]

end

section
variable {V : Type v}

theorem emitted_slots (t : BinTree V) : ∀ (p : List Nat), p.getLast?.getD 0 ≤ 1 →
    ∀ x ∈ (t.emitted p).preorder, x.2.getLast?.getD 0 ≤ 1 := by
  induction t using BinTree.ind with
  | h a lo ro ihl ihr =>
    intro p hp x hx
    rw [BinTree.emitted, Tree.preorder_node, List.flatMap_append] at hx
    rcases List.mem_cons.1 hx with rfl | hx
    · exact hp
    · rcases List.mem_append.1 hx with hx | hx
      · cases lo with
        | none => simp [BinTree.emittedO] at hx
        | some t => exact ihl t rfl (p ++ [0]) (by simp) x (by simpa [BinTree.emittedO] using hx)
      · cases ro with
        | none => simp [BinTree.emittedO] at hx
        | some t => exact ihr t rfl (p ++ [1]) (by simp) x (by simpa [BinTree.emittedO] using hx)

theorem emitted_levels (t : BinTree V) : ∀ (p : List Nat), DepthOk p.length (t.emitted p) := by
  induction t using BinTree.ind with
  | h a lo ro ihl ihr =>
    intro p
    rw [BinTree.emitted, DepthOk]
    refine ⟨rfl, fun c hc => ?_⟩
    rcases List.mem_append.1 hc with hc | hc
    · cases lo with
      | none => simp [BinTree.emittedO] at hc
      | some t =>
        simp only [BinTree.emittedO, List.mem_singleton] at hc
        subst hc
        have := ihl t rfl (p ++ [0])
        rwa [List.length_append] at this
    · cases ro with
      | none => simp [BinTree.emittedO] at hc
      | some t =>
        simp only [BinTree.emittedO, List.mem_singleton] at hc
        subst hc
        have := ihr t rfl (p ++ [1])
        rwa [List.length_append] at this

end

section
variable {N : Type u} {V W : Type v} [BinNode N V] {σ : Type w}

/-- What is left of a binary chain after `k` calls of `next()`. -/
def binLeft (o : Option (BinTree W)) (k : Nat) : List (W × List Nat) :=
  ((o.map fun t => (t.emitted []).preorder).getD []).drop k

theorem Chain.binAdvanced (c : Chain σ V W) (n : N) (k : Nat) (w : σ) :
    ∃ s' w', (c.binPipe (Track.binPipe σ)).advance k (Api.binStart n) w = .ok (s', w') ∧
      (c.binPipe (Track.binPipe σ)).emits s' w' =
        .ok (binLeft ((binTreeOf n).runS c.step w []).2 k, ((binTreeOf n).runS c.step w []).1) := by
  obtain ⟨A, v, R', h1, h2, h3, h5⟩ := Chain.binEnum (Track.binEnum (N := N) σ) c
  obtain ⟨a', h⟩ := h5 _ _ _ (binRel_start n)
  obtain ⟨s', w', k1, k2⟩ := h1.advance k w h
  have k3 := h1.emits_bin h3 h2 h w
  rw [h1.emits w h] at k3
  simp only [Except.ok.injEq, Prod.mk.injEq, decOf_bin] at k3
  rw [k3.1, k3.2] at k2
  refine ⟨s', w', k1, ?_⟩
  rw [k2]
  cases ((binTreeOf n).runS c.step w []).2 <;> simp [binLeft, BinTree.emittedO, Tree.preorderL]

theorem binLeft_steps (o : Option (BinTree W)) (k : Nat) : ∀ x l', binLeft o k = x :: l' →
    Steps x.2 l' ∧ x.2.getLast?.getD 0 ≤ 1 := by
  cases o with
  | none => intro x l' h; simp [binLeft] at h
  | some t => exact steps_root t k

theorem binLeft_tail (o : Option (BinTree W)) (k : Nat) : ∀ x ∈ (binLeft o k).tail, x.2 ≠ [] := by
  intro x hx
  have := tail_drop_mem hx
  cases o with
  | none => simp at this
  | some t => exact (emitted_levels t []).tail_ne_nil x this

theorem binLeft_slots (o : Option (BinTree W)) (k : Nat) : ∀ x ∈ binLeft o k, x.2.getLast?.getD 0 ≤ 1 := by
  intro x hx
  have := List.mem_of_mem_drop hx
  cases o with
  | none => simp at this
  | some t => exact emitted_slots t [] (by simp) x this

end

end TreeIter
