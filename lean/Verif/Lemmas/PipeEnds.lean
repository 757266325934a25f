import Verif.Lemmas.Visit
import Verif.Spec.Pipeline

/-! # What the ends of a pipeline compute from the emitted forest (general trees) -/

universe u v w x y z

namespace TreeIter

/-- Every node of a forest carries a path as long as its depth; the roots are at depth `d`. -/
def DepthOk {W : Type x} : Nat → Tree (W × List Nat) → Prop
  | d, .node (_, p) cs => p.length = d ∧ ∀ c ∈ cs, DepthOk (d + 1) c

/-- Every node of a tree carries its parent's path and one more segment; the root is at `p`. -/
def PathOk {W : Type x} : List Nat → Tree (W × List Nat) → Prop
  | q, .node (_, p) cs => p = q ∧ ∀ c ∈ cs, ∃ i, PathOk (q ++ [i]) c

theorem PathOk.depthOk {W : Type x} {q : List Nat} {t : Tree (W × List Nat)} (h : PathOk q t) : DepthOk q.length t := by
  induction t using Tree.ind generalizing q with
  | h a cs ih =>
    obtain ⟨y, p⟩ := a
    simp only [PathOk] at h
    simp only [DepthOk]
    refine ⟨by rw [h.1], fun c hc => ?_⟩
    obtain ⟨i, hi⟩ := h.2 c hc
    simpa using ih c hc hi

namespace Pipe
variable {S : Type u} {V : Type v} {O : Type x} {σ : Type w} {τ : Type y}

/-! ## collect_tree -/

/-- `collectLoop` as a function of the emitted items. -/
def collectList : List (V × List Nat) → List (Tree V) → Except Panic (List (Tree V))
  | [], keep => .ok keep
  | (x, p) :: l, keep =>
    match collapse p.length keep with
    | .error e => .error e
    | .ok keep' => collectList l (.node x [] :: keep')

theorem emits_cases {M : Pipe S V σ} {s : S} {w w' : σ} {l : List (V × List Nat)} (h : M.emits s w = .ok (l, w')) :
    (l = [] ∧ ∃ s', M.next s w = .ok (none, s', w')) ∨
    ∃ x s1 w1 l', M.next s w = .ok (some x, s1, w1) ∧ M.emits s1 w1 = .ok (l', w') ∧ l = (x, M.path s1) :: l' := by
  rw [Pipe.emits] at h
  split at h
  · simp at h
  · next h1 =>
    simp only [Except.ok.injEq, Prod.mk.injEq] at h
    obtain ⟨rfl, rfl⟩ := h
    exact Or.inl ⟨rfl, _, h1⟩
  · next x s1 w1 h1 =>
    split at h
    · simp at h
    · next l' w2 h2 =>
      simp only [Except.ok.injEq, Prod.mk.injEq] at h
      obtain ⟨rfl, rfl⟩ := h
      exact Or.inr ⟨x, s1, w1, l', h1, h2, rfl⟩

theorem collectLoop_eq {M : Pipe S V σ} {s : S} {w w' : σ} {l : List (V × List Nat)} (keep : List (Tree V))
    (h : M.emits s w = .ok (l, w')) :
    collectLoop M s w keep =
      match collectList l keep with
      | .error e => .error e
      | .ok k => .ok (k, w') := by
  induction l generalizing s w keep with
  | nil =>
    rcases emits_cases h with ⟨-, s', h1⟩ | ⟨x, s1, w1, l', -, -, h1⟩
    · rw [collectLoop]
      split
      · simp_all
      · simp_all [collectList]
      · simp_all
    · simp at h1
  | cons y l ih =>
    rcases emits_cases h with ⟨h1, -⟩ | ⟨x, s1, w1, l', h1, h2, h3⟩
    · simp at h1
    · obtain ⟨rfl, rfl⟩ := List.cons.inj h3
      rw [collectLoop]
      split
      · simp_all
      · simp_all
      · next h4 =>
        rw [h1] at h4
        simp only [Except.ok.injEq, Prod.mk.injEq, Option.some.injEq] at h4
        obtain ⟨rfl, rfl, rfl⟩ := h4
        rw [collectList]
        rcases collapse (M.path s1).length keep with e | keep'
        · rfl
        · exact ih _ h2

theorem collapse_le {d : Nat} {keep : List (Tree V)} (h : keep.length ≤ d) : collapse d keep = .ok keep := by
  fun_induction collapse d keep with
  | case1 => rfl
  | case2 t h1 => simp only [List.length_cons, List.length_nil] at h; omega
  | case3 => rfl
  | case4 t a cs rest h1 ih => simp only [List.length_cons] at h; omega
  | case5 => rfl

theorem collapse_collapse {d : Nat} {keep keep' : List (Tree V)} (h : collapse (d + 1) keep = .ok keep') :
    collapse d keep = collapse d keep' := by
  induction hn : keep.length using Nat.strongRecOn generalizing keep with
  | ind n ih =>
    match keep, h, hn with
    | [], h, hn => rw [collapse_le (by simp)] at h; simp_all
    | [t], h, hn => rw [collapse_le (by simp)] at h; simp_all
    | t :: .node a cs :: rest, h, hn =>
      by_cases hd : rest.length + 2 > d + 1
      · rw [collapse, if_pos hd] at h
        rw [collapse, if_pos (by omega)]
        exact ih _ (by simp at hn ⊢; omega) h rfl
      · rw [collapse, if_neg hd] at h
        simp only [Except.ok.injEq] at h
        rw [h]

/-- Add trees as last children of the top of the stack. -/
def addKids (F : List (Tree V)) : List (Tree V) → List (Tree V)
  | [] => []
  | .node a cs :: rest => .node a (cs ++ F) :: rest

theorem addKids_append (F G : List (Tree V)) (K : List (Tree V)) : addKids G (addKids F K) = addKids (F ++ G) K := by
  match K with
  | [] => rfl
  | .node a cs :: rest => simp [addKids]

theorem addKids_length (F : List (Tree V)) (K : List (Tree V)) : (addKids F K).length = K.length := by
  match K with
  | [] => rfl
  | .node a cs :: rest => rfl

theorem collectList_tree (t : Tree (V × List Nat)) : ∀ {d : Nat} {keep K : List (Tree V)}, DepthOk (d + 1) t →
    collapse (d + 1) keep = .ok K → K.length = d + 1 →
    ∃ keep', (∀ l, collectList (t.preorder ++ l) keep = collectList l keep') ∧
      collapse (d + 1) keep' = .ok (addKids [t.map Prod.fst] K) := by
  induction t using Tree.ind with
  | h a cs ih =>
    obtain ⟨y, p⟩ := a
    intro d keep K hd hK hl
    simp only [DepthOk] at hd
    have key : ∀ (ds : List (Tree (V × List Nat))), (∀ c ∈ ds, c ∈ cs) → ∀ (keep1 K1 : List (Tree V)),
        collapse (d + 2) keep1 = .ok K1 → K1.length = d + 2 →
        ∃ keep', (∀ l, collectList (ds.flatMap Tree.preorder ++ l) keep1 = collectList l keep') ∧
          collapse (d + 2) keep' = .ok (addKids (ds.map (Tree.map Prod.fst)) K1) := by
      intro ds
      induction ds with
      | nil =>
        intro _ keep1 K1 h1 h2
        refine ⟨keep1, by simp, ?_⟩
        rw [h1]
        match K1 with
        | [] => rfl
        | .node a cs :: rest => simp [addKids]
      | cons c ds ihd =>
        intro hds keep1 K1 h1 h2
        obtain ⟨k1, h3, h4⟩ := ih c (hds c (by simp)) (hd.2 c (hds c (by simp))) h1 h2
        obtain ⟨k2, h5, h6⟩ := ihd (fun c hc => hds c (by simp [hc])) k1 _ h4 (by rw [addKids_length, h2])
        refine ⟨k2, ?_, ?_⟩
        · intro l
          simp only [List.flatMap_cons, List.append_assoc, h3, h5]
        · rw [h6, addKids_append]
          rfl
    obtain ⟨k1, h1, h2⟩ := key cs (fun _ h => h) (.node y [] :: K) (.node y [] :: K) (collapse_le (by simp [hl]))
      (by simp [hl])
    refine ⟨k1, ?_, ?_⟩
    · intro l
      rw [Tree.preorder_node, List.cons_append, collectList, hd.1, hK]
      exact h1 l
    · rw [collapse_collapse h2]
      match K, hl with
      | .node b bs :: rest, hl =>
        simp only [List.length_cons, Nat.add_right_cancel_iff] at hl
        simp only [addKids]
        rw [collapse, if_pos (by omega), collapse_le (by simp [hl])]
        simp [Tree.map_node]

theorem collectList_root {t : Tree (V × List Nat)} (h : DepthOk 0 t) :
    ∃ keep, collectList t.preorder [] = .ok keep ∧ collapse 1 keep = .ok [t.map Prod.fst] := by
  obtain ⟨⟨y, p⟩, cs⟩ := t
  simp only [DepthOk, List.length_eq_zero_iff] at h
  obtain ⟨rfl, h⟩ := h
  have key : ∀ (ds : List (Tree (V × List Nat))), (∀ c ∈ ds, c ∈ cs) → ∀ (keep1 K1 : List (Tree V)),
      collapse 1 keep1 = .ok K1 → K1.length = 1 →
      ∃ keep', collectList (ds.flatMap Tree.preorder) keep1 = .ok keep' ∧
        collapse 1 keep' = .ok (addKids (ds.map (Tree.map Prod.fst)) K1) := by
    intro ds
    induction ds with
    | nil =>
      intro _ keep1 K1 h1 h2
      refine ⟨keep1, rfl, ?_⟩
      rw [h1]
      match K1 with
      | [] => rfl
      | .node a cs :: rest => simp [addKids]
    | cons c ds ihd =>
      intro hds keep1 K1 h1 h2
      obtain ⟨k1, h3, h4⟩ := collectList_tree c (h c (hds c (by simp))) h1 h2
      obtain ⟨k2, h5, h6⟩ := ihd (fun c hc => hds c (by simp [hc])) k1 _ h4 (by rw [addKids_length, h2])
      refine ⟨k2, ?_, ?_⟩
      · simp only [List.flatMap_cons, h3, h5]
      · rw [h6, addKids_append]
        rfl
  obtain ⟨k, h1, h2⟩ := key cs (fun _ h => h) [.node y []] [.node y []] (collapse_le (by simp)) rfl
  refine ⟨k, ?_, ?_⟩
  · rw [Tree.preorder_node, collectList, collapse_le (by simp)]
    exact h1
  · rw [h2, Tree.map_node]
    rfl

/-- `collect_tree` rebuilds the emitted tree. -/
theorem collectTree_of_emits {M : Pipe S V σ} {s : S} {w w' : σ} {o : Option (Tree (V × List Nat))}
    (h : M.emits s w = .ok (Tree.preorderL o.toList, w')) (ho : ∀ t ∈ o, DepthOk 0 t) :
    collectTree M s w = .ok (o.map (Tree.map Prod.fst), w') := by
  rw [collectTree, collectLoop_eq [] h]
  cases o with
  | none => simp [Tree.preorderL, collectList, collapse]
  | some t =>
    obtain ⟨keep, h1, h2⟩ := collectList_root (ho t rfl)
    simp [Tree.preorderL_eq, h1, h2]

/-! ## fold_tree -/

/-- `foldLoop` as a function of the emitted items. -/
def foldList (f : τ → List O → V → τ × O) :
    List (V × List Nat) → List V → List (List O) → τ → Except Panic (List V × List (List O) × τ)
  | [], inv, folded, t => .ok (inv, folded, t)
  | (x, p) :: l, inv, folded, t =>
    match foldCollapse f p.length inv folded t with
    | .error e => .error e
    | .ok (inv', folded', t') => foldList f l (x :: inv') ([] :: folded') t'

theorem foldLoop_eq {M : Pipe S V σ} {f : τ → List O → V → τ × O} {s : S} {w w' : σ} {l : List (V × List Nat)}
    (inv : List V) (folded : List (List O)) (t : τ) (h : M.emits s w = .ok (l, w')) :
    foldLoop M f s w inv folded t =
      match foldList f l inv folded t with
      | .error e => .error e
      | .ok (inv', folded', t') => .ok (inv', folded', t', w') := by
  induction l generalizing s w inv folded t with
  | nil =>
    rcases emits_cases h with ⟨-, s', h1⟩ | ⟨x, s1, w1, l', -, -, h1⟩
    · rw [foldLoop]
      split
      · simp_all
      · simp_all [foldList]
      · simp_all
    · simp at h1
  | cons y l ih =>
    rcases emits_cases h with ⟨h1, -⟩ | ⟨x, s1, w1, l', h1, h2, h3⟩
    · simp at h1
    · obtain ⟨rfl, rfl⟩ := List.cons.inj h3
      rw [foldLoop]
      split
      · simp_all
      · simp_all
      · next h4 =>
        rw [h1] at h4
        simp only [Except.ok.injEq, Prod.mk.injEq, Option.some.injEq] at h4
        obtain ⟨rfl, rfl, rfl⟩ := h4
        rw [foldList]
        rcases foldCollapse f (M.path s1).length inv folded t with e | ⟨inv', folded', t'⟩
        · rfl
        · exact ih _ _ _ h2

theorem foldCollapse_le {f : τ → List O → V → τ × O} {d : Nat} {inv : List V} {folded : List (List O)} {t : τ}
    (h : folded.length ≤ d) : foldCollapse f d inv folded t = .ok (inv, folded, t) := by
  cases folded with
  | nil => rw [foldCollapse]
  | cons a l =>
    rw [foldCollapse.eq_def]
    simp only [List.length_cons] at h
    dsimp only
    rw [if_neg (by omega)]

theorem foldCollapse_collapse {f : τ → List O → V → τ × O} {d : Nat} {inv inv' : List V} {folded folded' : List (List O)}
    {t t' : τ} (h : foldCollapse f (d + 1) inv folded t = .ok (inv', folded', t')) :
    foldCollapse f d inv folded t = foldCollapse f d inv' folded' t' := by
  induction hn : folded.length using Nat.strongRecOn generalizing inv folded t with
  | ind n ih =>
    cases folded with
    | nil => rw [foldCollapse_le (by simp)] at h; simp_all
    | cons items rest =>
      by_cases hd : rest.length + 1 > d + 1
      · cases inv with
        | nil => rw [foldCollapse.eq_def] at h; simp [hd] at h
        | cons v inv =>
          cases rest with
          | nil => simp at hd
          | cons last rest =>
            rw [foldCollapse, if_pos hd] at h
            rw [foldCollapse, if_pos (by omega)]
            exact ih _ (by simp at hn ⊢; omega) h rfl
      · rw [foldCollapse_le (by simp; omega)] at h
        simp only [Except.ok.injEq, Prod.mk.injEq] at h
        obtain ⟨rfl, rfl, rfl⟩ := h
        rfl

theorem foldList_tree {f : τ → List O → V → τ × O} (c : Tree (V × List Nat)) :
    ∀ {d : Nat} {inv inv0 : List V} {folded folded0 : List (List O)} {top : List O} {t t0 : τ}, DepthOk (d + 1) c →
    foldCollapse f (d + 1) inv folded t = .ok (inv0, top :: folded0, t0) → folded0.length = d →
    ∃ inv' folded' t', (∀ l, foldList f (c.preorder ++ l) inv folded t = foldList f l inv' folded' t') ∧
      foldCollapse f (d + 1) inv' folded' t' =
        .ok (inv0, (top ++ [((c.map Prod.fst).foldS f t0).2]) :: folded0, ((c.map Prod.fst).foldS f t0).1) := by
  induction c using Tree.ind with
  | h a cs ih =>
    obtain ⟨y, p⟩ := a
    intro d inv inv0 folded folded0 top t t0 hd hK hl
    simp only [DepthOk] at hd
    have key : ∀ (ds : List (Tree (V × List Nat))), (∀ c ∈ ds, c ∈ cs) → ∀ (inv inv0 : List V)
        (folded folded0 : List (List O)) (top : List O) (t t0 : τ),
        foldCollapse f (d + 2) inv folded t = .ok (inv0, top :: folded0, t0) → folded0.length = d + 1 →
        ∃ inv' folded' t', (∀ l, foldList f (ds.flatMap Tree.preorder ++ l) inv folded t = foldList f l inv' folded' t') ∧
          foldCollapse f (d + 2) inv' folded' t' =
            .ok (inv0, (top ++ (Tree.foldSL f t0 (ds.map (Tree.map Prod.fst))).2) :: folded0,
              (Tree.foldSL f t0 (ds.map (Tree.map Prod.fst))).1) := by
      intro ds
      induction ds with
      | nil =>
        intro _ inv inv0 folded folded0 top t t0 h1 h2
        exact ⟨inv, folded, t, by simp, by simpa [Tree.foldSL] using h1⟩
      | cons c ds ihd =>
        intro hds inv inv0 folded folded0 top t t0 h1 h2
        obtain ⟨i1, f1, t1, h3, h4⟩ := ih c (hds c (by simp)) (hd.2 c (hds c (by simp))) h1 h2
        obtain ⟨i2, f2, t2, h5, h6⟩ := ihd (fun c hc => hds c (by simp [hc])) _ _ _ _ _ _ _ h4 h2
        refine ⟨i2, f2, t2, ?_, ?_⟩
        · intro l
          simp only [List.flatMap_cons, List.append_assoc, h3, h5]
        · rw [h6]
          simp [Tree.foldSL]
    obtain ⟨i1, f1, t1, h1, h2⟩ := key cs (fun _ h => h) (y :: inv0) (y :: inv0) ([] :: top :: folded0)
      (top :: folded0) [] t0 t0 (foldCollapse_le (by simp [hl])) (by simp [hl])
    refine ⟨i1, f1, t1, ?_, ?_⟩
    · intro l
      rw [Tree.preorder_node, List.cons_append, foldList, hd.1, hK]
      exact h1 l
    · rw [foldCollapse_collapse h2, foldCollapse, if_pos (by simp; omega), foldCollapse_le (by simp [hl])]
      simp [Tree.map_node, Tree.foldS]

theorem foldList_root {f : τ → List O → V → τ × O} {c : Tree (V × List Nat)} (h : DepthOk 0 c) (t : τ) :
    ∃ inv folded t1, foldList f c.preorder [] [] t = .ok (inv, folded, t1) ∧
      foldCollapse f 1 inv folded t1 =
        .ok ([c.value.1], [(Tree.foldSL f t (c.children.map (Tree.map Prod.fst))).2],
          (Tree.foldSL f t (c.children.map (Tree.map Prod.fst))).1) := by
  obtain ⟨⟨y, p⟩, cs⟩ := c
  simp only [DepthOk, List.length_eq_zero_iff] at h
  obtain ⟨rfl, h⟩ := h
  have key : ∀ (ds : List (Tree (V × List Nat))), (∀ c ∈ ds, c ∈ cs) → ∀ (inv inv0 : List V)
      (folded folded0 : List (List O)) (top : List O) (t t0 : τ),
      foldCollapse f 1 inv folded t = .ok (inv0, top :: folded0, t0) → folded0.length = 0 →
      ∃ inv' folded' t', foldList f (ds.flatMap Tree.preorder) inv folded t = .ok (inv', folded', t') ∧
        foldCollapse f 1 inv' folded' t' =
          .ok (inv0, (top ++ (Tree.foldSL f t0 (ds.map (Tree.map Prod.fst))).2) :: folded0,
            (Tree.foldSL f t0 (ds.map (Tree.map Prod.fst))).1) := by
    intro ds
    induction ds with
    | nil =>
      intro _ inv inv0 folded folded0 top t t0 h1 h2
      exact ⟨inv, folded, t, rfl, by simpa [Tree.foldSL] using h1⟩
    | cons c ds ihd =>
      intro hds inv inv0 folded folded0 top t t0 h1 h2
      obtain ⟨i1, f1, t1, h3, h4⟩ := foldList_tree c (h c (hds c (by simp))) h1 h2
      obtain ⟨i2, f2, t2, h5, h6⟩ := ihd (fun c hc => hds c (by simp [hc])) _ _ _ _ _ _ _ h4 h2
      refine ⟨i2, f2, t2, ?_, ?_⟩
      · simp only [List.flatMap_cons, h3, h5]
      · rw [h6]
        simp [Tree.foldSL]
  obtain ⟨i1, f1, t1, h1, h2⟩ := key cs (fun _ h => h) [y] [y] [[]] [] [] t t (foldCollapse_le (by simp)) rfl
  refine ⟨i1, f1, t1, ?_, ?_⟩
  · rw [Tree.preorder_node, foldList, foldCollapse_le (by simp)]
    exact h1
  · simpa [Tree.value, Tree.children] using h2

/-- `fold_tree` folds the emitted tree. -/
theorem foldTree_of_emits {M : Pipe S V σ} {f : τ → List O → V → τ × O} {s : S} {w w' : σ}
    {o : Option (Tree (V × List Nat))} (h : M.emits s w = .ok (Tree.preorderL o.toList, w'))
    (ho : ∀ t ∈ o, DepthOk 0 t) (t : τ) :
    foldTree M f s w t = .ok ((foldO (Tree.foldS f) t (o.map (Tree.map Prod.fst))).2,
      (foldO (Tree.foldS f) t (o.map (Tree.map Prod.fst))).1, w') := by
  rw [foldTree, foldLoop_eq [] [] t h]
  cases o with
  | none => simp [Tree.preorderL, foldList, foldCollapse, foldO]
  | some c =>
    obtain ⟨inv, folded, t1, h1, h2⟩ := foldList_root (f := f) (ho c rfl) t
    simp only [Option.toList_some, Tree.preorderL_eq, List.flatMap_cons, List.flatMap_nil, List.append_nil, h1, h2]
    obtain ⟨⟨y, p⟩, cs⟩ := c
    simp [Tree.map_node, Tree.foldS, Tree.value, Tree.children, foldO]

/-! ## fold_path -/

/-- `foldPathLoop` as a function of the emitted items. -/
def foldPathList (f : τ → List O → List Nat → V → τ × O) :
    List (V × List Nat) → List V → List (List O) → List Nat → τ → Except Panic (List V × List (List O) × List Nat × τ)
  | [], inv, folded, paths, t => .ok (inv, folded, paths, t)
  | (x, p) :: l, inv, folded, paths, t =>
    match foldPathCollapse f p.length inv folded paths t with
    | .error e => .error e
    | .ok (inv', folded', paths', t') =>
      match pushPath p paths' with
      | .error e => .error e
      | .ok paths'' => foldPathList f l (x :: inv') ([] :: folded') paths'' t'

theorem foldPathLoop_eq {M : Pipe S V σ} {f : τ → List O → List Nat → V → τ × O} {s : S} {w w' : σ}
    {l : List (V × List Nat)} (inv : List V) (folded : List (List O)) (paths : List Nat) (t : τ)
    (h : M.emits s w = .ok (l, w')) :
    foldPathLoop M f s w inv folded paths t =
      match foldPathList f l inv folded paths t with
      | .error e => .error e
      | .ok (inv', folded', paths', t') => .ok (inv', folded', paths', t', w') := by
  induction l generalizing s w inv folded paths t with
  | nil =>
    rcases emits_cases h with ⟨-, s', h1⟩ | ⟨x, s1, w1, l', -, -, h1⟩
    · rw [foldPathLoop]
      split
      · simp_all
      · simp_all [foldPathList]
      · simp_all
    · simp at h1
  | cons y l ih =>
    rcases emits_cases h with ⟨h1, -⟩ | ⟨x, s1, w1, l', h1, h2, h3⟩
    · simp at h1
    · obtain ⟨rfl, rfl⟩ := List.cons.inj h3
      rw [foldPathLoop]
      split
      · simp_all
      · simp_all
      · next h4 =>
        rw [h1] at h4
        simp only [Except.ok.injEq, Prod.mk.injEq, Option.some.injEq] at h4
        obtain ⟨rfl, rfl, rfl⟩ := h4
        rw [foldPathList]
        rcases foldPathCollapse f (M.path s1).length inv folded paths t with e | ⟨inv', folded', paths', t'⟩
        · rfl
        · dsimp only
          rcases pushPath (M.path s1) paths' with e | paths''
          · rfl
          · exact ih _ _ _ _ h2

theorem foldPathCollapse_le {f : τ → List O → List Nat → V → τ × O} {d : Nat} {inv : List V} {folded : List (List O)}
    {paths : List Nat} {t : τ} (h : folded.length ≤ d) :
    foldPathCollapse f d inv folded paths t = .ok (inv, folded, paths, t) := by
  cases folded with
  | nil => rw [foldPathCollapse]
  | cons a l =>
    rw [foldPathCollapse.eq_def]
    simp only [List.length_cons] at h
    dsimp only
    rw [if_neg (by omega)]

theorem foldPathCollapse_collapse {f : τ → List O → List Nat → V → τ × O} {d : Nat} {inv inv' : List V}
    {folded folded' : List (List O)} {paths paths' : List Nat}
    {t t' : τ} (h : foldPathCollapse f (d + 1) inv folded paths t = .ok (inv', folded', paths', t')) :
    foldPathCollapse f d inv folded paths t = foldPathCollapse f d inv' folded' paths' t' := by
  induction hn : folded.length using Nat.strongRecOn generalizing inv folded paths t with
  | ind n ih =>
    cases folded with
    | nil => rw [foldPathCollapse_le (by simp)] at h; simp_all
    | cons items rest =>
      by_cases hd : rest.length + 1 > d + 1
      · cases inv with
        | nil => rw [foldPathCollapse.eq_def] at h; simp [hd] at h
        | cons v inv =>
          cases rest with
          | nil => simp at hd
          | cons last rest =>
            rw [foldPathCollapse, if_pos hd] at h
            rw [foldPathCollapse, if_pos (by omega)]
            exact ih _ (by simp at hn ⊢; omega) h rfl
      · rw [foldPathCollapse_le (by simp; omega)] at h
        simp only [Except.ok.injEq, Prod.mk.injEq] at h
        obtain ⟨rfl, rfl, rfl, rfl⟩ := h
        rfl

/-- The closure of `fold_path` on a tree of values with their paths. -/
def onPaths {X : Type z} (f : τ → X → List Nat → V → τ × O) : τ → X → V × List Nat → τ × O := fun t os yp => f t os yp.2 yp.1

theorem foldPathList_tree {f : τ → List O → List Nat → V → τ × O} (c : Tree (V × List Nat)) :
    ∀ {q : List Nat} {i : Nat} {inv inv0 : List V} {folded folded0 : List (List O)} {top : List O} {paths : List Nat}
      {t t0 : τ}, PathOk (q ++ [i]) c →
    foldPathCollapse f (q.length + 1) inv folded paths t = .ok (inv0, top :: folded0, q.reverse, t0) →
    folded0.length = q.length →
    ∃ inv' folded' paths' t',
      (∀ l, foldPathList f (c.preorder ++ l) inv folded paths t = foldPathList f l inv' folded' paths' t') ∧
      foldPathCollapse f (q.length + 1) inv' folded' paths' t' =
        .ok (inv0, (top ++ [(c.foldS (onPaths f) t0).2]) :: folded0, q.reverse, (c.foldS (onPaths f) t0).1) := by
  induction c using Tree.ind with
  | h a cs ih =>
    obtain ⟨y, p⟩ := a
    intro q i inv inv0 folded folded0 top paths t t0 hd hK hl
    simp only [PathOk] at hd
    obtain ⟨rfl, hd⟩ := hd
    have key : ∀ (ds : List (Tree (V × List Nat))), (∀ c ∈ ds, c ∈ cs) → ∀ (inv inv0 : List V)
        (folded folded0 : List (List O)) (top : List O) (paths : List Nat) (t t0 : τ),
        foldPathCollapse f (q.length + 2) inv folded paths t = .ok (inv0, top :: folded0, i :: q.reverse, t0) →
        folded0.length = q.length + 1 →
        ∃ inv' folded' paths' t',
          (∀ l, foldPathList f (ds.flatMap Tree.preorder ++ l) inv folded paths t =
            foldPathList f l inv' folded' paths' t') ∧
          foldPathCollapse f (q.length + 2) inv' folded' paths' t' =
            .ok (inv0, (top ++ (Tree.foldSL (onPaths f) t0 ds).2) :: folded0, i :: q.reverse,
              (Tree.foldSL (onPaths f) t0 ds).1) := by
      intro ds
      induction ds with
      | nil =>
        intro _ inv inv0 folded folded0 top paths t t0 h1 h2
        exact ⟨inv, folded, paths, t, by simp, by simpa [Tree.foldSL] using h1⟩
      | cons c ds ihd =>
        intro hds inv inv0 folded folded0 top paths t t0 h1 h2
        obtain ⟨j, hj⟩ := hd c (hds c (by simp))
        obtain ⟨i1, f1, p1, t1, h3, h4⟩ := ih c (hds c (by simp)) (q := q ++ [i]) hj (by simpa using h1) (by simpa using h2)
        obtain ⟨i2, f2, p2, t2, h5, h6⟩ := ihd (fun c hc => hds c (by simp [hc])) _ _ _ _ _ _ _ _ (by simpa using h4) h2
        refine ⟨i2, f2, p2, t2, ?_, ?_⟩
        · intro l
          simp only [List.flatMap_cons, List.append_assoc, h3, h5]
        · rw [h6]
          simp [Tree.foldSL]
    obtain ⟨i1, f1, p1, t1, h1, h2⟩ := key cs (fun _ h => h) (y :: inv0) (y :: inv0) ([] :: top :: folded0)
      (top :: folded0) [] (i :: q.reverse) t0 t0 (foldPathCollapse_le (by simp [hl])) (by simp [hl])
    refine ⟨i1, f1, p1, t1, ?_, ?_⟩
    · intro l
      rw [Tree.preorder_node, List.cons_append, foldPathList]
      simp only [List.length_append, List.length_cons, List.length_nil, Nat.zero_add, hK]
      have : pushPath (q ++ [i]) q.reverse = .ok (i :: q.reverse) := by simp [pushPath]
      simp only [this]
      exact h1 l
    · rw [foldPathCollapse_collapse h2, foldPathCollapse, if_pos (by simp; omega), foldPathCollapse_le (by simp [hl])]
      simp [Tree.foldS, onPaths]

theorem foldPathList_root {f : τ → List O → List Nat → V → τ × O} {c : Tree (V × List Nat)} (h : PathOk [] c) (t : τ) :
    ∃ inv folded paths t1, foldPathList f c.preorder [] [] [] t = .ok (inv, folded, paths, t1) ∧
      foldPathCollapse f 1 inv folded paths t1 =
        .ok ([c.value.1], [(Tree.foldSL (onPaths f) t c.children).2], [], (Tree.foldSL (onPaths f) t c.children).1) := by
  obtain ⟨⟨y, p⟩, cs⟩ := c
  simp only [PathOk] at h
  obtain ⟨rfl, h⟩ := h
  have key : ∀ (ds : List (Tree (V × List Nat))), (∀ c ∈ ds, c ∈ cs) → ∀ (inv inv0 : List V)
      (folded folded0 : List (List O)) (top : List O) (paths : List Nat) (t t0 : τ),
      foldPathCollapse f 1 inv folded paths t = .ok (inv0, top :: folded0, [], t0) → folded0.length = 0 →
      ∃ inv' folded' paths' t', foldPathList f (ds.flatMap Tree.preorder) inv folded paths t =
          .ok (inv', folded', paths', t') ∧
        foldPathCollapse f 1 inv' folded' paths' t' =
          .ok (inv0, (top ++ (Tree.foldSL (onPaths f) t0 ds).2) :: folded0, [], (Tree.foldSL (onPaths f) t0 ds).1) := by
    intro ds
    induction ds with
    | nil =>
      intro _ inv inv0 folded folded0 top paths t t0 h1 h2
      exact ⟨inv, folded, paths, t, rfl, by simpa [Tree.foldSL] using h1⟩
    | cons c ds ihd =>
      intro hds inv inv0 folded folded0 top paths t t0 h1 h2
      obtain ⟨j, hj⟩ := h c (hds c (by simp))
      obtain ⟨i1, f1, p1, t1, h3, h4⟩ := foldPathList_tree (q := []) c hj h1 h2
      obtain ⟨i2, f2, p2, t2, h5, h6⟩ := ihd (fun c hc => hds c (by simp [hc])) _ _ _ _ _ _ _ _ h4 h2
      refine ⟨i2, f2, p2, t2, ?_, ?_⟩
      · simp only [List.flatMap_cons, h3, h5]
      · rw [h6]
        simp [Tree.foldSL]
  obtain ⟨i1, f1, p1, t1, h1, h2⟩ := key cs (fun _ h => h) [y] [y] [[]] [] [] [] t t (foldPathCollapse_le (by simp)) rfl
  refine ⟨i1, f1, p1, t1, ?_, ?_⟩
  · rw [Tree.preorder_node, foldPathList, foldPathCollapse_le (by simp)]
    exact h1
  · simpa [Tree.value, Tree.children] using h2

/-- `fold_path` folds the emitted tree, the closure getting the path reported for each node. -/
theorem foldPath_of_emits {M : Pipe S V σ} {f : τ → List O → List Nat → V → τ × O} {s : S} {w w' : σ}
    {o : Option (Tree (V × List Nat))} (h : M.emits s w = .ok (Tree.preorderL o.toList, w'))
    (ho : ∀ t ∈ o, PathOk [] t) (t : τ) :
    foldPath M f s w t = .ok ((foldO (Tree.foldS (onPaths f)) t o).2, (foldO (Tree.foldS (onPaths f)) t o).1, w') := by
  rw [foldPath, foldPathLoop_eq [] [] [] t h]
  cases o with
  | none => simp [Tree.preorderL, foldPathList, foldPathCollapse, foldO]
  | some c =>
    obtain ⟨inv, folded, p1, t1, h1, h2⟩ := foldPathList_root (f := f) (ho c rfl) t
    simp only [Option.toList_some, Tree.preorderL_eq, List.flatMap_cons, List.flatMap_nil, List.append_nil, h1, h2]
    have := ho c rfl
    obtain ⟨⟨y, p⟩, cs⟩ := c
    simp only [PathOk] at this
    obtain ⟨rfl, -⟩ := this
    simp [Tree.foldS, Tree.value, Tree.children, onPaths, foldO]

end Pipe

end TreeIter
