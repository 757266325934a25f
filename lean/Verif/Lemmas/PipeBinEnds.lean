import Verif.Lemmas.PipeEnds

/-! # What the ends of a pipeline compute from the emitted tree (binary trees) -/

universe u v w x y z

namespace TreeIter

namespace Pipe
variable {S : Type u} {V : Type v} {O : Type x} {σ : Type w} {τ : Type y}

/-! ## collect_tree -/

/-- `binCollectLoop` as a function of the emitted items. -/
def binCollectList : List (V × List Nat) → List (Nat × BinTree V) → Except Panic (List (Nat × BinTree V))
  | [], keep => .ok keep
  | (x, p) :: l, keep =>
    match binCollapse p.length keep with
    | .error e => .error e
    | .ok keep' => binCollectList l ((p.getLast?.getD 0, .node x none none) :: keep')

theorem binCollectLoop_eq {M : Pipe S V σ} {s : S} {w w' : σ} {l : List (V × List Nat)} (keep : List (Nat × BinTree V))
    (h : M.emits s w = .ok (l, w')) :
    binCollectLoop M s w keep =
      match binCollectList l keep with
      | .error e => .error e
      | .ok k => .ok (k, w') := by
  induction l generalizing s w keep with
  | nil =>
    rcases emits_cases h with ⟨-, s', h1⟩ | ⟨x, s1, w1, l', -, -, h1⟩
    · rw [binCollectLoop]
      split
      · simp_all
      · simp_all [binCollectList]
      · simp_all
    · simp at h1
  | cons y l ih =>
    rcases emits_cases h with ⟨h1, -⟩ | ⟨x, s1, w1, l', h1, h2, h3⟩
    · simp at h1
    · obtain ⟨rfl, rfl⟩ := List.cons.inj h3
      rw [binCollectLoop]
      split
      · simp_all
      · simp_all
      · next h4 =>
        rw [h1] at h4
        simp only [Except.ok.injEq, Prod.mk.injEq, Option.some.injEq] at h4
        obtain ⟨rfl, rfl, rfl⟩ := h4
        rw [binCollectList]
        rcases binCollapse (M.path s1).length keep with e | keep'
        · rfl
        · exact ih _ h2

theorem binCollapse_le {d : Nat} {keep : List (Nat × BinTree V)} (h : keep.length ≤ d) :
    binCollapse d keep = .ok keep := by
  match keep, h with
  | [], h => rw [binCollapse]
  | [t], h => rw [binCollapse, if_neg (by simp only [List.length_cons, List.length_nil] at h; omega)]
  | t :: u :: rest, h =>
    rw [binCollapse.eq_def]
    simp only [List.length_cons] at h
    dsimp only
    rw [if_neg (by omega)]

theorem binCollapse_step {d : Nat} {t u : Nat × BinTree V} {u' : BinTree V} {rest : List (Nat × BinTree V)}
    (h : rest.length + 2 > d) (hu : putSlot t.1 t.2 u.2 = .ok u') :
    binCollapse d (t :: u :: rest) = binCollapse d ((u.1, u') :: rest) := by
  rw [binCollapse.eq_def]
  simp only [h, if_true, hu]

theorem binCollapse_collapse {d : Nat} {keep keep' : List (Nat × BinTree V)}
    (h : binCollapse (d + 1) keep = .ok keep') : binCollapse d keep = binCollapse d keep' := by
  induction hn : keep.length using Nat.strongRecOn generalizing keep with
  | ind n ih =>
    match keep, h, hn with
    | [], h, hn => rw [binCollapse_le (by simp)] at h; simp_all
    | [t], h, hn => rw [binCollapse_le (by simp)] at h; simp_all
    | t :: u :: rest, h, hn =>
      by_cases hd : rest.length + 2 > d + 1
      · rcases hu : putSlot t.1 t.2 u.2 with e | u'
        · rw [binCollapse.eq_def] at h
          simp only [hd, if_true, hu] at h
          simp at h
        · rw [binCollapse_step hd hu] at h
          rw [binCollapse_step (by omega) hu]
          exact ih _ (by simp at hn ⊢; omega) h rfl
      · rw [binCollapse_le (by simp; omega)] at h
        simp only [Except.ok.injEq] at h
        rw [h]

theorem binCollectList_tree (t : BinTree V) : ∀ {q : List Nat} {i j : Nat} {u u' : BinTree V}
    {keep rest : List (Nat × BinTree V)},
    binCollapse (q.length + 1) keep = .ok ((j, u) :: rest) → rest.length = q.length → putSlot i t u = .ok u' →
    ∃ keep', (∀ l, binCollectList ((t.emitted (q ++ [i])).preorder ++ l) keep = binCollectList l keep') ∧
      binCollapse (q.length + 1) keep' = .ok ((j, u') :: rest) := by
  induction t using BinTree.ind with
  | h a lo ro ihl ihr =>
    intro q i j u u' keep rest hK hl hu
    have h0 : binCollapse (q.length + 2) ((i, .node a none none) :: (j, u) :: rest) =
        .ok ((i, .node a none none) :: (j, u) :: rest) := binCollapse_le (by simp [hl])
    obtain ⟨k1, h1, h2⟩ : ∃ k1, (∀ l, binCollectList (Tree.preorderL (BinTree.emittedO (q ++ [i] ++ [0]) lo) ++ l)
          ((i, .node a none none) :: (j, u) :: rest) = binCollectList l k1) ∧
        binCollapse (q.length + 2) k1 = .ok ((i, .node a lo none) :: (j, u) :: rest) := by
      cases lo with
      | none => exact ⟨_, by simp [BinTree.emittedO, Tree.preorderL], h0⟩
      | some tl =>
        obtain ⟨k1, h1, h2⟩ := ihl tl rfl (q := q ++ [i]) (i := 0) (u' := .node a (some tl) none)
          (by simpa using h0) (by simp [hl]) rfl
        exact ⟨k1, by simpa [BinTree.emittedO, Tree.preorderL] using h1, by simpa using h2⟩
    obtain ⟨k2, h3, h4⟩ : ∃ k2, (∀ l, binCollectList (Tree.preorderL (BinTree.emittedO (q ++ [i] ++ [1]) ro) ++ l)
          k1 = binCollectList l k2) ∧
        binCollapse (q.length + 2) k2 = .ok ((i, .node a lo ro) :: (j, u) :: rest) := by
      cases ro with
      | none => exact ⟨_, by simp [BinTree.emittedO, Tree.preorderL], h2⟩
      | some tr =>
        obtain ⟨k2, h3, h4⟩ := ihr tr rfl (q := q ++ [i]) (i := 1) (u' := .node a lo (some tr))
          (by simpa using h2) (by simp [hl]) rfl
        exact ⟨k2, by simpa [BinTree.emittedO, Tree.preorderL] using h3, by simpa using h4⟩
    refine ⟨k2, ?_, ?_⟩
    · intro l
      rw [BinTree.emitted, Tree.preorder, List.cons_append, binCollectList]
      simp only [List.length_append, List.length_cons, List.length_nil, Nat.zero_add, hK, List.getLast?_concat,
        Option.getD_some]
      rw [Tree.preorderL_eq, List.flatMap_append, ← Tree.preorderL_eq, ← Tree.preorderL_eq, List.append_assoc, h1, h3]
    · rw [binCollapse_collapse h4, binCollapse_step (by omega) hu, binCollapse_le (by simp [hl])]

theorem binCollectList_root (t : BinTree V) :
    ∃ keep, binCollectList (t.emitted []).preorder [] = .ok keep ∧ binCollapse 1 keep = .ok [(0, t)] := by
  obtain ⟨a, lo, ro⟩ := t
  have h0 : binCollapse 1 [(0, BinTree.node a none none)] = .ok [(0, BinTree.node a none none)] :=
    binCollapse_le (by simp)
  obtain ⟨k1, h1, h2⟩ : ∃ k1, (∀ l, binCollectList (Tree.preorderL (BinTree.emittedO [0] lo) ++ l)
        [(0, BinTree.node a none none)] = binCollectList l k1) ∧
      binCollapse 1 k1 = .ok [(0, .node a lo none)] := by
    cases lo with
    | none => exact ⟨_, by simp [BinTree.emittedO, Tree.preorderL], h0⟩
    | some tl =>
      obtain ⟨k1, h1, h2⟩ := binCollectList_tree tl (q := []) (i := 0) (u' := .node a (some tl) none) h0 rfl rfl
      exact ⟨k1, by simpa [BinTree.emittedO, Tree.preorderL] using h1, h2⟩
  obtain ⟨k2, h3, h4⟩ : ∃ k2, (∀ l, binCollectList (Tree.preorderL (BinTree.emittedO [1] ro) ++ l)
        k1 = binCollectList l k2) ∧
      binCollapse 1 k2 = .ok [(0, .node a lo ro)] := by
    cases ro with
    | none => exact ⟨_, by simp [BinTree.emittedO, Tree.preorderL], h2⟩
    | some tr =>
      obtain ⟨k2, h3, h4⟩ := binCollectList_tree tr (q := []) (i := 1) (u' := .node a lo (some tr)) h2 rfl rfl
      exact ⟨k2, by simpa [BinTree.emittedO, Tree.preorderL] using h3, h4⟩
  refine ⟨k2, ?_, h4⟩
  rw [BinTree.emitted, Tree.preorder, binCollectList, binCollapse_le (by simp)]
  have h5 := h3 []
  rw [List.append_nil] at h5
  rw [Tree.preorderL_eq, List.flatMap_append, ← Tree.preorderL_eq, ← Tree.preorderL_eq]
  simp only [List.nil_append, List.getLast?_nil, Option.getD_none]
  rw [h1, h5, binCollectList]

/-- `collect_tree` rebuilds the emitted tree. -/
theorem binCollectTree_of_emits {M : Pipe S V σ} {s : S} {w w' : σ} {o : Option (BinTree V)}
    (h : M.emits s w = .ok (Tree.preorderL (BinTree.emittedO [] o), w')) :
    binCollectTree M s w = .ok (o, w') := by
  rw [binCollectTree, binCollectLoop_eq [] h]
  cases o with
  | none => simp [BinTree.emittedO, Tree.preorderL, binCollectList, binCollapse]
  | some t =>
    obtain ⟨keep, h1, h2⟩ := binCollectList_root t
    simp [BinTree.emittedO, Tree.preorderL_eq, h1, h2]

/-! ## fold_path -/

/-- `binFoldLoop` as a function of the emitted items. -/
def binFoldList (f : τ → Option O × Option O → List Nat → V → τ × O) :
    List (V × List Nat) → List V → List (Option O × Option O) → List Nat → τ →
      Except Panic (List V × List (Option O × Option O) × List Nat × τ)
  | [], inv, folded, paths, t => .ok (inv, folded, paths, t)
  | (x, p) :: l, inv, folded, paths, t =>
    match binFoldCollapse f p.length inv folded paths t with
    | .error e => .error e
    | .ok (inv', folded', paths', t') =>
      match pushPath p paths' with
      | .error e => .error e
      | .ok paths'' => binFoldList f l (x :: inv') ((none, none) :: folded') paths'' t'

theorem binFoldLoop_eq {M : Pipe S V σ} {f : τ → Option O × Option O → List Nat → V → τ × O} {s : S} {w w' : σ}
    {l : List (V × List Nat)} (inv : List V) (folded : List (Option O × Option O)) (paths : List Nat) (t : τ)
    (h : M.emits s w = .ok (l, w')) :
    binFoldLoop M f s w inv folded paths t =
      match binFoldList f l inv folded paths t with
      | .error e => .error e
      | .ok (inv', folded', paths', t') => .ok (inv', folded', paths', t', w') := by
  induction l generalizing s w inv folded paths t with
  | nil =>
    rcases emits_cases h with ⟨-, s', h1⟩ | ⟨x, s1, w1, l', -, -, h1⟩
    · rw [binFoldLoop]
      split
      · simp_all
      · simp_all [binFoldList]
      · simp_all
    · simp at h1
  | cons y l ih =>
    rcases emits_cases h with ⟨h1, -⟩ | ⟨x, s1, w1, l', h1, h2, h3⟩
    · simp at h1
    · obtain ⟨rfl, rfl⟩ := List.cons.inj h3
      rw [binFoldLoop]
      split
      · simp_all
      · simp_all
      · next h4 =>
        rw [h1] at h4
        simp only [Except.ok.injEq, Prod.mk.injEq, Option.some.injEq] at h4
        obtain ⟨rfl, rfl, rfl⟩ := h4
        rw [binFoldList]
        rcases binFoldCollapse f (M.path s1).length inv folded paths t with e | ⟨inv', folded', paths', t'⟩
        · rfl
        · dsimp only
          rcases pushPath (M.path s1) paths' with e | paths''
          · rfl
          · exact ih _ _ _ _ h2

theorem binFoldCollapse_le {f : τ → Option O × Option O → List Nat → V → τ × O} {d : Nat} {inv : List V}
    {folded : List (Option O × Option O)} {paths : List Nat} {t : τ} (h : folded.length ≤ d) :
    binFoldCollapse f d inv folded paths t = .ok (inv, folded, paths, t) := by
  cases folded with
  | nil => rw [binFoldCollapse]
  | cons a l =>
    rw [binFoldCollapse.eq_def]
    simp only [List.length_cons] at h
    dsimp only
    rw [if_neg (by omega)]

theorem binFoldCollapse_step {f : τ → Option O × Option O → List Nat → V → τ × O} {d : Nat} {inv : List V} {v : V}
    {items last last' : Option O × Option O} {rest : List (Option O × Option O)} {i : Nat} {paths : List Nat} {t : τ}
    (h : rest.length + 2 > d) (hs : setSlot i (f t items (i :: paths).reverse v).2 last = .ok last') :
    binFoldCollapse f d (v :: inv) (items :: last :: rest) (i :: paths) t =
      binFoldCollapse f d inv (last' :: rest) paths (f t items (i :: paths).reverse v).1 := by
  rw [binFoldCollapse.eq_def]
  simp only [List.length_cons, hs]
  rw [if_pos (by omega)]

theorem binFoldCollapse_collapse {f : τ → Option O × Option O → List Nat → V → τ × O} {d : Nat} {inv inv' : List V}
    {folded folded' : List (Option O × Option O)} {paths paths' : List Nat}
    {t t' : τ} (h : binFoldCollapse f (d + 1) inv folded paths t = .ok (inv', folded', paths', t')) :
    binFoldCollapse f d inv folded paths t = binFoldCollapse f d inv' folded' paths' t' := by
  induction hn : folded.length using Nat.strongRecOn generalizing inv folded paths t with
  | ind n ih =>
    cases folded with
    | nil => rw [binFoldCollapse_le (by simp)] at h; simp_all
    | cons items rest =>
      by_cases hd : rest.length + 1 > d + 1
      · cases inv with
        | nil => rw [binFoldCollapse.eq_def] at h; simp [hd] at h
        | cons v inv =>
          cases paths with
          | nil => rw [binFoldCollapse.eq_def] at h; simp [hd] at h
          | cons i paths =>
            cases rest with
            | nil => simp at hd
            | cons last rest =>
              simp only [List.length_cons] at hd hn
              rcases hs : setSlot i (f t items (i :: paths).reverse v).2 last with e | last'
              · rw [binFoldCollapse.eq_def] at h
                simp only [List.length_cons, hs] at h
                rw [if_pos (by omega)] at h
                simp at h
              · rw [binFoldCollapse_step (by omega) hs] at h
                rw [binFoldCollapse_step (by omega) hs]
                exact ih _ (by simp; omega) h rfl
      · rw [binFoldCollapse_le (by simp; omega)] at h
        simp only [Except.ok.injEq, Prod.mk.injEq] at h
        obtain ⟨rfl, rfl, rfl, rfl⟩ := h
        rfl

theorem binFoldList_tree {f : τ → Option O × Option O → List Nat → V → τ × O} (c : BinTree V) :
    ∀ {q : List Nat} {i : Nat} {inv inv0 : List V} {folded folded0 : List (Option O × Option O)}
      {top top' : Option O × Option O} {paths : List Nat} {t t0 : τ},
    binFoldCollapse f (q.length + 1) inv folded paths t = .ok (inv0, top :: folded0, q.reverse, t0) →
    folded0.length = q.length → setSlot i (c.foldPathS f t0 (q ++ [i])).2 top = .ok top' →
    ∃ inv' folded' paths' t',
      (∀ l, binFoldList f ((c.emitted (q ++ [i])).preorder ++ l) inv folded paths t =
        binFoldList f l inv' folded' paths' t') ∧
      binFoldCollapse f (q.length + 1) inv' folded' paths' t' =
        .ok (inv0, top' :: folded0, q.reverse, (c.foldPathS f t0 (q ++ [i])).1) := by
  induction c using BinTree.ind with
  | h a lo ro ihl ihr =>
    intro q i inv inv0 folded folded0 top top' paths t t0 hK hl hu
    have h0 : binFoldCollapse f (q.length + 2) (a :: inv0) ((none, none) :: top :: folded0) (i :: q.reverse) t0 =
        .ok (a :: inv0, (none, none) :: top :: folded0, i :: q.reverse, t0) := binFoldCollapse_le (by simp [hl])
    obtain ⟨i1, f1, p1, t1, h1, h2⟩ : ∃ i1 f1 p1 t1,
        (∀ l, binFoldList f (Tree.preorderL (BinTree.emittedO (q ++ [i] ++ [0]) lo) ++ l)
          (a :: inv0) ((none, none) :: top :: folded0) (i :: q.reverse) t0 = binFoldList f l i1 f1 p1 t1) ∧
        binFoldCollapse f (q.length + 2) i1 f1 p1 t1 =
          .ok (a :: inv0, ((BinTree.foldPathSO f t0 (q ++ [i] ++ [0]) lo).2, none) :: top :: folded0, i :: q.reverse,
            (BinTree.foldPathSO f t0 (q ++ [i] ++ [0]) lo).1) := by
      cases lo with
      | none => exact ⟨_, _, _, _, by simp [BinTree.emittedO, Tree.preorderL], h0⟩
      | some tl =>
        obtain ⟨i1, f1, p1, t1, h1, h2⟩ := ihl tl rfl (q := q ++ [i]) (i := 0)
          (top' := (some (tl.foldPathS f t0 (q ++ [i] ++ [0])).2, none)) (by simpa using h0) (by simp [hl]) rfl
        exact ⟨i1, f1, p1, t1, by simpa [BinTree.emittedO, Tree.preorderL] using h1,
          by simpa [BinTree.foldPathSO] using h2⟩
    obtain ⟨i2, f2, p2, t2, h3, h4⟩ : ∃ i2 f2 p2 t2,
        (∀ l, binFoldList f (Tree.preorderL (BinTree.emittedO (q ++ [i] ++ [1]) ro) ++ l)
          i1 f1 p1 t1 = binFoldList f l i2 f2 p2 t2) ∧
        binFoldCollapse f (q.length + 2) i2 f2 p2 t2 =
          .ok (a :: inv0, ((BinTree.foldPathSO f t0 (q ++ [i] ++ [0]) lo).2,
              (BinTree.foldPathSO f (BinTree.foldPathSO f t0 (q ++ [i] ++ [0]) lo).1 (q ++ [i] ++ [1]) ro).2) ::
                top :: folded0, i :: q.reverse,
            (BinTree.foldPathSO f (BinTree.foldPathSO f t0 (q ++ [i] ++ [0]) lo).1 (q ++ [i] ++ [1]) ro).1) := by
      cases ro with
      | none => exact ⟨_, _, _, _, by simp [BinTree.emittedO, Tree.preorderL], h2⟩
      | some tr =>
        obtain ⟨i2, f2, p2, t2, h3, h4⟩ := ihr tr rfl (q := q ++ [i]) (i := 1)
          (top' := ((BinTree.foldPathSO f t0 (q ++ [i] ++ [0]) lo).2,
            some (tr.foldPathS f (BinTree.foldPathSO f t0 (q ++ [i] ++ [0]) lo).1 (q ++ [i] ++ [1])).2))
          (by simpa using h2) (by simp [hl]) (by simp [setSlot])
        exact ⟨i2, f2, p2, t2, by simpa [BinTree.emittedO, Tree.preorderL] using h3,
          by simpa [BinTree.foldPathSO] using h4⟩
    refine ⟨i2, f2, p2, t2, ?_, ?_⟩
    · intro l
      rw [BinTree.emitted, Tree.preorder, List.cons_append, binFoldList]
      simp only [List.length_append, List.length_cons, List.length_nil, Nat.zero_add, hK]
      have : pushPath (q ++ [i]) q.reverse = .ok (i :: q.reverse) := by simp [pushPath]
      simp only [this]
      rw [Tree.preorderL_eq, List.flatMap_append, ← Tree.preorderL_eq, ← Tree.preorderL_eq, List.append_assoc, h1, h3]
    · rw [binFoldCollapse_collapse h4,
        binFoldCollapse_step (last' := top') (by omega) (by simpa [BinTree.foldPathS] using hu),
        binFoldCollapse_le (by simp [hl])]
      simp [BinTree.foldPathS]

theorem binFoldList_root {f : τ → Option O × Option O → List Nat → V → τ × O} (a : V) (lo ro : Option (BinTree V)) (t : τ) :
    ∃ inv folded paths t1, binFoldList f ((BinTree.node a lo ro).emitted []).preorder [] [] [] t =
        .ok (inv, folded, paths, t1) ∧
      binFoldCollapse f 1 inv folded paths t1 =
        .ok ([a], [((BinTree.foldPathSO f t [0] lo).2,
              (BinTree.foldPathSO f (BinTree.foldPathSO f t [0] lo).1 [1] ro).2)], [],
          (BinTree.foldPathSO f (BinTree.foldPathSO f t [0] lo).1 [1] ro).1) := by
  have h0 : binFoldCollapse f 1 [a] [(none, none)] [] t = .ok ([a], [(none, none)], [], t) :=
    binFoldCollapse_le (by simp)
  obtain ⟨i1, f1, p1, t1, h1, h2⟩ : ∃ i1 f1 p1 t1,
      (∀ l, binFoldList f (Tree.preorderL (BinTree.emittedO [0] lo) ++ l)
        [a] [(none, none)] [] t = binFoldList f l i1 f1 p1 t1) ∧
      binFoldCollapse f 1 i1 f1 p1 t1 =
        .ok ([a], [((BinTree.foldPathSO f t [0] lo).2, none)], [], (BinTree.foldPathSO f t [0] lo).1) := by
    cases lo with
    | none => exact ⟨_, _, _, _, by simp [BinTree.emittedO, Tree.preorderL], h0⟩
    | some tl =>
      obtain ⟨i1, f1, p1, t1, h1, h2⟩ := binFoldList_tree tl (q := []) (i := 0)
        (top' := (some (tl.foldPathS f t [0]).2, none)) h0 rfl rfl
      exact ⟨i1, f1, p1, t1, by simpa [BinTree.emittedO, Tree.preorderL] using h1,
        by simpa [BinTree.foldPathSO] using h2⟩
  obtain ⟨i2, f2, p2, t2, h3, h4⟩ : ∃ i2 f2 p2 t2,
      (∀ l, binFoldList f (Tree.preorderL (BinTree.emittedO [1] ro) ++ l)
        i1 f1 p1 t1 = binFoldList f l i2 f2 p2 t2) ∧
      binFoldCollapse f 1 i2 f2 p2 t2 =
        .ok ([a], [((BinTree.foldPathSO f t [0] lo).2,
            (BinTree.foldPathSO f (BinTree.foldPathSO f t [0] lo).1 [1] ro).2)], [],
          (BinTree.foldPathSO f (BinTree.foldPathSO f t [0] lo).1 [1] ro).1) := by
    cases ro with
    | none => exact ⟨_, _, _, _, by simp [BinTree.emittedO, Tree.preorderL], h2⟩
    | some tr =>
      obtain ⟨i2, f2, p2, t2, h3, h4⟩ := binFoldList_tree tr (q := []) (i := 1)
        (top' := ((BinTree.foldPathSO f t [0] lo).2,
          some (tr.foldPathS f (BinTree.foldPathSO f t [0] lo).1 [1]).2)) h2 rfl rfl
      exact ⟨i2, f2, p2, t2, by simpa [BinTree.emittedO, Tree.preorderL] using h3,
        by simpa [BinTree.foldPathSO] using h4⟩
  refine ⟨i2, f2, p2, t2, ?_, h4⟩
  rw [BinTree.emitted, Tree.preorder, binFoldList, binFoldCollapse_le (by simp)]
  have h5 := h3 []
  rw [List.append_nil] at h5
  rw [Tree.preorderL_eq, List.flatMap_append, ← Tree.preorderL_eq, ← Tree.preorderL_eq]
  have : pushPath [] [] = .ok [] := by simp [pushPath]
  simp only [List.nil_append, this]
  rw [h1, h5, binFoldList]

/-- `fold_path` folds the emitted tree. -/
theorem binFoldPath_of_emits {M : Pipe S V σ} {f : τ → Option O × Option O → List Nat → V → τ × O} {s : S} {w w' : σ}
    {o : Option (BinTree V)} (h : M.emits s w = .ok (Tree.preorderL (BinTree.emittedO [] o), w')) (t : τ) :
    binFoldPath M f s w t = .ok ((foldO (fun t c => BinTree.foldPathS f t [] c) t o).2,
      (foldO (fun t c => BinTree.foldPathS f t [] c) t o).1, w') := by
  rw [binFoldPath, binFoldLoop_eq [] [] [] t h]
  cases o with
  | none => simp [BinTree.emittedO, Tree.preorderL, binFoldList, binFoldCollapse, foldO]
  | some c =>
    obtain ⟨a, lo, ro⟩ := c
    obtain ⟨inv, folded, p1, t1, h1, h2⟩ := binFoldList_root (f := f) a lo ro t
    simp only [BinTree.emittedO, Tree.preorderL_eq, List.flatMap_cons, List.flatMap_nil, List.append_nil, h1, h2]
    simp [BinTree.foldPathS, foldO]

end Pipe

end TreeIter
