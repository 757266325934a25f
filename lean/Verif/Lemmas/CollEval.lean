import Verif.Lemmas.CollSim
import Verif.Spec.Collection

/-! # What the stack machines compute -/

universe u v w x

namespace TreeIter

section General
variable {V : Type u} {O : Type v} {τ : Type w}

theorem Tree.foldSL_append {f : τ → List O → V → τ × O} (t : τ) (l : List (Tree V)) (l' : List (Tree V)) :
    Tree.foldSL f t (l ++ l') =
      ((Tree.foldSL f (Tree.foldSL f t l).1 l').1, (Tree.foldSL f t l).2 ++ (Tree.foldSL f (Tree.foldSL f t l).1 l').2) := by
  induction l generalizing t with
  | nil => simp [Tree.foldSL]
  | cons c l ih => simp [Tree.foldSL, ih]

/-- A closure that ignores the path. -/
theorem foldShape_tree (f : τ → List O → V → τ × O) (c : Tree (V × List Nat)) : ∀ (q : List Nat) (t : τ),
    (foldShape fun t x _ v => f t x v).tree q t c = .ok ((c.map Prod.fst).foldS f t) := by
  induction c using Tree.ind with
  | h a cs ih =>
    obtain ⟨v, p⟩ := a
    intro q t
    have key : ∀ ds : List (Tree (V × List Nat)), (∀ c ∈ ds, c ∈ cs) → ∀ (q : List Nat) (t : τ) (x : List O),
        (foldShape fun t x _ v => f t x v).kids q t x ds =
          .ok ((Tree.foldSL f t (ds.map (Tree.map Prod.fst))).1, x ++ (Tree.foldSL f t (ds.map (Tree.map Prod.fst))).2) := by
      intro ds
      induction ds with
      | nil => intro _ q t x; simp [Shape.kids, Tree.foldSL]
      | cons c ds ihd =>
        intro hds q t x
        rw [Shape.kids, ih c (hds c (by simp))]
        simp only [foldShape]
        have := ihd (fun c hc => hds c (by simp [hc])) q ((c.map Prod.fst).foldS f t).1 (x ++ [((c.map Prod.fst).foldS f t).2])
        simp only [foldShape] at this
        rw [this]
        simp [Tree.foldSL]
    rw [Shape.tree, key cs (fun _ h => h)]
    simp [foldShape, Tree.map_node, Tree.foldS]

/-- A closure that gets the path. -/
theorem foldPathShape_tree (f : τ → List O → List Nat → V → τ × O) (c : Tree (V × List Nat)) :
    ∀ (q : List Nat) (i : Nat) (t : τ), PathOk (q ++ [i]) c →
    (foldShape f).tree q t c = .ok (c.foldS (Pipe.onPaths f) t) := by
  induction c using Tree.ind with
  | h a cs ih =>
    obtain ⟨v, p⟩ := a
    intro q i t hp
    simp only [PathOk] at hp
    obtain ⟨rfl, hp⟩ := hp
    have key : ∀ ds : List (Tree (V × List Nat)), (∀ c ∈ ds, c ∈ cs) → ∀ (t : τ) (x : List O),
        (foldShape f).kids (q ++ [i]) t x ds =
          .ok ((Tree.foldSL (Pipe.onPaths f) t ds).1, x ++ (Tree.foldSL (Pipe.onPaths f) t ds).2) := by
      intro ds
      induction ds with
      | nil => intro _ t x; simp [Shape.kids, Tree.foldSL]
      | cons c ds ihd =>
        intro hds t x
        obtain ⟨j, hj⟩ := hp c (hds c (by simp))
        rw [Shape.kids, ih c (hds c (by simp)) (q ++ [i]) j t hj]
        have := ihd (fun c hc => hds c (by simp [hc])) (c.foldS (Pipe.onPaths f) t).1 (x ++ [(c.foldS (Pipe.onPaths f) t).2])
        simp only [foldShape] at this ⊢
        rw [this]
        simp [Tree.foldSL]
    have hl : Shape.lastSeg (q ++ [i]) = i := by simp [Shape.lastSeg]
    rw [Shape.tree, hl, key cs (fun _ h => h)]
    simp [foldShape, Tree.foldS, Pipe.onPaths]

theorem foldShape_forest (f : τ → List O → V → τ × O) (cs : List (Tree (V × List Nat))) (t : τ) :
    (foldShape fun t x _ v => f t x v).forest t cs =
      .ok ((Tree.foldSL f t (cs.map (Tree.map Prod.fst))).2, (Tree.foldSL f t (cs.map (Tree.map Prod.fst))).1) := by
  induction cs generalizing t with
  | nil => simp [Shape.forest, Tree.foldSL]
  | cons c cs ih => simp [Shape.forest, foldShape_tree, ih, Tree.foldSL]

theorem foldPathShape_forest (f : τ → List O → List Nat → V → τ × O) (cs : List (Tree (V × List Nat))) (t : τ)
    (h : ∀ c ∈ cs, ∃ i, PathOk [i] c) :
    (foldShape f).forest t cs = .ok ((Tree.foldSL (Pipe.onPaths f) t cs).2, (Tree.foldSL (Pipe.onPaths f) t cs).1) := by
  induction cs generalizing t with
  | nil => simp [Shape.forest, Tree.foldSL]
  | cons c cs ih =>
    obtain ⟨i, hi⟩ := h c (by simp)
    simp [Shape.forest, foldPathShape_tree f c [] i t hi, ih _ fun c hc => h c (by simp [hc]), Tree.foldSL]

theorem foldSL_node (cs : List (Tree V)) (t : τ) : Tree.foldSL (fun t x v => (t, Tree.node v x)) t cs = (t, cs) := by
  have key : ∀ c : Tree V, ∀ t : τ, c.foldS (fun t x v => (t, Tree.node v x)) t = (t, c) := by
    intro c
    induction c using Tree.ind with
    | h a cs ih =>
      intro t
      have : ∀ ds : List (Tree V), (∀ c ∈ ds, c ∈ cs) → ∀ t : τ,
          Tree.foldSL (fun t x v => (t, Tree.node v x)) t ds = (t, ds) := by
        intro ds
        induction ds with
        | nil => intro _ t; simp [Tree.foldSL]
        | cons c ds ihd =>
          intro hds t
          simp [Tree.foldSL, ih c (hds c (by simp)), ihd fun c hc => hds c (by simp [hc])]
      simp [Tree.foldS, this cs fun _ h => h]
  induction cs generalizing t with
  | nil => simp [Tree.foldSL]
  | cons c cs ih => simp [Tree.foldSL, key, ih]

theorem treesShape_forest (cs : List (Tree (V × List Nat))) (t : Unit) :
    treesShape.forest t cs = .ok (cs.map (Tree.map Prod.fst), t) := by
  rw [treesShape, foldShape_forest fun t x v => (t, Tree.node v x), foldSL_node]

end General

section Binary
variable {V : Type u} {O : Type v} {τ : Type w}

theorem BinTree.emitted_value (c : BinTree V) (p : List Nat) : (c.emitted p).value.2 = p := by
  obtain ⟨a, l, r⟩ := c
  rw [BinTree.emitted, Tree.value]

theorem binFoldShape_tree (f : τ → Option O × Option O → List Nat → V → τ × O) (c : BinTree V) :
    ∀ (q : List Nat) (i : Nat) (t : τ), (binFoldShape f).tree q t (c.emitted (q ++ [i])) = .ok (c.foldPathS f t (q ++ [i])) := by
  induction c using BinTree.ind with
  | h a l r ihl ihr =>
    intro q i t
    have hl : Shape.lastSeg (q ++ [i]) = i := by simp [Shape.lastSeg]
    have h0 : Shape.lastSeg (q ++ [i] ++ [0]) = 0 := by simp [Shape.lastSeg]
    have h1 : Shape.lastSeg (q ++ [i] ++ [1]) = 1 := by simp [Shape.lastSeg]
    have hk : ∀ (t : τ), (binFoldShape f).kids (q ++ [i]) t (none, none)
        (BinTree.emittedO (q ++ [i] ++ [0]) l ++ BinTree.emittedO (q ++ [i] ++ [1]) r) =
        .ok ((BinTree.foldPathSO f (BinTree.foldPathSO f t (q ++ [i] ++ [0]) l).1 (q ++ [i] ++ [1]) r).1,
          ((BinTree.foldPathSO f t (q ++ [i] ++ [0]) l).2,
            (BinTree.foldPathSO f (BinTree.foldPathSO f t (q ++ [i] ++ [0]) l).1 (q ++ [i] ++ [1]) r).2)) := by
      intro t
      cases l with
      | none =>
        cases r with
        | none => simp [BinTree.emittedO, Shape.kids, BinTree.foldPathSO]
        | some r =>
          simp only [BinTree.emittedO, List.nil_append, Shape.kids, BinTree.foldPathSO, ihr r rfl, BinTree.emitted_value, h1]
          simp [binFoldShape, Pipe.setSlot]
      | some l =>
        cases r with
        | none =>
          simp only [BinTree.emittedO, List.append_nil, Shape.kids, BinTree.foldPathSO, ihl l rfl, BinTree.emitted_value, h0]
          simp [binFoldShape, Pipe.setSlot]
        | some r =>
          simp only [BinTree.emittedO, List.cons_append, List.nil_append, Shape.kids, BinTree.foldPathSO, ihl l rfl,
            BinTree.emitted_value, h0]
          have hs : ∀ (o : O) (x : Option O × Option O), (binFoldShape f).attach 0 o x = .ok (some o, x.2) := fun _ _ => rfl
          simp only [hs, ihr r rfl, h1]
          simp [binFoldShape, Pipe.setSlot]
    have hi : (binFoldShape f).init = (none, none) := rfl
    rw [BinTree.emitted, Shape.tree, hl, hi, hk]
    simp only [BinTree.foldPathS]
    rfl

/-- The trees of a collection next to their numbers, folded one after another. -/
def foldNumbered (f : τ → Option O × Option O → List Nat → V → τ × O) (t : τ) : List (Nat × BinTree V) → τ × List O
  | [] => (t, [])
  | (i, c) :: cs =>
    ((foldNumbered f (c.foldPathS f t [i]).1 cs).1, (c.foldPathS f t [i]).2 :: (foldNumbered f (c.foldPathS f t [i]).1 cs).2)

theorem binFoldShape_forest (f : τ → Option O × Option O → List Nat → V → τ × O) (cs : List (Nat × BinTree V)) (t : τ) :
    (binFoldShape f).forest t (cs.map fun ic => ic.2.emitted [ic.1]) = .ok ((foldNumbered f t cs).2, (foldNumbered f t cs).1) := by
  induction cs generalizing t with
  | nil => simp [Shape.forest, foldNumbered]
  | cons c cs ih =>
    obtain ⟨i, c⟩ := c
    have h := binFoldShape_tree f c [] i t
    rw [List.nil_append] at h
    simp [Shape.forest, h, ih, foldNumbered]

theorem binTreesShape_tree (c : BinTree V) :
    ∀ (q : List Nat) (i : Nat) (t : Unit), binTreesShape.tree q t (c.emitted (q ++ [i])) = .ok (t, c) := by
  induction c using BinTree.ind with
  | h a l r ihl ihr =>
    intro q i t
    have hl : Shape.lastSeg (q ++ [i]) = i := by simp [Shape.lastSeg]
    have h0 : Shape.lastSeg (q ++ [i] ++ [0]) = 0 := by simp [Shape.lastSeg]
    have h1 : Shape.lastSeg (q ++ [i] ++ [1]) = 1 := by simp [Shape.lastSeg]
    have hk : ∀ (t : Unit), binTreesShape.kids (q ++ [i]) t (none, none)
        (BinTree.emittedO (q ++ [i] ++ [0]) l ++ BinTree.emittedO (q ++ [i] ++ [1]) r) = .ok (t, (l, r)) := by
      intro t
      cases l with
      | none =>
        cases r with
        | none => simp [BinTree.emittedO, Shape.kids]
        | some r =>
          simp only [BinTree.emittedO, List.nil_append, Shape.kids, ihr r rfl, BinTree.emitted_value, h1]
          simp [binTreesShape, putPair]
      | some l =>
        cases r with
        | none =>
          simp only [BinTree.emittedO, List.append_nil, Shape.kids, ihl l rfl, BinTree.emitted_value, h0]
          simp [binTreesShape, putPair]
        | some r =>
          simp only [BinTree.emittedO, List.cons_append, List.nil_append, Shape.kids, ihl l rfl,
            BinTree.emitted_value, h0]
          have hs : ∀ (o : BinTree V) (x : Option (BinTree V) × Option (BinTree V)),
            binTreesShape.attach 0 o x = .ok (some o, x.2) := fun _ _ => rfl
          simp only [hs, ihr r rfl, h1]
          simp [binTreesShape, putPair]
    have hi : (binTreesShape (V := V)).init = (none, none) := rfl
    rw [BinTree.emitted, Shape.tree, hl, hi, hk]
    rfl

theorem binTreesShape_forest (cs : List (Nat × BinTree V)) (t : Unit) :
    binTreesShape.forest t (cs.map fun ic => ic.2.emitted [ic.1]) = .ok (cs.map Prod.snd, t) := by
  induction cs generalizing t with
  | nil => simp [Shape.forest]
  | cons c cs ih =>
    obtain ⟨i, c⟩ := c
    have h := binTreesShape_tree c [] i t
    rw [List.nil_append] at h
    simp [Shape.forest, h, ih]

end Binary

end TreeIter
