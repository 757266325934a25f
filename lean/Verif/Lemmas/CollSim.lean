import Verif.Lemmas.CollFrames

/-! # The six ends of a collection pipeline are instances of the stack machine -/

universe u v w x y

namespace TreeIter

/-- Rename the stack in the outcome of a step. -/
def Step.mapStack {Q : Type u} {Q' : Type v} {O : Type w} {τ : Type x} (ρ : Q' → Q) : Step Q' O τ → Step Q O τ
  | (.inl o, t) => (.inl o, t)
  | (.inr q, t) => (.inr (ρ q), t)

/-- Rename the stack in the outcome of a step that may panic. -/
def mapOk {A : Type u} {B : Type v} (g : A → B) : Except Panic A → Except Panic B
  | .error e => .error e
  | .ok a => .ok (g a)

/-- `E` behaves as `E'` with the stack renamed. -/
structure Sim {Q : Type u} {Q' : Type v} {V : Type w} {O : Type x} {τ : Type y} (E : CollEnd Q V O τ) (E' : CollEnd Q' V O τ)
    (ρ : Q' → Q) : Prop where
  empty : ρ E'.empty = E.empty
  step : ∀ q p v t, p ≠ [] → E.step (ρ q) p v t = mapOk (Step.mapStack ρ) (E'.step q p v t)
  drain : ∀ q t, E.drain (ρ q) t = E'.drain q t

theorem Sim.allList {Q : Type u} {Q' : Type v} {V : Type w} {O : Type x} {τ : Type y} {E : CollEnd Q V O τ}
    {E' : CollEnd Q' V O τ} {ρ : Q' → Q} (h : Sim E E' ρ) (items : List (V × List Nat)) (hp : ∀ i ∈ items, i.2 ≠ []) :
    ∀ (q : Q') (t : τ), E.allList items (ρ q) t = E'.allList items q t := by
  induction items with
  | nil => intro q t; rw [CollEnd.allList, CollEnd.allList, h.drain]
  | cons i items ih =>
    obtain ⟨v, p⟩ := i
    intro q t
    have hp1 : p ≠ [] := hp (v, p) (by simp)
    have ih := ih fun i hi => hp i (by simp [hi])
    rw [CollEnd.allList, CollEnd.allList, h.step q p v t hp1]
    rcases E'.step q p v t with e | ⟨o | q1, t1⟩
    · rfl
    · simp only [mapOk, Step.mapStack]
      rw [← h.empty, h.step _ p v t1 hp1]
      rcases E'.step E'.empty p v t1 with e | ⟨o' | q2, t2⟩
      · rfl
      · rfl
      · simp only [mapOk, Step.mapStack, ih]
    · simp only [mapOk, Step.mapStack, ih]

theorem collDepth_ok {p : List Nat} (h : p ≠ []) : Pipe.collDepth p = .ok (p.length - 1) := by
  cases p with
  | nil => simp at h
  | cons i p => rfl

theorem getLast?_lastSeg {p : List Nat} (h : p ≠ []) : p.getLast? = some (Shape.lastSeg p) := by
  rw [Shape.lastSeg, List.getLast?_eq_some_getLast h, Option.getD_some]

namespace Shape
variable {X : Type u} {V : Type v} {O : Type u} {τ : Type x} {F : Shape X V O τ}

theorem closeG_length {d : Nat} {fs fs' : List (V × X × Nat)} {t t' : τ} (h : F.closeG d fs t = .ok (.inr fs', t')) :
    fs'.length ≤ d := by
  induction hn : fs.length using Nat.strongRecOn generalizing fs t with
  | ind n ih =>
    by_cases hd : fs.length ≤ d
    · rw [closeG_le hd] at h
      simp only [Except.ok.injEq, Prod.mk.injEq, Sum.inr.injEq] at h
      rw [← h.1]
      exact hd
    · match fs, hd, hn with
      | [], hd, _ => simp at hd
      | [(v, x, i)], hd, _ =>
        simp only [List.length_cons, List.length_nil] at hd
        rw [closeG, if_pos (by omega)] at h
        simp at h
      | (v, x, i) :: (v', x', i') :: rest, hd, hn =>
        simp only [List.length_cons] at hd hn
        rw [closeG, if_pos (by omega)] at h
        split at h
        · simp at h
        · exact ih _ (by simp only [List.length_cons]; omega) h rfl

end Shape

/-! ## General trees -/

section General
variable {V : Type u} {O : Type v} {τ : Type w}

/-- `Fold` and `FoldPath`. -/
def foldShape (f : τ → List O → List Nat → V → τ × O) : Shape (List O) V O τ where
  init := []
  close := f
  attach _ o x := .ok (x ++ [o])

/-- `Trees`. -/
def treesShape : Shape (List (Tree V)) V (Tree V) Unit := foldShape fun t x _ v => (t, .node v x)

theorem treesClose_eq {d : Nat} (fs : List (V × List (Tree V) × Nat)) (t : Unit) :
    (mapOk (fun r => (r, ())) (treesClose (d + 1) (fs.map fun fr => .node fr.1 fr.2.1)) :
        Except Panic (Step (List (Tree V)) (Tree V) Unit)) =
      mapOk (Step.mapStack (List.map fun fr => .node fr.1 fr.2.1)) (treesShape.closeG d fs t) := by
  induction hn : fs.length using Nat.strongRecOn generalizing fs t with
  | ind n ih =>
    match fs, hn with
    | [], hn => simp [treesClose, Shape.closeG, mapOk, Step.mapStack]
    | [(v, x, i)], hn =>
      simp only [List.map_cons, List.map_nil, treesClose, Shape.closeG]
      by_cases hd : 1 > d
      · rw [if_pos hd, if_pos (by omega)]
        rfl
      · rw [if_neg hd, if_neg (by omega)]
        rfl
    | (v, x, i) :: (v', x', i') :: rest, hn =>
      simp only [List.map_cons, treesClose, List.length_map]
      rw [Shape.closeG]
      by_cases hd : rest.length + 2 > d
      · rw [if_pos hd, if_pos (by omega)]
        simp only [List.length_cons] at hn
        exact ih _ (by simp only [← hn, List.length_cons]; omega) ((v', x' ++ [.node v x], i') :: rest) _ rfl
      · rw [if_neg hd, if_neg (by omega)]
        rfl

theorem treesDrain_eq (fs : List (V × List (Tree V) × Nat)) (t : Unit) :
    (Except.ok (treesDrain (fs.map fun fr => .node fr.1 fr.2.1), ()) : Except Panic (Option (Tree V) × Unit)) =
      treesShape.frameEnd.drain fs t := by
  induction hn : fs.length using Nat.strongRecOn generalizing fs t with
  | ind n ih =>
    match fs, hn with
    | [], hn => simp [treesDrain, Shape.closeG, Shape.frameEnd]
    | [(v, x, i)], hn =>
      simp only [List.map_cons, List.map_nil, treesDrain, Shape.closeG, Shape.frameEnd]
      rfl
    | (v, x, i) :: (v', x', i') :: rest, hn =>
      simp only [List.length_cons] at hn
      have := ih _ (by simp only [← hn, List.length_cons]; omega) ((v', x' ++ [.node v x], i') :: rest) t rfl
      simp only [List.map_cons, treesDrain, Shape.frameEnd] at this ⊢
      rw [this, Shape.closeG.eq_3, if_pos (by omega)]
      rfl

theorem treesSim : Sim (treesEnd (V := V)) treesShape.frameEnd (List.map fun fr => .node fr.1 fr.2.1) where
  empty := rfl
  step fs p v t hp := by
    have hl : p.length = p.length - 1 + 1 := by
      have := List.length_pos_iff.2 hp
      omega
    have h := treesClose_eq (d := p.length - 1) fs t
    simp only [treesEnd, Shape.frameEnd]
    rw [hl]
    simp only [Nat.add_sub_cancel]
    clear hl
    generalize treesClose (p.length - 1 + 1) _ = A at h ⊢
    generalize treesShape.closeG (p.length - 1) fs t = B at h ⊢
    rcases A with e | (o | k) <;> rcases B with e' | ⟨o' | k', t'⟩ <;>
      simp [mapOk, Step.mapStack] at h ⊢
    all_goals first
      | exact h
      | exact ⟨rfl, h⟩
  drain fs t := treesDrain_eq fs t

theorem foldClose_eq {f : τ → List O → V → τ × O} {d : Nat} (fs : List (V × List O × Nat)) (t : τ) :
    foldClose f d (fs.map fun fr => fr.1) (fs.map fun fr => fr.2.1) t =
      mapOk (Step.mapStack fun fs => (fs.map fun fr => fr.1, fs.map fun fr => fr.2.1))
        ((foldShape fun t x _ v => f t x v).closeG d fs t) := by
  induction hn : fs.length using Nat.strongRecOn generalizing fs t with
  | ind n ih =>
    match fs, hn with
    | [], hn => simp [foldClose, Shape.closeG, mapOk, Step.mapStack]
    | [(v, x, i)], hn =>
      simp only [List.map_cons, List.map_nil, foldClose, Shape.closeG, List.length_nil, Nat.zero_add]
      by_cases hd : 1 > d
      · rw [if_pos hd, if_pos hd]
        rfl
      · rw [if_neg hd, if_neg hd]
        rfl
    | (v, x, i) :: (v', x', i') :: rest, hn =>
      simp only [List.map_cons, foldClose, List.length_map, List.length_cons]
      rw [Shape.closeG]
      by_cases hd : rest.length + 2 > d
      · rw [if_pos hd, if_pos (by omega)]
        simp only [List.length_cons] at hn
        exact ih _ (by simp only [← hn, List.length_cons]; omega) ((v', x' ++ [(f t x v).2], i') :: rest) _ rfl
      · rw [if_neg hd, if_neg (by omega)]
        rfl

theorem foldDrain_eq {f : τ → List O → V → τ × O} (fs : List (V × List O × Nat)) (t : τ) :
    foldDrain f (fs.map fun fr => fr.1) (fs.map fun fr => fr.2.1) t =
      (foldShape fun t x _ v => f t x v).frameEnd.drain fs t := by
  induction hn : fs.length using Nat.strongRecOn generalizing fs t with
  | ind n ih =>
    match fs, hn with
    | [], hn => simp [foldDrain, Shape.closeG, Shape.frameEnd]
    | [(v, x, i)], hn =>
      simp only [List.map_cons, List.map_nil, foldDrain, Shape.closeG, Shape.frameEnd]
      rfl
    | (v, x, i) :: (v', x', i') :: rest, hn =>
      simp only [List.length_cons] at hn
      have := ih _ (by simp only [← hn, List.length_cons]; omega) ((v', x' ++ [(f t x v).2], i') :: rest) (f t x v).1 rfl
      simp only [List.map_cons, foldDrain, Shape.frameEnd] at this ⊢
      rw [this, Shape.closeG.eq_3, if_pos (by omega)]
      rfl

theorem foldSim (f : τ → List O → V → τ × O) : Sim (foldEnd f) (foldShape fun t x _ v => f t x v).frameEnd
    (fun fs => (fs.map fun fr => fr.1, fs.map fun fr => fr.2.1)) where
  empty := rfl
  step fs p v t hp := by
    simp only [foldEnd, Shape.frameEnd, collDepth_ok hp, foldClose_eq]
    rcases (foldShape fun t x _ v => f t x v).closeG (p.length - 1) fs t with e | ⟨o | k, t'⟩ <;> rfl
  drain fs t := foldDrain_eq fs t

theorem foldPathClose_eq {f : τ → List O → List Nat → V → τ × O} {d : Nat} (fs : List (V × List O × Nat)) (t : τ) :
    foldPathClose f d (fs.map fun fr => fr.1) (fs.map fun fr => fr.2.1) (fs.map fun fr => fr.2.2) t =
      mapOk (Step.mapStack fun fs => (fs.map fun fr => fr.1, fs.map fun fr => fr.2.1, fs.map fun fr => fr.2.2))
        ((foldShape f).closeG d fs t) := by
  induction hn : fs.length using Nat.strongRecOn generalizing fs t with
  | ind n ih =>
    match fs, hn with
    | [], hn => simp [foldPathClose, Shape.closeG, mapOk, Step.mapStack]
    | [(v, x, i)], hn =>
      simp only [List.map_cons, List.map_nil, foldPathClose, Shape.closeG, List.length_nil, Nat.zero_add]
      by_cases hd : 1 > d
      · rw [if_pos hd, if_pos hd]
        rfl
      · rw [if_neg hd, if_neg hd]
        rfl
    | (v, x, i) :: (v', x', i') :: rest, hn =>
      simp only [List.map_cons, foldPathClose, List.length_map, List.length_cons]
      rw [Shape.closeG]
      by_cases hd : rest.length + 2 > d
      · rw [if_pos hd, if_pos (by omega)]
        simp only [List.length_cons] at hn
        exact ih _ (by simp only [← hn, List.length_cons]; omega)
          ((v', x' ++ [(f t x (Shape.segs ((v, x, i) :: (v', x', i') :: rest)) v).2], i') :: rest) _ rfl
      · rw [if_neg hd, if_neg (by omega)]
        rfl

theorem foldPathDrain_eq {f : τ → List O → List Nat → V → τ × O} (fs : List (V × List O × Nat)) (t : τ) :
    foldPathDrain f (fs.map fun fr => fr.1) (fs.map fun fr => fr.2.1) (fs.map fun fr => fr.2.2) t =
      (foldShape f).frameEnd.drain fs t := by
  induction hn : fs.length using Nat.strongRecOn generalizing fs t with
  | ind n ih =>
    match fs, hn with
    | [], hn => simp [foldPathDrain, Shape.closeG, Shape.frameEnd]
    | [(v, x, i)], hn =>
      simp only [List.map_cons, List.map_nil, foldPathDrain, Shape.closeG, Shape.frameEnd]
      rfl
    | (v, x, i) :: (v', x', i') :: rest, hn =>
      simp only [List.length_cons] at hn
      have := ih _ (by simp only [← hn, List.length_cons]; omega)
        ((v', x' ++ [(f t x (Shape.segs ((v, x, i) :: (v', x', i') :: rest)) v).2], i') :: rest)
        (f t x (Shape.segs ((v, x, i) :: (v', x', i') :: rest)) v).1 rfl
      simp only [List.map_cons, foldPathDrain, Shape.frameEnd] at this ⊢
      rw [Shape.closeG.eq_3, if_pos (by omega)]
      exact this

theorem foldPathSim (f : τ → List O → List Nat → V → τ × O) : Sim (foldPathEnd f) (foldShape f).frameEnd
    (fun fs => (fs.map fun fr => fr.1, fs.map fun fr => fr.2.1, fs.map fun fr => fr.2.2)) where
  empty := rfl
  step fs p v t hp := by
    simp only [foldPathEnd, Shape.frameEnd, collDepth_ok hp, foldPathClose_eq]
    rcases hc : (foldShape f).closeG (p.length - 1) fs t with e | ⟨o | k, t'⟩
    · rfl
    · rfl
    · have hk := Shape.closeG_length hc
      simp only [mapOk, Step.mapStack, foldPathPush, getLast?_lastSeg hp, List.length_map]
      rw [if_neg (by omega)]
      rfl
  drain fs t := foldPathDrain_eq fs t

end General

/-! ## Binary trees -/

section Binary
variable {V : Type u} {O : Type v} {τ : Type w}

/-- `BinaryFold` and `BinaryFoldPath`. -/
def binFoldShape (f : τ → Option O × Option O → List Nat → V → τ × O) : Shape (Option O × Option O) V O τ where
  init := (none, none)
  close := f
  attach := Pipe.setSlot

/-- Slots of a tree that is being built. -/
def putPair (i : Nat) (o : BinTree V) (x : Option (BinTree V) × Option (BinTree V)) :
    Except Panic (Option (BinTree V) × Option (BinTree V)) :=
  match i with
  | 0 => .ok (some o, x.2)
  | 1 => .ok (x.1, some o)
  | _ => .error .unreachable

/-- `BinaryTrees`. -/
def binTreesShape : Shape (Option (BinTree V) × Option (BinTree V)) V (BinTree V) Unit where
  init := (none, none)
  close t x _ v := (t, .node v x.1 x.2)
  attach := putPair

theorem putSlot_eq (i : Nat) (o : BinTree V) (v : V) (x : Option (BinTree V) × Option (BinTree V)) :
    Pipe.putSlot i o (.node v x.1 x.2) = mapOk (fun x => .node v x.1 x.2) (putPair i o x) := by
  match i with
  | 0 => rfl
  | 1 => rfl
  | i + 2 => rfl

theorem binTreesClose_eq {d : Nat} (fs : List (V × (Option (BinTree V) × Option (BinTree V)) × Nat)) (t : Unit) :
    (mapOk (fun r => (r, ())) (binTreesClose (d + 1) (fs.map fun fr => (fr.2.2, .node fr.1 fr.2.1.1 fr.2.1.2))) :
        Except Panic (Step (List (Nat × BinTree V)) (BinTree V) Unit)) =
      mapOk (Step.mapStack (List.map fun fr => (fr.2.2, .node fr.1 fr.2.1.1 fr.2.1.2))) (binTreesShape.closeG d fs t) := by
  induction hn : fs.length using Nat.strongRecOn generalizing fs t with
  | ind n ih =>
    match fs, hn with
    | [], hn => simp [binTreesClose, Shape.closeG, mapOk, Step.mapStack]
    | [(v, x, i)], hn =>
      simp only [List.map_cons, List.map_nil, binTreesClose, Shape.closeG]
      by_cases hd : 1 > d
      · rw [if_pos hd, if_pos (by omega)]
        rfl
      · rw [if_neg hd, if_neg (by omega)]
        rfl
    | (v, x, i) :: (v', x', i') :: rest, hn =>
      simp only [List.map_cons, binTreesClose, List.length_map]
      rw [Shape.closeG]
      by_cases hd : rest.length + 2 > d
      · rw [if_pos hd, if_pos (by omega), putSlot_eq]
        simp only [binTreesShape]
        rcases putPair i (.node v x.1 x.2) x' with e | x''
        · rfl
        · simp only [List.length_cons] at hn
          exact ih _ (by simp only [← hn, List.length_cons]; omega) ((v', x'', i') :: rest) _ rfl
      · rw [if_neg hd, if_neg (by omega)]
        rfl

theorem binTreesDrain_eq (fs : List (V × (Option (BinTree V) × Option (BinTree V)) × Nat)) (t : Unit) :
    binTreesEnd.drain (fs.map fun fr => (fr.2.2, .node fr.1 fr.2.1.1 fr.2.1.2)) t = binTreesShape.frameEnd.drain fs t := by
  induction hn : fs.length using Nat.strongRecOn generalizing fs t with
  | ind n ih =>
    match fs, hn with
    | [], hn => simp [binTreesEnd, binTreesDrain, Shape.closeG, Shape.frameEnd]
    | [(v, x, i)], hn =>
      simp only [List.map_cons, List.map_nil, binTreesEnd, binTreesDrain, Shape.closeG, Shape.frameEnd]
      rfl
    | (v, x, i) :: (v', x', i') :: rest, hn =>
      simp only [List.length_cons] at hn
      simp only [binTreesEnd, Shape.frameEnd, List.map_cons, binTreesDrain]
      rw [Shape.closeG.eq_3, if_pos (by omega), putSlot_eq]
      have h : (binTreesShape (V := V)).attach = putPair := rfl
      have h1 : ((binTreesShape (V := V)).close t x (Shape.segs ((v, x, i) :: (v', x', i') :: rest)) v).2 =
        .node v x.1 x.2 := rfl
      rw [h, h1]
      rcases putPair i (.node v x.1 x.2) x' with e | x''
      · rfl
      · exact ih _ (by simp only [← hn, List.length_cons]; omega) ((v', x'', i') :: rest) t rfl

theorem binTreesSim : Sim (binTreesEnd (V := V)) binTreesShape.frameEnd
    (List.map fun fr => (fr.2.2, .node fr.1 fr.2.1.1 fr.2.1.2)) where
  empty := rfl
  step fs p v t hp := by
    have hl : p.length = p.length - 1 + 1 := by
      have := List.length_pos_iff.2 hp
      omega
    have h := binTreesClose_eq (d := p.length - 1) fs t
    simp only [binTreesEnd, Shape.frameEnd, getLast?_lastSeg hp]
    rw [hl]
    simp only [Nat.add_sub_cancel]
    clear hl
    generalize binTreesClose (p.length - 1 + 1) _ = A at h ⊢
    generalize binTreesShape.closeG (p.length - 1) fs t = B at h ⊢
    rcases A with e | (o | k) <;> rcases B with e' | ⟨o' | k', t'⟩ <;>
      simp [mapOk, Step.mapStack] at h ⊢
    all_goals first
      | exact h
      | exact ⟨⟨rfl, rfl⟩, h⟩
  drain fs t := binTreesDrain_eq fs t

theorem binFoldClose_eq {f : τ → Option O × Option O → V → τ × O} {d : Nat} (fs : List (V × (Option O × Option O) × Nat))
    (t : τ) :
    binFoldClose f d (fs.map fun fr => fr.1) (fs.map fun fr => (fr.2.2, fr.2.1)) t =
      mapOk (Step.mapStack fun fs => (fs.map fun fr => fr.1, fs.map fun fr => (fr.2.2, fr.2.1)))
        ((binFoldShape fun t x _ v => f t x v).closeG d fs t) := by
  induction hn : fs.length using Nat.strongRecOn generalizing fs t with
  | ind n ih =>
    match fs, hn with
    | [], hn => simp [binFoldClose, Shape.closeG, mapOk, Step.mapStack]
    | [(v, x, i)], hn =>
      simp only [List.map_cons, List.map_nil, binFoldClose, Shape.closeG, List.length_nil, Nat.zero_add]
      by_cases hd : 1 > d
      · rw [if_pos hd, if_pos hd]
        rfl
      · rw [if_neg hd, if_neg hd]
        rfl
    | (v, x, i) :: (v', x', i') :: rest, hn =>
      simp only [List.map_cons, binFoldClose, List.length_map, List.length_cons]
      rw [Shape.closeG]
      by_cases hd : rest.length + 2 > d
      · rw [if_pos hd, if_pos (by omega)]
        simp only [binFoldShape]
        rcases Pipe.setSlot i (f t x v).2 x' with e | x''
        · rfl
        · simp only [List.length_cons] at hn
          exact ih _ (by simp only [← hn, List.length_cons]; omega) ((v', x'', i') :: rest) _ rfl
      · rw [if_neg hd, if_neg (by omega)]
        rfl

theorem binFoldDrain_eq {f : τ → Option O × Option O → V → τ × O} (fs : List (V × (Option O × Option O) × Nat)) (t : τ) :
    binFoldDrain f (fs.map fun fr => fr.1) (fs.map fun fr => (fr.2.2, fr.2.1)) t =
      (binFoldShape fun t x _ v => f t x v).frameEnd.drain fs t := by
  induction hn : fs.length using Nat.strongRecOn generalizing fs t with
  | ind n ih =>
    match fs, hn with
    | [], hn => simp [binFoldDrain, Shape.closeG, Shape.frameEnd]
    | [(v, x, i)], hn =>
      simp only [List.map_cons, List.map_nil, binFoldDrain, Shape.closeG, Shape.frameEnd]
      rfl
    | (v, x, i) :: (v', x', i') :: rest, hn =>
      simp only [List.length_cons] at hn
      simp only [Shape.frameEnd, List.map_cons, binFoldDrain]
      rw [Shape.closeG.eq_3, if_pos (by omega)]
      have h : (binFoldShape fun t x _ v => f t x v).attach = Pipe.setSlot := rfl
      have h1 : (binFoldShape fun t x _ v => f t x v).close t x (Shape.segs ((v, x, i) :: (v', x', i') :: rest)) v =
        f t x v := rfl
      rw [h, h1]
      rcases Pipe.setSlot i (f t x v).2 x' with e | x''
      · rfl
      · exact ih _ (by simp only [← hn, List.length_cons]; omega) ((v', x'', i') :: rest) (f t x v).1 rfl

theorem binFoldSim (f : τ → Option O × Option O → V → τ × O) :
    Sim (binFoldEnd f) (binFoldShape fun t x _ v => f t x v).frameEnd
    (fun fs => (fs.map fun fr => fr.1, fs.map fun fr => (fr.2.2, fr.2.1))) where
  empty := rfl
  step fs p v t hp := by
    simp only [binFoldEnd, Shape.frameEnd, collDepth_ok hp, binFoldClose_eq]
    rcases (binFoldShape fun t x _ v => f t x v).closeG (p.length - 1) fs t with e | ⟨o | k, t'⟩
    · rfl
    · rfl
    · simp only [mapOk, Step.mapStack, getLast?_lastSeg hp]
      rfl
  drain fs t := binFoldDrain_eq fs t

theorem binFoldPathClose_eq {f : τ → Option O × Option O → List Nat → V → τ × O} {d : Nat}
    (fs : List (V × (Option O × Option O) × Nat)) (t : τ) :
    binFoldPathClose f d (fs.map fun fr => fr.1) (fs.map fun fr => fr.2.1) (fs.map fun fr => fr.2.2) t =
      mapOk (Step.mapStack fun fs => (fs.map fun fr => fr.1, fs.map fun fr => fr.2.1, fs.map fun fr => fr.2.2))
        ((binFoldShape f).closeG d fs t) := by
  induction hn : fs.length using Nat.strongRecOn generalizing fs t with
  | ind n ih =>
    match fs, hn with
    | [], hn => simp [binFoldPathClose, Shape.closeG, mapOk, Step.mapStack]
    | [(v, x, i)], hn =>
      simp only [List.map_cons, List.map_nil, binFoldPathClose, Shape.closeG, List.length_nil, Nat.zero_add]
      by_cases hd : 1 > d
      · rw [if_pos hd, if_pos hd]
        rfl
      · rw [if_neg hd, if_neg hd]
        rfl
    | (v, x, i) :: (v', x', i') :: rest, hn =>
      simp only [List.map_cons, binFoldPathClose, List.length_map, List.length_cons]
      rw [Shape.closeG]
      by_cases hd : rest.length + 2 > d
      · rw [if_pos hd, if_pos (by omega)]
        have h : (i :: i' :: List.map (fun fr => fr.2.2) rest).reverse =
          Shape.segs ((v, x, i) :: (v', x', i') :: rest) := rfl
        simp only [binFoldShape, h]
        rcases Pipe.setSlot i (f t x (Shape.segs ((v, x, i) :: (v', x', i') :: rest)) v).2 x' with e | x''
        · rfl
        · simp only [List.length_cons] at hn
          exact ih _ (by simp only [← hn, List.length_cons]; omega) ((v', x'', i') :: rest) _ rfl
      · rw [if_neg hd, if_neg (by omega)]
        rfl

theorem binFoldPathDrain_eq {f : τ → Option O × Option O → List Nat → V → τ × O}
    (fs : List (V × (Option O × Option O) × Nat)) (t : τ) :
    binFoldPathDrain f (fs.map fun fr => fr.1) (fs.map fun fr => fr.2.1) (fs.map fun fr => fr.2.2) t =
      (binFoldShape f).frameEnd.drain fs t := by
  induction hn : fs.length using Nat.strongRecOn generalizing fs t with
  | ind n ih =>
    match fs, hn with
    | [], hn => simp [binFoldPathDrain, Shape.closeG, Shape.frameEnd]
    | [(v, x, i)], hn =>
      simp only [List.map_cons, List.map_nil, binFoldPathDrain, Shape.closeG, Shape.frameEnd]
      rfl
    | (v, x, i) :: (v', x', i') :: rest, hn =>
      simp only [List.length_cons] at hn
      simp only [Shape.frameEnd, List.map_cons, binFoldPathDrain]
      rw [Shape.closeG.eq_3, if_pos (by omega)]
      have h : (binFoldShape f).attach = Pipe.setSlot := rfl
      have h1 : (binFoldShape f).close t x (Shape.segs ((v, x, i) :: (v', x', i') :: rest)) v =
        f t x (i :: i' :: List.map (fun fr => fr.2.2) rest).reverse v := rfl
      rw [h, h1]
      generalize f t x (i :: i' :: List.map (fun fr => fr.2.2) rest).reverse v = r
      rcases Pipe.setSlot i r.2 x' with e | x''
      · rfl
      · exact ih _ (by simp only [← hn, List.length_cons]; omega) ((v', x'', i') :: rest) _ rfl

theorem binFoldPathSim (f : τ → Option O × Option O → List Nat → V → τ × O) :
    Sim (binFoldPathEnd f) (binFoldShape f).frameEnd
    (fun fs => (fs.map fun fr => fr.1, fs.map fun fr => fr.2.1, fs.map fun fr => fr.2.2)) where
  empty := rfl
  step fs p v t hp := by
    simp only [binFoldPathEnd, Shape.frameEnd, collDepth_ok hp, binFoldPathClose_eq]
    rcases (binFoldShape f).closeG (p.length - 1) fs t with e | ⟨o | k, t'⟩
    · rfl
    · rfl
    · simp only [mapOk, Step.mapStack, getLast?_lastSeg hp]
      rfl
  drain fs t := binFoldPathDrain_eq fs t

end Binary

end TreeIter
