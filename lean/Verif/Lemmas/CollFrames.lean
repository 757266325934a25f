import Verif.Lemmas.CollCalls
import Verif.Lemmas.PipeEnds

/-! # One stack machine for the six ends of a collection pipeline -/

universe u v x

namespace TreeIter

/-- What distinguishes the ends: what a node starts with, what is made of a complete node (given its path), and how that is
added to the parent. -/
structure Shape (X : Type u) (V : Type v) (O : Type u) (τ : Type x) where
  init : X
  close : τ → X → List Nat → V → τ × O
  attach : Nat → O → X → Except Panic X

namespace Shape
variable {X : Type u} {V : Type v} {O : Type u} {τ : Type x}

/-- The path of the top of the stack: the last segments of the paths of the nodes on the stack. -/
def segs (fs : List (V × X × Nat)) : List Nat := (fs.map fun fr => fr.2.2).reverse

/-- Close the top of the stack while there are more than `depth` entries. -/
def closeG (F : Shape X V O τ) (depth : Nat) : List (V × X × Nat) → τ → Except Panic (Step (List (V × X × Nat)) O τ)
  | [], t => .ok (.inr [], t)
  | [(v, x, i)], t =>
    if 1 > depth then .ok (.inl (F.close t x [i] v).2, (F.close t x [i] v).1) else .ok (.inr [(v, x, i)], t)
  | (v, x, i) :: (v', x', i') :: rest, t =>
    if rest.length + 2 > depth then
      match F.attach i (F.close t x (segs ((v, x, i) :: (v', x', i') :: rest)) v).2 x' with
      | .error e => .error e
      | .ok x'' => closeG F depth ((v', x'', i') :: rest) (F.close t x (segs ((v, x, i) :: (v', x', i') :: rest)) v).1
    else .ok (.inr ((v, x, i) :: (v', x', i') :: rest), t)
termination_by l => l.length

/-- The last segment of a path. -/
def lastSeg (p : List Nat) : Nat := p.getLast?.getD 0

/-- The stack machine. -/
def frameEnd (F : Shape X V O τ) : CollEnd (List (V × X × Nat)) V O τ where
  empty := []
  step q p v t :=
    match F.closeG (p.length - 1) q t with
    | .error e => .error e
    | .ok (.inl o, t') => .ok (.inl o, t')
    | .ok (.inr q', t') => .ok (.inr ((v, F.init, lastSeg p) :: q'), t')
  drain q t :=
    match F.closeG 0 q t with
    | .error e => .error e
    | .ok (.inl o, t') => .ok (some o, t')
    | .ok (.inr _, t') => .ok (none, t')

mutual
/-- What the machine makes of a tree below the node at `q`. -/
def tree (F : Shape X V O τ) (q : List Nat) (t : τ) : Tree (V × List Nat) → Except Panic (τ × O)
  | .node (v, p) cs =>
    match F.kids (q ++ [lastSeg p]) t F.init cs with
    | .error e => .error e
    | .ok (t', x) => .ok (F.close t' x (q ++ [lastSeg p]) v)
/-- What the machine has made of some children of the node at `q`. -/
def kids (F : Shape X V O τ) (q : List Nat) (t : τ) (x : X) : List (Tree (V × List Nat)) → Except Panic (τ × X)
  | [] => .ok (t, x)
  | c :: cs =>
    match F.tree q t c with
    | .error e => .error e
    | .ok (t', o) =>
      match F.attach (lastSeg c.value.2) o x with
      | .error e => .error e
      | .ok x' => F.kids q t' x' cs
end

/-- What the machine makes of the trees of a forest. -/
def forest (F : Shape X V O τ) (t : τ) : List (Tree (V × List Nat)) → Except Panic (List O × τ)
  | [] => .ok ([], t)
  | c :: cs =>
    match F.tree [] t c with
    | .error e => .error e
    | .ok (t', o) =>
      match F.forest t' cs with
      | .error e => .error e
      | .ok (os, t'') => .ok (o :: os, t'')

variable {F : Shape X V O τ}

theorem closeG_le {d : Nat} {fs : List (V × X × Nat)} {t : τ} (h : fs.length ≤ d) : F.closeG d fs t = .ok (.inr fs, t) := by
  match fs, h with
  | [], _ => rw [closeG]
  | [(v, x, i)], h =>
    simp only [List.length_cons, List.length_nil] at h
    rw [closeG, if_neg (by omega)]
  | (v, x, i) :: (v', x', i') :: rest, h =>
    simp only [List.length_cons] at h
    rw [closeG, if_neg (by omega)]

theorem closeG_closeG {d : Nat} {fs fs' : List (V × X × Nat)} {t t' : τ}
    (h : F.closeG (d + 1) fs t = .ok (.inr fs', t')) : F.closeG d fs t = F.closeG d fs' t' := by
  induction hn : fs.length using Nat.strongRecOn generalizing fs t with
  | ind n ih =>
    by_cases hd : fs.length ≤ d + 1
    · rw [closeG_le hd] at h
      simp only [Except.ok.injEq, Prod.mk.injEq, Sum.inr.injEq] at h
      rw [h.1, h.2]
    · match fs, hd, hn with
      | [], hd, _ => simp at hd
      | [_], hd, _ => simp at hd
      | (v, x, i) :: (v', x', i') :: rest, hd, hn =>
        simp only [List.length_cons] at hd hn
        rw [closeG, if_pos (by omega)] at h
        rw [closeG, if_pos (by omega)]
        split at h
        · simp at h
        · next h1 =>
          exact ih _ (by simp only [List.length_cons]; omega) h rfl

theorem step_inr {d : Nat} {fs fs' : List (V × X × Nat)} {t t' : τ} {p : List Nat} (hp : p.length = d + 1)
    (h : F.closeG d fs t = .ok (.inr fs', t')) (v : V) (l : List (V × List Nat)) :
    F.frameEnd.allList ((v, p) :: l) fs t = F.frameEnd.allList l ((v, F.init, lastSeg p) :: fs') t' := by
  rw [CollEnd.allList]
  have : p.length - 1 = d := by omega
  simp only [frameEnd, this, h]

theorem kids_cons_ok {q : List Nat} {t t2 : τ} {x x2 : X} {c : Tree (V × List Nat)} {cs : List (Tree (V × List Nat))}
    (h : F.kids q t x (c :: cs) = .ok (t2, x2)) :
    ∃ t1 o x1, F.tree q t c = .ok (t1, o) ∧ F.attach (lastSeg c.value.2) o x = .ok x1 ∧
      F.kids q t1 x1 cs = .ok (t2, x2) := by
  rw [kids] at h
  split at h
  · simp at h
  · next t1 o h1 =>
    split at h
    · simp at h
    · next x1 h2 => exact ⟨t1, o, x1, h1, h2, h⟩

theorem frames_tree (c : Tree (V × List Nat)) : ∀ {d : Nat} {fs K : List (V × X × Nat)} {v : V} {x x' : X} {i : Nat}
    {t t0 t1 : τ} {o : O}, DepthOk (d + 1) c → F.closeG d fs t = .ok (.inr ((v, x, i) :: K), t0) → K.length + 1 = d →
    F.tree (segs ((v, x, i) :: K)) t0 c = .ok (t1, o) → F.attach (lastSeg c.value.2) o x = .ok x' →
    ∃ fs' t', (∀ l, F.frameEnd.allList (c.preorder ++ l) fs t = F.frameEnd.allList l fs' t') ∧
      F.closeG d fs' t' = .ok (.inr ((v, x', i) :: K), t1) := by
  induction c using Tree.ind with
  | h a cs ih =>
    obtain ⟨y, p⟩ := a
    intro d fs K v x x' i t t0 t1 o hd hfs hK htree hatt
    simp only [DepthOk] at hd
    rw [tree] at htree
    split at htree
    · simp at htree
    · next t2 x2 hkids =>
      simp only [Except.ok.injEq] at htree
      have key : ∀ (ds : List (Tree (V × List Nat))), (∀ c ∈ ds, c ∈ cs) → ∀ (fs : List (V × X × Nat)) (z z2 : X) (t t0 t2 : τ),
          F.closeG (d + 1) fs t = .ok (.inr ((y, z, lastSeg p) :: (v, x, i) :: K), t0) →
          F.kids (segs ((v, x, i) :: K) ++ [lastSeg p]) t0 z ds = .ok (t2, z2) →
          ∃ fs' t', (∀ l, F.frameEnd.allList (ds.flatMap Tree.preorder ++ l) fs t = F.frameEnd.allList l fs' t') ∧
            F.closeG (d + 1) fs' t' = .ok (.inr ((y, z2, lastSeg p) :: (v, x, i) :: K), t2) := by
        intro ds
        induction ds with
        | nil =>
          intro _ fs z z2 t t0 t2 h1 h2
          simp only [kids, Except.ok.injEq, Prod.mk.injEq] at h2
          obtain ⟨rfl, rfl⟩ := h2
          exact ⟨fs, t, by simp, h1⟩
        | cons c ds ihd =>
          intro hds fs z z2 t t0 t2 h1 h2
          obtain ⟨t3, o3, z3, h3, h4, h5⟩ := kids_cons_ok h2
          obtain ⟨fs1, t4, h6, h7⟩ := ih c (hds c (by simp)) (hd.2 c (hds c (by simp))) h1 (by simp [hK])
            (by simpa [segs] using h3) h4
          obtain ⟨fs2, t5, h8, h9⟩ := ihd (fun c hc => hds c (by simp [hc])) fs1 z3 z2 t4 t3 t2 h7 h5
          exact ⟨fs2, t5, fun l => by simp only [List.flatMap_cons, List.append_assoc, h6, h8], h9⟩
      obtain ⟨fs1, t3, h1, h2⟩ := key cs (fun _ h => h) ((y, F.init, lastSeg p) :: (v, x, i) :: K) F.init x2 t0 t0 t2
        (closeG_le (by simp only [List.length_cons]; omega)) hkids
      refine ⟨fs1, t3, ?_, ?_⟩
      · intro l
        rw [Tree.preorder_node, List.cons_append, step_inr hd.1 hfs]
        exact h1 l
      · rw [closeG_closeG h2, closeG, if_pos (by omega)]
        have hs : segs ((y, x2, lastSeg p) :: (v, x, i) :: K) = segs ((v, x, i) :: K) ++ [lastSeg p] := by simp [segs]
        simp only [Tree.value] at hatt
        rw [hs, htree, hatt]
        exact closeG_le (by simp only [List.length_cons]; omega)

theorem frames_root {c : Tree (V × List Nat)} {t t1 : τ} {o : O} (hd : DepthOk 1 c) (h : F.tree [] t c = .ok (t1, o)) :
    ∃ fs' t', (∀ l, F.frameEnd.allList (c.preorder ++ l) [] t = F.frameEnd.allList l fs' t') ∧
      F.closeG 0 fs' t' = .ok (.inl o, t1) := by
  obtain ⟨⟨y, p⟩, cs⟩ := c
  simp only [DepthOk] at hd
  rw [tree] at h
  split at h
  · simp at h
  · next t2 x2 hkids =>
    simp only [Except.ok.injEq] at h
    have key : ∀ (ds : List (Tree (V × List Nat))), (∀ c ∈ ds, c ∈ cs) → ∀ (fs : List (V × X × Nat)) (z z2 : X) (t t0 t2 : τ),
        F.closeG 1 fs t = .ok (.inr [(y, z, lastSeg p)], t0) →
        F.kids [lastSeg p] t0 z ds = .ok (t2, z2) →
        ∃ fs' t', (∀ l, F.frameEnd.allList (ds.flatMap Tree.preorder ++ l) fs t = F.frameEnd.allList l fs' t') ∧
          F.closeG 1 fs' t' = .ok (.inr [(y, z2, lastSeg p)], t2) := by
      intro ds
      induction ds with
      | nil =>
        intro _ fs z z2 t t0 t2 h1 h2
        simp only [kids, Except.ok.injEq, Prod.mk.injEq] at h2
        obtain ⟨rfl, rfl⟩ := h2
        exact ⟨fs, t, by simp, h1⟩
      | cons c ds ihd =>
        intro hds fs z z2 t t0 t2 h1 h2
        obtain ⟨t3, o3, z3, h3, h4, h5⟩ := kids_cons_ok h2
        obtain ⟨fs1, t4, h6, h7⟩ := frames_tree c (hd.2 c (hds c (by simp))) h1 (by simp)
          (by simpa [segs] using h3) h4
        obtain ⟨fs2, t5, h8, h9⟩ := ihd (fun c hc => hds c (by simp [hc])) fs1 z3 z2 t4 t3 t2 h7 h5
        exact ⟨fs2, t5, fun l => by simp only [List.flatMap_cons, List.append_assoc, h6, h8], h9⟩
    obtain ⟨fs1, t3, h1, h2⟩ := key cs (fun _ h => h) [(y, F.init, lastSeg p)] F.init x2 t t t2
      (closeG_le (by simp)) (by simpa using hkids)
    refine ⟨fs1, t3, ?_, ?_⟩
    · intro l
      rw [Tree.preorder_node, List.cons_append, step_inr hd.1 (closeG_le (by simp))]
      exact h1 l
    · rw [closeG_closeG h2, closeG, if_pos (by omega)]
      rw [List.nil_append] at h
      rw [h]

/-- The results of the machine on a forest whose roots are at depth 1. -/
theorem allList_forest (cs : List (Tree (V × List Nat))) : ∀ {t t' : τ} {os : List O}, (∀ c ∈ cs, DepthOk 1 c) →
    F.forest t cs = .ok (os, t') → F.frameEnd.allList (Tree.preorderL cs) [] t = .ok (os, t') := by
  induction cs with
  | nil =>
    intro t t' os _ h
    simp only [forest, Except.ok.injEq, Prod.mk.injEq] at h
    obtain ⟨rfl, rfl⟩ := h
    simp [Tree.preorderL, CollEnd.allList, frameEnd, closeG_le]
  | cons c cs ih =>
    intro t t' os hd h
    rw [forest] at h
    split at h
    · simp at h
    · next t1 o h1 =>
      split at h
      · simp at h
      · next os1 t2 h2 =>
        simp only [Except.ok.injEq, Prod.mk.injEq] at h
        obtain ⟨rfl, rfl⟩ := h
        obtain ⟨fs, t3, h3, h4⟩ := frames_root (hd c (by simp)) h1
        have h5 := ih (fun c hc => hd c (by simp [hc])) h2
        rw [Tree.preorderL, h3]
        cases cs with
        | nil =>
          simp only [forest, Except.ok.injEq, Prod.mk.injEq] at h2
          obtain ⟨rfl, rfl⟩ := h2
          simp [Tree.preorderL, CollEnd.allList, frameEnd, h4]
        | cons c' cs' =>
          have h6 := hd c' (by simp)
          obtain ⟨⟨y, p⟩, ds⟩ := c'
          simp only [DepthOk] at h6
          rw [Tree.preorderL, Tree.preorder_node, List.cons_append] at h5 ⊢
          rw [step_inr h6.1 (closeG_le (by simp))] at h5
          rw [CollEnd.allList]
          have hp : p.length - 1 = 0 := by omega
          have h7 : F.frameEnd.step fs p y t3 = .ok (.inl o, t1) := by simp only [frameEnd, hp, h4]
          have h8 : F.frameEnd.step F.frameEnd.empty p y t1 = .ok (.inr [(y, F.init, lastSeg p)], t1) := by
            simp only [frameEnd, hp, closeG]
          simp only [h7, h8, h5]

theorem drain_empty (t : τ) : F.frameEnd.drain F.frameEnd.empty t = .ok (none, t) := by
  simp [frameEnd, closeG_le]

end Shape

end TreeIter
