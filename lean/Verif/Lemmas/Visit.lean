import Verif.Model.Pipeline

/-! # What a pipeline emits, as a function of a labelled forest

A visitor says what a chain of stages does with one node: skip the node and everything below, or emit an item and go on
below it or not.  `Enum M v R` says that the pipeline `M` does to the nodes of a forest, in preorder, what the visitor
`v` says. -/

universe u v w x y z z'

namespace TreeIter

/-- What a stage does with a node. -/
inductive Outcome (W : Type x) where
  | skip
  | emit (item : W) (keep : Bool)

/-- A chain of stages with state `A`; `path` is what `current_path` reports after a node was emitted. -/
structure Visitor (A : Type u) (σ : Type w) (U : Type v) (W : Type x) where
  visit : A → σ → List Nat → U → A × σ × Outcome W
  path : A → List Nat

/-- Source trees: every node with the path the source reports for it. -/
abbrev Lab (U : Type v) := Tree (List Nat × U)

section
variable {A : Type u} {σ : Type w} {U : Type v} {W : Type x}

/-- The next item from a forest: the item, what is left below the emitted node, and the trees after it. -/
def visitNext (v : Visitor A σ U W) (a : A) (w : σ) : List (Lab U) → Option (W × List (Lab U) × List (Lab U)) × A × σ
  | [] => (none, a, w)
  | .node (p, x) cs :: rest =>
    match v.visit a w p x with
    | (a', w', .skip) => visitNext v a' w' rest
    | (a', w', .emit y keep) => (some (y, if keep then cs else [], rest), a', w')

mutual
/-- The emitted forest of one tree: every item with the path reported when it was emitted. -/
def visitT (v : Visitor A σ U W) (a : A) (w : σ) : Lab U → List (Tree (W × List Nat)) × A × σ
  | .node (p, x) cs =>
    match v.visit a w p x with
    | (a', w', .skip) => ([], a', w')
    | (a', w', .emit y false) => ([.node (y, v.path a') []], a', w')
    | (a', w', .emit y true) =>
      ([.node (y, v.path a') (visitL v a' w' cs).1], (visitL v a' w' cs).2)
/-- The emitted forest of a forest. -/
def visitL (v : Visitor A σ U W) (a : A) (w : σ) : List (Lab U) → List (Tree (W × List Nat)) × A × σ
  | [] => ([], a, w)
  | t :: ts =>
    ((visitT v a w t).1 ++ (visitL v (visitT v a w t).2.1 (visitT v a w t).2.2 ts).1,
      (visitL v (visitT v a w t).2.1 (visitT v a w t).2.2 ts).2)
end

theorem visitL_append (v : Visitor A σ U W) (a : A) (w : σ) (l l' : List (Lab U)) :
    visitL v a w (l ++ l') =
      ((visitL v a w l).1 ++ (visitL v (visitL v a w l).2.1 (visitL v a w l).2.2 l').1,
        (visitL v (visitL v a w l).2.1 (visitL v a w l).2.2 l').2) := by
  induction l generalizing a w with
  | nil => simp [visitL]
  | cons t ts ih => simp [visitL, ih]

/-- The items emitted from a forest, in the order of emission. -/
theorem visitL_preorder_none {v : Visitor A σ U W} {a : A} {w : σ} {l : List (Lab U)} {a' : A} {w' : σ}
    (h : visitNext v a w l = (none, a', w')) : visitL v a w l = ([], a', w') := by
  induction l generalizing a w with
  | nil => simpa [visitNext, visitL] using h
  | cons t ts ih =>
    obtain ⟨⟨p, x⟩, cs⟩ := t
    rw [visitNext] at h
    rcases hv : v.visit a w p x with ⟨a1, w1, o⟩
    rw [hv] at h
    cases o with
    | skip => simp [visitL, visitT, hv, ih h]
    | emit y k => simp at h

theorem visitL_preorder_some {v : Visitor A σ U W} {a : A} {w : σ} {l : List (Lab U)} {y : W}
    {cs rest : List (Lab U)} {a' : A} {w' : σ}
    (h : visitNext v a w l = (some (y, cs, rest), a', w')) :
    Tree.preorderL (visitL v a w l).1 = (y, v.path a') :: Tree.preorderL (visitL v a' w' (cs ++ rest)).1 ∧
      (visitL v a w l).2 = (visitL v a' w' (cs ++ rest)).2 := by
  induction l generalizing a w with
  | nil => simp [visitNext] at h
  | cons t ts ih =>
    obtain ⟨⟨p, x⟩, ds⟩ := t
    rw [visitNext] at h
    rcases hv : v.visit a w p x with ⟨a1, w1, o⟩
    rw [hv] at h
    cases o with
    | skip => simpa [visitL, visitT, hv] using ih h
    | emit z k =>
      simp only [Prod.mk.injEq, Option.some.injEq] at h
      obtain ⟨⟨rfl, rfl, rfl⟩, rfl, rfl⟩ := h
      cases k with
      | false => simp [visitL, visitT, hv, Tree.preorderL, Tree.preorder]
      | true =>
        rw [visitL_append]
        simp only [visitL, visitT, hv, if_true]
        constructor
        · simp [Tree.preorderL_eq, Tree.preorder]
        · trivial

theorem visitNext_rest_lt {v : Visitor A σ U W} {a : A} {w : σ} {l : List (Lab U)} {y : W}
    {cs rest : List (Lab U)} {a' : A} {w' : σ}
    (h : visitNext v a w l = (some (y, cs, rest), a', w')) : rest.length < l.length := by
  induction l generalizing a w with
  | nil => simp [visitNext] at h
  | cons t ts ih =>
    obtain ⟨⟨p, x⟩, ds⟩ := t
    rw [visitNext] at h
    rcases hv : v.visit a w p x with ⟨a1, w1, o⟩
    rw [hv] at h
    cases o with
    | skip => exact Nat.lt_succ_of_lt (ih h)
    | emit z k =>
      simp only [Prod.mk.injEq, Option.some.injEq] at h
      obtain ⟨⟨rfl, rfl, rfl⟩, rfl, rfl⟩ := h
      simp

/-- Every label in what is left satisfies what every label satisfied, and so does the label of the emitted node. -/
theorem visitNext_labels {v : Visitor A σ U W} {a : A} {w : σ} {l : List (Lab U)} {y : W}
    {cs rest : List (Lab U)} {a' : A} {w' : σ} {P : List Nat × U → Prop}
    (h : visitNext v a w l = (some (y, cs, rest), a', w')) (hl : ∀ q ∈ Tree.preorderL l, P q) :
    (∀ q ∈ Tree.preorderL (cs ++ rest), P q) ∧
      ∃ a1 w1 p x k, P (p, x) ∧ v.visit a1 w1 p x = (a', w', .emit y k) := by
  induction l generalizing a w with
  | nil => simp [visitNext] at h
  | cons t ts ih =>
    obtain ⟨⟨p, x⟩, ds⟩ := t
    simp only [Tree.preorderL, Tree.preorder] at hl
    rw [visitNext] at h
    rcases hv : v.visit a w p x with ⟨a1, w1, o⟩
    rw [hv] at h
    cases o with
    | skip => exact ih h fun q hq => hl q (by simp [hq])
    | emit z k =>
      simp only [Prod.mk.injEq, Option.some.injEq] at h
      obtain ⟨⟨rfl, rfl, rfl⟩, rfl, rfl⟩ := h
      refine ⟨fun q hq => hl q ?_, a, w, p, x, k, hl _ (by simp), hv⟩
      cases k with
      | false =>
        simp only [Bool.false_eq_true, if_false, List.nil_append] at hq
        simp [hq]
      | true =>
        simp only [if_true, Tree.preorderL_eq, List.flatMap_append] at hq ⊢
        rcases List.mem_append.1 hq with hq | hq <;> simp [hq]

end

/-! ## Pipelines that do what a visitor says -/

section
variable {S : Type u} {A : Type v} {σ : Type w} {U : Type x} {W : Type y}

structure Enum (M : Pipe S W σ) (v : Visitor A σ U W) (R : S → A → List (Lab U) → Prop) : Prop where
  path : ∀ {s a l}, R s a l → M.path s = v.path a
  next_none : ∀ {s a l w a' w'}, R s a l → visitNext v a w l = (none, a', w') →
    ∃ s'' a'', M.next s w = .ok (none, s'', w') ∧ R s'' a'' []
  next_some : ∀ {s a l w y cs rest a' w'}, R s a l → visitNext v a w l = (some (y, cs, rest), a', w') →
    ∃ s', M.next s w = .ok (some y, s', w') ∧ R s' a' (cs ++ rest) ∧ R (M.prune s') a' rest

theorem Enum.emits {M : Pipe S W σ} {v : Visitor A σ U W} {R : S → A → List (Lab U) → Prop} (hM : Enum M v R)
    {s : S} {a : A} {l : List (Lab U)} (w : σ) (h : R s a l) :
    M.emits s w = .ok (Tree.preorderL (visitL v a w l).1, (visitL v a w l).2.2) := by
  induction hn : M.size s using Nat.strongRecOn generalizing s a l w with
  | ind n ih =>
    rcases hv : visitNext v a w l with ⟨o, a', w'⟩
    rcases o with _ | ⟨y, cs, rest⟩
    · obtain ⟨s'', a'', h1, -⟩ := hM.next_none h hv
      rw [Pipe.emits, visitL_preorder_none hv]
      split
      · next h2 => rw [h1] at h2; simp at h2
      · next h2 =>
        rw [h1] at h2
        simp only [Except.ok.injEq, Prod.mk.injEq, true_and] at h2
        rw [h2.2]
        rfl
      · next h2 => rw [h1] at h2; simp at h2
    · obtain ⟨s', h1, h2, -⟩ := hM.next_some h hv
      obtain ⟨h3, h4⟩ := visitL_preorder_some hv
      have h5 := ih _ (hn ▸ M.size_next h1) w' h2 rfl
      rw [Pipe.emits, h3, h4]
      split
      · next h6 => rw [h1] at h6; simp at h6
      · next h6 => rw [h1] at h6; simp at h6
      · next h6 =>
        rw [h1] at h6
        simp only [Except.ok.injEq, Prod.mk.injEq, Option.some.injEq] at h6
        obtain ⟨rfl, rfl, rfl⟩ := h6
        simp only [h5, hM.path h2]

end

/-! ## Stages -/

/-- One stage: given its state, the world, the path the inner pipeline reports and the item. -/
structure Stage (B : Type u) (σ : Type w) (W : Type x) (Z : Type y) where
  step : B → σ → List Nat → W → B × σ × Outcome Z
  path : B → List Nat → List Nat
  finish : B → List Nat → B

section
variable {S : Type u} {A : Type v} {σ : Type w} {U : Type x} {W : Type y} {B : Type z} {Z : Type z'}

/-- The visitor of a pipeline with a further stage. -/
def Stage.visitor (g : Stage B σ W Z) (v : Visitor A σ U W) : Visitor (A × B) σ U Z where
  visit a w p x :=
    match v.visit a.1 w p x with
    | (a', w', .skip) => ((a', a.2), w', .skip)
    | (a', w', .emit y k) =>
      match g.step a.2 w' (v.path a') y with
      | (b', w'', .skip) => ((a', b'), w'', .skip)
      | (b', w'', .emit z k') => ((a', b'), w'', .emit z (k && k'))
  path a := g.path a.2 (v.path a.1)

theorem Stage.visitNext_none {g : Stage B σ W Z} {v : Visitor A σ U W} {a : A} {w : σ} {l : List (Lab U)}
    {a' : A} {w' : σ} (b : B) (h : visitNext v a w l = (none, a', w')) :
    visitNext (g.visitor v) (a, b) w l = (none, (a', b), w') := by
  induction l generalizing a w with
  | nil =>
    simp only [visitNext, Prod.mk.injEq, true_and] at h ⊢
    exact ⟨⟨h.1, trivial⟩, h.2⟩
  | cons t ts ih =>
    obtain ⟨⟨p, x⟩, cs⟩ := t
    rw [visitNext] at h ⊢
    rcases hv : v.visit a w p x with ⟨a1, w1, o⟩
    rw [hv] at h
    cases o with
    | skip => simpa [Stage.visitor, hv] using ih h
    | emit y k => simp at h

theorem Stage.visitNext_some {g : Stage B σ W Z} {v : Visitor A σ U W} {a : A} {w : σ} {l : List (Lab U)}
    {a' : A} {w' : σ} {y : W} {cs rest : List (Lab U)} (b : B)
    (h : visitNext v a w l = (some (y, cs, rest), a', w')) :
    visitNext (g.visitor v) (a, b) w l =
      match g.step b w' (v.path a') y with
      | (b', w'', .skip) => visitNext (g.visitor v) (a', b') w'' rest
      | (b', w'', .emit z k) => (some (z, if k then cs else [], rest), (a', b'), w'') := by
  induction l generalizing a w with
  | nil => simp [visitNext] at h
  | cons t ts ih =>
    obtain ⟨⟨p, x⟩, ds⟩ := t
    rw [visitNext] at h
    rw [visitNext]
    rcases hv : v.visit a w p x with ⟨a1, w1, o⟩
    rw [hv] at h
    cases o with
    | skip => simpa [Stage.visitor, hv] using ih h
    | emit y k =>
      simp only [Prod.mk.injEq, Option.some.injEq] at h
      obtain ⟨⟨rfl, rfl, rfl⟩, rfl, rfl⟩ := h
      rcases hg : g.step b w1 (v.path a1) y with ⟨b', w'', o⟩
      cases o with
      | skip => simp [Stage.visitor, hv, hg]
      | emit z k' => cases k <;> cases k' <;> simp [Stage.visitor, hv, hg]

/-- A pipeline followed by a stage. -/
def Pipe.stageNext (M : Pipe S W σ) (g : Stage B σ W Z) (s : S × B) (w : σ) : Except Panic (Option Z × (S × B) × σ) :=
  match _h : M.next s.1 w with
  | .error e => .error e
  | .ok (none, s', w') => .ok (none, (s', g.finish s.2 (M.path s')), w')
  | .ok (some y, s', w') =>
    match g.step s.2 w' (M.path s') y with
    | (b', w'', .skip) => Pipe.stageNext M g (M.prune s', b') w''
    | (b', w'', .emit z k) => .ok (some z, (if k then s' else M.prune s', b'), w'')
termination_by M.size s.1
decreasing_by exact Nat.lt_of_le_of_lt (M.size_prune _) (M.size_next (by assumption))

/-- A pipeline followed by a stage. -/
def Pipe.stage (M : Pipe S W σ) (g : Stage B σ W Z) : Pipe (S × B) Z σ where
  next := M.stageNext g
  path s := g.path s.2 (M.path s.1)
  prune s := (M.prune s.1, s.2)
  size s := M.size s.1
  size_next := by
    intro s w v s' w' h
    fun_induction Pipe.stageNext M g s w with
    | case1 => simp at h
    | case2 => simp at h
    | case3 s w y s1 w1 h1 b' w2 _ ih =>
      exact Nat.lt_trans (ih h) (Nat.lt_of_le_of_lt (M.size_prune _) (M.size_next h1))
    | case4 s w y s1 w1 h1 b' w2 z k _ =>
      simp only [Except.ok.injEq, Prod.mk.injEq] at h
      rw [← h.2.1]
      dsimp only
      split
      · exact M.size_next h1
      · exact Nat.lt_of_le_of_lt (M.size_prune _) (M.size_next h1)
  size_prune s := M.size_prune s.1
  path_prune s := by simp only [M.path_prune]
  prune_prune s := by simp only [M.prune_prune]

theorem Pipe.stageNext_error {M : Pipe S W σ} {g : Stage B σ W Z} {s : S} {b : B} {w : σ} {e : Panic}
    (h : M.next s w = .error e) : M.stageNext g (s, b) w = .error e := by
  rw [Pipe.stageNext]
  split
  · next h2 => rw [h] at h2; simp only [Except.error.injEq] at h2; rw [h2]
  · next h2 => rw [h] at h2; simp at h2
  · next h2 => rw [h] at h2; simp at h2

theorem Pipe.stageNext_none {M : Pipe S W σ} {g : Stage B σ W Z} {s s' : S} {b : B} {w w' : σ}
    (h : M.next s w = .ok (none, s', w')) :
    M.stageNext g (s, b) w = .ok (none, (s', g.finish b (M.path s')), w') := by
  rw [Pipe.stageNext]
  split
  · next h2 => rw [h] at h2; simp at h2
  · next h2 =>
    rw [h] at h2
    simp only [Except.ok.injEq, Prod.mk.injEq, true_and] at h2
    obtain ⟨rfl, rfl⟩ := h2
    rfl
  · next h2 => rw [h] at h2; simp at h2

theorem Pipe.stageNext_some {M : Pipe S W σ} {g : Stage B σ W Z} {s s' : S} {b : B} {w w' : σ} {y : W}
    (h : M.next s w = .ok (some y, s', w')) :
    M.stageNext g (s, b) w =
      match g.step b w' (M.path s') y with
      | (b', w'', .skip) => M.stageNext g (M.prune s', b') w''
      | (b', w'', .emit z k) => .ok (some z, (if k then s' else M.prune s', b'), w'') := by
  rw [Pipe.stageNext]
  split
  · next h2 => rw [h] at h2; simp at h2
  · next h2 => rw [h] at h2; simp at h2
  · next h2 =>
    rw [h] at h2
    simp only [Except.ok.injEq, Prod.mk.injEq, Option.some.injEq] at h2
    obtain ⟨rfl, rfl, rfl⟩ := h2
    rfl

/-- Adding a stage to a pipeline adds it to its visitor. -/
theorem Enum.stage {M : Pipe S W σ} {v : Visitor A σ U W} {R : S → A → List (Lab U) → Prop} (hM : Enum M v R)
    (g : Stage B σ W Z) :
    Enum (M.stage g) (g.visitor v) fun s a l => R s.1 a.1 l ∧ s.2 = a.2 where
  path := by
    rintro ⟨s, b⟩ ⟨a, b'⟩ l ⟨h, rfl⟩
    simp only [Pipe.stage, Stage.visitor, hM.path h]
  next_none := by
    rintro ⟨s, b⟩ ⟨a, b'⟩ l w a' w' ⟨h, rfl⟩ hv
    dsimp only at h hv
    induction hn : l.length using Nat.strongRecOn generalizing s b a l w with
    | ind n ih =>
      rcases hv1 : visitNext v a w l with ⟨o, a1, w1⟩
      rcases o with _ | ⟨y, cs, rest⟩
      · rw [Stage.visitNext_none b hv1] at hv
        obtain ⟨s'', a'', h1, h2⟩ := hM.next_none h hv1
        simp only [Prod.mk.injEq, true_and] at hv
        obtain ⟨-, rfl⟩ := hv
        exact ⟨(s'', g.finish b (M.path s'')), (a'', g.finish b (M.path s'')), Pipe.stageNext_none h1, h2, rfl⟩
      · rw [Stage.visitNext_some b hv1] at hv
        obtain ⟨s', h1, h2, h3⟩ := hM.next_some h hv1
        rcases hg : g.step b w1 (v.path a1) y with ⟨b', w2, o⟩
        rw [hg] at hv
        cases o with
        | skip =>
          have h4 : M.stageNext g (s, b) w = M.stageNext g (M.prune s', b') w2 := by
            rw [Pipe.stageNext_some h1, hM.path h2, hg]
          obtain ⟨s'', a'', h5, h6⟩ := ih _ (hn ▸ visitNext_rest_lt hv1) _ _ _ h3 hv rfl
          exact ⟨s'', a'', h4.trans h5, h6⟩
        | emit z k => simp at hv
  next_some := by
    rintro ⟨s, b⟩ ⟨a, b'⟩ l w z cs rest a' w' ⟨h, rfl⟩ hv
    dsimp only at h hv
    induction hn : l.length using Nat.strongRecOn generalizing s b a l w with
    | ind n ih =>
      rcases hv1 : visitNext v a w l with ⟨o, a1, w1⟩
      rcases o with _ | ⟨y, cs1, rest1⟩
      · rw [Stage.visitNext_none b hv1] at hv
        simp at hv
      · rw [Stage.visitNext_some b hv1] at hv
        obtain ⟨s', h1, h2, h3⟩ := hM.next_some h hv1
        rcases hg : g.step b w1 (v.path a1) y with ⟨b', w2, o⟩
        rw [hg] at hv
        have h4 := Pipe.stageNext_some (g := g) (b := b) h1
        rw [hM.path h2, hg] at h4
        cases o with
        | skip =>
          obtain ⟨s'', h5, h6⟩ := ih _ (hn ▸ visitNext_rest_lt hv1) _ _ _ h3 hv rfl
          exact ⟨s'', h4.trans h5, h6⟩
        | emit z k =>
          simp only [Prod.mk.injEq, Option.some.injEq] at hv
          obtain ⟨⟨rfl, rfl, rfl⟩, rfl, rfl⟩ := hv
          refine ⟨_, h4, ⟨?_, rfl⟩, ?_, rfl⟩
          · cases k with
            | true => exact h2
            | false => simpa using h3
          · cases k with
            | true => exact h3
            | false => simpa [Pipe.stage, M.prune_prune] using h3

end

/-- A pipeline that imitates another one does what the other one does. -/
theorem Enum.sim {S : Type u} {S' : Type v} {A : Type x} {σ : Type w} {U : Type y} {W : Type z}
    {M : Pipe S W σ} {v : Visitor A σ U W} {R : S → A → List (Lab U) → Prop} (hM : Enum M v R)
    {M' : Pipe S' W σ} (T : S' → S → Prop)
    (hpath : ∀ {s' s}, T s' s → M'.path s' = M.path s)
    (hprune : ∀ {s' s}, T s' s → T (M'.prune s') (M.prune s))
    (hnext : ∀ {s' s w o t w'}, T s' s → M.next s w = .ok (o, t, w') → ∃ t', M'.next s' w = .ok (o, t', w') ∧ T t' t) :
    Enum M' v fun s' a l => ∃ s, T s' s ∧ R s a l where
  path := by
    rintro s' a l ⟨s, hT, hR⟩
    rw [hpath hT, hM.path hR]
  next_none := by
    rintro s' a l w a' w' ⟨s, hT, hR⟩ hv
    obtain ⟨t, a'', h1, h2⟩ := hM.next_none hR hv
    obtain ⟨t', h3, h4⟩ := hnext hT h1
    exact ⟨t', a'', h3, t, h4, h2⟩
  next_some := by
    rintro s' a l w y cs rest a' w' ⟨s, hT, hR⟩ hv
    obtain ⟨t, h1, h2, h3⟩ := hM.next_some hR hv
    obtain ⟨t', h4, h5⟩ := hnext hT h1
    exact ⟨t', h4, ⟨t, h5, h2⟩, _, hprune h5, h3⟩

end TreeIter
