import Verif.Model.FailFold
import Verif.Spec.FailFold
import Verif.Lemmas.FailColl

/-! # `fold_trees` on collections with a closure that may panic -/

universe u v w x y z u'

namespace TreeIter

section
variable {W : Type u} {O : Type v} {τ : Type w}

theorem foldFL_append (f : τ → List O → W → τ × Option O) (cs ds : List (Tree W)) : ∀ (t t' : τ) (os : List O),
    Tree.foldFL f t cs = (t', some os) →
    Tree.foldFL f t (cs ++ ds) = ((Tree.foldFL f t' ds).1, (Tree.foldFL f t' ds).2.map (os ++ ·)) := by
  induction cs with
  | nil =>
    intro t t' os h
    simp only [Tree.foldFL, Prod.mk.injEq, Option.some.injEq] at h
    obtain ⟨rfl, rfl⟩ := h
    simp
  | cons c cs ih =>
    intro t t' os h
    rw [Tree.foldFL] at h
    rw [List.cons_append, Tree.foldFL]
    rcases e : c.foldF f t with ⟨t1, _ | o⟩
    · simp [e] at h
    · rw [e] at h
      simp only [Prod.mk.injEq, Option.map_eq_some_iff] at h
      obtain ⟨h1, os', h2, rfl⟩ := h
      have := ih t1 t' os' (by rw [← h1, ← h2])
      simp only [this, Option.map_map]
      rfl

theorem foldDoneL_last (f : τ → List O → W → τ × Option O) (d : Nat) (c : Tree W) (cs : List (Tree W)) :
    ∀ (t t' : τ) (os : List O), Tree.foldFL f t cs = (t', some os) →
    Tree.foldDoneL f d t (cs ++ [c]) = c.foldDone f d t' := by
  induction cs with
  | nil =>
    intro t t' os h
    simp only [Tree.foldFL, Prod.mk.injEq, Option.some.injEq] at h
    rw [h.1]
    rfl
  | cons b cs ih =>
    intro t t' os h
    rw [Tree.foldFL] at h
    rcases e : b.foldF f t with ⟨t1, _ | o⟩
    · simp [e] at h
    · rw [e] at h
      simp only [Prod.mk.injEq, Option.map_eq_some_iff] at h
      obtain ⟨h1, os', h2, rfl⟩ := h
      have := ih t1 t' os' (by rw [← h1, ← h2])
      cases cs with
      | nil =>
        rw [← this]
        simp only [List.cons_append, List.nil_append, Tree.foldDoneL, e]
      | cons b' cs =>
        rw [← this]
        simp only [List.cons_append, Tree.foldDoneL, e]

theorem foldDoneL_zero (f : τ → List O → W → τ × Option O) (cs : List (Tree W)) : ∀ (t t' : τ) (os : List O),
    Tree.foldFL f t cs = (t', some os) → Tree.foldDoneL f 0 t cs = (t', true) := by
  induction cs with
  | nil =>
    intro t t' os h
    simp only [Tree.foldFL, Prod.mk.injEq, Option.some.injEq] at h
    rw [h.1]
    rfl
  | cons b cs ih =>
    intro t t' os h
    rw [Tree.foldFL] at h
    rcases e : b.foldF f t with ⟨t1, _ | o⟩
    · simp [e] at h
    · rw [e] at h
      simp only [Prod.mk.injEq, Option.map_eq_some_iff] at h
      obtain ⟨h1, os', h2, rfl⟩ := h
      have := ih t1 t' os' (by rw [← h1, ← h2])
      cases cs with
      | nil =>
        simp only [Tree.foldFL] at h1
        simp only [Tree.foldDoneL, Tree.foldDone, e, h1, Option.isSome_some]
      | cons b' cs =>
        rw [← this]
        simp only [Tree.foldDoneL, e]

/-- The stacks of `fold_trees` and the state of the closure, given the open nodes with the trees below them that are complete. -/
inductive FoldsTo (f : τ → List O → W → τ × Option O) (t₀ : τ) : List (Tree W) → List W → List (List O) → τ → Prop
  | nil : FoldsTo f t₀ [] [] [] t₀
  | cons {a : W} {cs rest inv folded t t' os} : FoldsTo f t₀ rest inv folded t → Tree.foldFL f t cs = (t', some os) →
      FoldsTo f t₀ (.node a cs :: rest) (a :: inv) (os :: folded) t'

theorem FoldsTo.length {f : τ → List O → W → τ × Option O} {t₀ t : τ} {keep : List (Tree W)} {inv : List W}
    {folded : List (List O)} (h : FoldsTo f t₀ keep inv folded t) : folded.length = keep.length := by
  induction h with
  | nil => rfl
  | cons _ _ ih => simp [ih]

theorem foldDone_plug {f : τ → List O → W → τ × Option O} {t₀ : τ} (rest : List (Tree W)) :
    ∀ {inv : List W} {folded : List (List O)} {t : τ}, FoldsTo f t₀ rest inv folded t → ∀ (T : Tree W) (d : Nat),
    rest.length ≤ d → (plug rest.reverse T).foldDone f d t₀ = T.foldDone f (d - rest.length) t := by
  induction rest with
  | nil =>
    intro inv folded t h T d _
    cases h
    rfl
  | cons u rest ih =>
    intro inv folded t h T d hd
    cases h with
    | @cons a cs _ inv folded t1 _ os h hcs =>
      rw [List.length_cons] at hd
      rw [List.reverse_cons, plug_append, ih h _ d (by omega)]
      obtain ⟨e, he⟩ : ∃ e, d - rest.length = e + 1 := ⟨d - rest.length - 1, by omega⟩
      rw [he, Tree.foldDone, foldDoneL_last f _ T cs _ _ _ hcs]
      congr 1
      simp only [List.length_cons]
      omega

theorem foldDone_fail {f : τ → List O → W → τ × Option O} {t₀ : τ} (rest : List (Tree W)) :
    ∀ {inv : List W} {folded : List (List O)} {t t' : τ} {T : Tree W}, FoldsTo f t₀ rest inv folded t →
    T.foldF f t = (t', none) → ∀ d, d ≤ rest.length → (plug rest.reverse T).foldDone f d t₀ = (t', false) := by
  induction rest with
  | nil =>
    intro inv folded t t' T h hT d hd
    cases h
    obtain rfl : d = 0 := by simpa using hd
    simp [plug, Tree.foldDone, hT]
  | cons u rest ih =>
    intro inv folded t t' T h hT d hd
    by_cases e : d = rest.length + 1
    · rw [foldDone_plug _ h T d (by simp [e]), e]
      simp [Tree.foldDone, hT]
    · cases h with
      | cons h hcs =>
        rw [List.reverse_cons, plug_append]
        refine ih h ?_ d (by rw [List.length_cons] at hd; omega)
        rw [Tree.foldF, foldFL_append f _ _ _ _ _ hcs, Tree.foldFL, hT]
        rfl

theorem foldCloseF_stop (f : τ → List O → W → τ × Option O) {d : Nat} (inv : List W) (items : List O) {rest : List (List O)}
    (t : τ) (h : ¬ rest.length + 1 > d) :
    foldCloseF f d inv (items :: rest) t = .ok (some (.inr (inv, items :: rest)), t) := by
  rw [foldCloseF.eq_def]
  simp only [if_neg h]

/-- What the loop of `fold_trees` does with its stacks, given what that of `trees()` does. -/
theorem foldCloseF_stack (f : τ → List O → W → τ × Option O) (t₀ : τ) (d : Nat) (keep : List (Tree W)) :
    ∀ {a cs rest inv folded t q}, keep = .node a cs :: rest → FoldsTo f t₀ keep inv folded t →
      (cs = [] ∨ d ≤ keep.length) → treesClose (d + 1) keep = .ok q →
    let r := (plug rest.reverse (.node a cs)).foldDone f d t₀
    (r.2 = false → foldCloseF f d inv folded t = .ok (none, r.1)) ∧
    (r.2 = true → match q with
      | .inl s => ∃ o, s.foldF f t₀ = (r.1, some o) ∧ foldCloseF f d inv folded t = .ok (some (.inl o), r.1)
      | .inr keep' => ∃ inv' folded', FoldsTo f t₀ keep' inv' folded' r.1 ∧
        foldCloseF f d inv folded t = .ok (some (.inr (inv', folded')), r.1)) := by
  have stay : ∀ {a cs rest inv folded t}, FoldsTo f t₀ (.node a cs :: rest) inv folded t →
      (cs = [] ∨ d ≤ (.node a cs :: rest : List (Tree W)).length) → ¬ d + 1 ≤ rest.length + 1 →
      (plug rest.reverse (.node a cs)).foldDone f d t₀ = (t, true) := by
    intro a cs rest inv folded t h hc hd
    cases h with
    | cons h hcs =>
      rw [foldDone_plug rest h _ d (by omega)]
      obtain ⟨e, he⟩ : ∃ e, d - rest.length = e + 1 := ⟨d - rest.length - 1, by omega⟩
      rw [he, Tree.foldDone]
      rcases hc with rfl | hc
      · simp only [Tree.foldFL, Prod.mk.injEq, Option.some.injEq] at hcs
        simp [Tree.foldDoneL, hcs.1]
      · rw [List.length_cons] at hc
        obtain rfl : e = 0 := by omega
        exact foldDoneL_zero f cs _ _ _ hcs
  fun_induction treesClose (d + 1) keep with
  | case1 | case2 => intro _ _ _ _ _ _ _ h; cases h
  | case3 s hd =>
    intro a cs rest inv folded t q hk h hc hq
    simp only [List.cons.injEq] at hk
    obtain ⟨rfl, rfl⟩ := hk
    cases hq
    obtain rfl : d = 0 := by omega
    cases h with
    | cons h hcs =>
      cases h
      simp only [List.reverse_nil, plug, Tree.foldDone, Tree.foldF, hcs]
      rw [foldCloseF]
      simp only [List.length_nil]
      rw [if_pos (by omega)]
      rcases f t _ a with ⟨t', _ | o⟩ <;> simp
  | case4 s hd =>
    intro a cs rest inv folded t q hk h hc hq
    simp only [List.cons.injEq] at hk
    obtain ⟨rfl, rfl⟩ := hk
    cases hq
    rw [stay h hc (by simpa using hd)]
    refine ⟨by simp, fun _ => ⟨inv, folded, h, ?_⟩⟩
    have := h.length
    cases folded with
    | nil => simp at this
    | cons items r =>
      exact foldCloseF_stop f inv items t (by simp only [List.length_cons, List.length_nil] at this; omega)
  | case5 s b bs rest' hd ih =>
    intro a cs rest inv folded t q hk h hc hq
    simp only [List.cons.injEq] at hk
    obtain ⟨rfl, rfl⟩ := hk
    have hlen := h.length
    cases h with
    | @cons _ _ _ inv folded t1 _ os h hcs =>
      cases h with
      | @cons _ _ _ inv folded t2 _ os2 h hbs =>
        simp only [List.length_cons, Nat.add_right_cancel_iff] at hlen
        rw [foldCloseF, if_pos (by simp only [List.length_cons]; omega)]
        dsimp only
        rcases e : f t os a with ⟨t', _ | o⟩
        · -- the closure panics
          have hT : (Tree.node a cs).foldF f t1 = (t', none) := by rw [Tree.foldF, hcs]; exact e
          have key : (plug (Tree.node b bs :: rest').reverse (Tree.node a cs)).foldDone f d t₀ = (t', false) := by
            exact foldDone_fail _ (.cons h hbs) hT d (by simp only [List.length_cons]; omega)
          rw [key]
          exact ⟨fun _ => rfl, by simp⟩
        · have hb : FoldsTo f t₀ (.node b (bs ++ [.node a cs]) :: rest') (b :: inv) ((os2 ++ [o]) :: folded) t' := by
            refine .cons h ?_
            have hT : (Tree.node a cs).foldF f t1 = (t', some o) := by rw [Tree.foldF, hcs]; exact e
            rw [foldFL_append f bs _ _ _ _ hbs, Tree.foldFL, hT]
            simp [Tree.foldFL]
          have := ih (t := t') rfl hb (.inr (by simp only [List.length_cons]; omega)) hq
          rw [List.reverse_cons, plug_append]
          exact this
  | case6 s b bs rest' hd =>
    intro a cs rest inv folded t q hk h hc hq
    simp only [List.cons.injEq] at hk
    obtain ⟨rfl, rfl⟩ := hk
    cases hq
    rw [stay h hc (by simpa using hd)]
    refine ⟨by simp, fun _ => ⟨inv, folded, h, ?_⟩⟩
    have := h.length
    cases folded with
    | nil => simp at this
    | cons items r =>
      exact foldCloseF_stop f inv items t (by simp only [List.length_cons] at this; omega)

theorem foldDrainF_stack (f : τ → List O → W → τ × Option O) (t₀ : τ) (rest : List (Tree W)) :
    ∀ {T : Tree W} {inv : List W} {folded : List (List O)} {t : τ}, FoldsTo f t₀ (T :: rest) inv folded t →
    foldDrainF f inv folded t =
      .ok (some ((plug rest.reverse T).foldF f t₀).2, ((plug rest.reverse T).foldF f t₀).1) := by
  induction rest with
  | nil =>
    intro T inv folded t h
    cases h with
    | cons h hcs =>
      cases h
      rw [foldDrainF, List.reverse_nil, plug, Tree.foldF, hcs]
      dsimp only
      rcases f t _ _ with ⟨t', _ | o⟩ <;> rfl
  | cons u rest ih =>
    intro T inv folded t h
    cases h with
    | @cons a cs _ inv folded t1 _ os h hcs =>
      rcases e : f t os a with ⟨t', _ | o⟩
      · have hT : (Tree.node a cs).foldF f t1 = (t', none) := by rw [Tree.foldF, hcs]; exact e
        have := foldDone_fail _ h hT 0 (Nat.zero_le _)
        simp only [Tree.foldDone, Prod.mk.injEq, Option.isSome_eq_false_iff, Option.isNone_iff_eq_none] at this
        rw [this.1, this.2, foldDrainF, e]
      · cases h with
        | @cons b bs _ inv folded t2 _ os2 h hbs =>
          have hT : (Tree.node a cs).foldF f t1 = (t', some o) := by rw [Tree.foldF, hcs]; exact e
          rw [foldDrainF, e]
          dsimp only
          rw [List.reverse_cons, plug_append]
          refine ih (.cons h ?_)
          rw [foldFL_append f bs _ _ _ _ hbs, Tree.foldFL, hT]
          simp [Tree.foldFL]

theorem treesClose_length (d : Nat) (keep : List (Tree W)) : ∀ {keep' : List (Tree W)},
    treesClose d keep = .ok (.inr keep') → keep'.length ≤ keep.length := by
  fun_induction treesClose d keep with
  | case1 | case3 => intro keep' h; simp at h
  | case2 | case4 | case6 =>
    intro keep' h
    simp only [Except.ok.injEq, Sum.inr.injEq] at h
    rw [← h]
    exact Nat.le_refl _
  | case5 t a cs rest h0 ih =>
    intro keep' h
    have := ih h
    simp only [List.length_cons] at this ⊢
    omega

/-- The stacks after the values `g`; the state of the closure was `t₀` before them. -/
def FoldKeepF (f : τ → List O → W → τ × Option O) (t₀ : τ) (g : List (Nat × W)) (q : List W × List (List O)) (t : τ) : Prop :=
  ∃ keep, TreesKeep g keep ∧ FoldsTo f t₀ keep q.1 q.2 t ∧ keep.length ≤ g.length

end

namespace FEnd

variable {S : Type u} {N : Type v} {W : Type x} {σ : Type w} {O : Type z}

theorem loop_eq {Q : Type y} {τ : Type u'} (E : FEnd Q W O τ) (M : FPipe S W σ) (s : S) (w : σ) (q : Q) (t : τ) :
    E.loop M s w q t =
      match M.next s w with
      | .error e => .error e
      | .ok (none, s', w') =>
        match E.drain q t with
        | .error e => .error e
        | .ok (o, t') => .ok (o, (s', none), w', t')
      | .ok (some none, s', w') => .ok (some none, (s', none), w', t)
      | .ok (some (some v), s', w') =>
        match E.step q (M.path s') v t with
        | .error e => .error e
        | .ok (none, t') => .ok (some none, (s', none), w', t')
        | .ok (some (.inl o), t') => .ok (some (some o), (s', some v), w', t')
        | .ok (some (.inr q'), t') => E.loop M s' w' q' t' := by
  rw [loop.eq_def]
  split
  · next h => rw [h]
  · next h =>
    rw [h]
    dsimp only
    generalize E.drain q t = a
    cases a <;> rfl
  · next h => rw [h]
  · next h =>
    rw [h]
    dsimp only
    split
    · next h1 => rw [h1]
    · next h1 => rw [h1]
    · next h1 => rw [h1]
    · next h1 => rw [h1]

variable {τ : Type y}

/-- The answers to come. -/
def pendAnswers (f : τ → List O → W → τ × Option O) (r : σ → Nat → N → σ × Option (Option W × Bool)) (w : σ) (t : τ)
    (l : List (Nat × Tree N)) (peeked : Option W) : List (Option O) :=
  foldAnswers f t (peeked.toList.map (Prod.mk 0)) (FPipe.repliesP (FPipe.lev r) w l).1

theorem loop_answers (f : τ → List O → W → τ × Option O) {M : FPipe S W σ} {r : σ → Nat → N → σ × Option (Option W × Bool)}
    {R : S → List (Nat × Tree N) → Prop} (hM : M.Walks (FPipe.lenAt 1) r R) (t₀ : τ) (k : Nat) :
    ∀ {l : List (Nat × Tree N)} {s : S} {w : σ} {g : List (Nat × W)} {q : List W × List (List O)} {t : τ},
      (FPipe.repliesP (FPipe.lev r) w l).1.length = k → R s l → FoldKeepF f t₀ g q t → ∃ x' w' t' l',
      (foldEndF f).loop M s w q t = .ok ((foldAnswers f t₀ g (FPipe.repliesP (FPipe.lev r) w l).1).head?, x', w', t') ∧
      CollEnd.Rest M R l' x' ∧
      pendAnswers f r w' t' l' x'.2 = (foldAnswers f t₀ g (FPipe.repliesP (FPipe.lev r) w l).1).tail := by
  induction k with
  | zero =>
    intro l s w g q t hk hR hK
    obtain ⟨s', w', l', h1, h2, h3, h4, -⟩ := hM.callLev l (w := w) hR
    have hk := List.length_eq_zero_iff.1 hk
    rw [hk] at h1 h3 ⊢
    have : l' = [] := h4 hk
    subst this
    obtain ⟨keep, k1, k2, -⟩ := hK
    rcases k1 with ⟨rfl, rfl⟩ | ⟨y, rest, rfl, k1⟩
    · obtain ⟨inv, folded⟩ := q
      cases k2
      refine ⟨(s', none), w', t₀, [], ?_, ⟨h2, by simp⟩, rfl⟩
      rw [loop_eq, h1]
      simp [foldEndF, foldDrainF, foldAnswers, regroup]
    · refine ⟨(s', none), w', ((plug rest.reverse (.node y [])).foldF f t₀).1, [], ?_, ⟨h2, by simp⟩, ?_⟩
      · rw [loop_eq, h1]
        simp only [List.head?_nil, Option.map_none, foldEndF, foldDrainF_stack f t₀ rest k2]
        rw [foldAnswers, k1]
        rfl
      · rw [foldAnswers, k1]
        rfl
  | succ k ih =>
    intro l s w g q t hk hR hK
    obtain ⟨s', w', l', h1, h2, h3, -, h5⟩ := hM.callLev l (w := w) hR
    cases hL : (FPipe.repliesP (FPipe.lev r) w l).1 with
    | nil => simp [hL] at hk
    | cons a L =>
      rw [hL] at h1 h3 h5
      simp only [List.tail_cons] at h3
      obtain ⟨keep, k1, k2, k3⟩ := hK
      cases a with
      | none =>
        refine ⟨(s', none), w', t, l', ?_, ⟨h2, by simp⟩, ?_⟩
        · rw [loop_eq, h1]
          rfl
        · rw [pendAnswers, h3, foldAnswers, List.tail_cons]
          congr 1
          rcases k1 with ⟨rfl, rfl⟩ | ⟨y, rest, rfl, k1⟩
          · generalize q.1 = inv at k2
            generalize q.2 = folded at k2
            cases k2
            rfl
          · rw [k1]
            have : (plug rest.reverse (.node y [])).foldDone f g.length t₀ = (t, true) := by
              generalize q.1 = inv at k2
              generalize q.2 = folded at k2
              cases k2 with
              | cons k2 hcs =>
                rw [List.length_cons] at k3
                rw [foldDone_plug rest k2 _ _ (by omega)]
                obtain ⟨e, he⟩ : ∃ e, g.length - rest.length = e + 1 := ⟨g.length - rest.length - 1, by omega⟩
                simp only [Tree.foldFL, Prod.mk.injEq, Option.some.injEq] at hcs
                rw [he, Tree.foldDone, Tree.foldDoneL, hcs.1]
            simp [this]
      | some x =>
        obtain ⟨d, v⟩ := x
        have h5 := h5 d v rfl
        have h6 : Pipe.collDepth (M.path s') = .ok d := collDepth_length h5
        -- the value goes on the stack
        have push : ∀ {keep' inv' folded' t'}, foldCloseF f d q.1 q.2 t = .ok (some (.inr (inv', folded')), t') →
            FoldsTo f t₀ keep' inv' folded' t' → TreesKeep (g ++ [(d, v)]) (.node v [] :: keep') →
            keep'.length ≤ g.length → ∃ x' w' t' l',
            (foldEndF f).loop M s w q t = .ok ((foldAnswers f t₀ (g ++ [(d, v)]) L).head?, x', w', t') ∧
            CollEnd.Rest M R l' x' ∧ pendAnswers f r w' t' l' x'.2 = (foldAnswers f t₀ (g ++ [(d, v)]) L).tail := by
          intro keep' inv' folded' t' e1 e2 e3 e4
          obtain ⟨x', w'', t'', l'', i1, i2, i3⟩ := ih (l := l') (w := w') (q := (v :: inv', [] :: folded')) (t := t') (by
            rw [h3]; simp only [hL, List.length_cons] at hk; simp only; omega) h2
            ⟨_, e3, .cons e2 rfl, by simpa using e4⟩
          rw [h3] at i1 i3
          refine ⟨x', w'', t'', l'', ?_, i2, i3⟩
          rw [loop_eq, h1]
          simp only [List.head?_cons, Option.map_some]
          have : (foldEndF f).step q (M.path s') v t = .ok (some (.inr (v :: inv', [] :: folded')), t') := by
            simp only [foldEndF, h6, e1]
          rw [this]
          exact i1
        rcases k1 with ⟨rfl, rfl⟩ | ⟨y, rest, rfl, k1⟩
        · rw [foldAnswers]
          refine push (keep' := []) (inv' := []) (folded' := []) (t' := t₀) ?_ .nil (.inr ⟨v, [], rfl, rfl⟩) (by simp)
          generalize q.1 = inv at k2
          generalize q.2 = folded at k2
          cases k2
          rw [foldCloseF]
        · have hg : g ≠ [] := by rintro rfl; simp [regroup] at k1
          rw [foldAnswers, k1]
          dsimp only
          -- the closure panics
          have fails : ∀ t', foldCloseF f d q.1 q.2 t = .ok (none, t') → ∃ x' w'' t'' l'',
              (foldEndF f).loop M s w q t = .ok (some none, x', w'', t'') ∧
              CollEnd.Rest M R l'' x' ∧ pendAnswers f r w'' t'' l'' x'.2 = foldAnswers f t' [] L := by
            intro t' e1
            refine ⟨(s', none), w', t', l', ?_, ⟨h2, by simp⟩, ?_⟩
            · rw [loop_eq, h1]
              simp only [List.head?_cons, Option.map_some]
              have : (foldEndF f).step q (M.path s') v t = .ok (none, t') := by simp only [foldEndF, h6, e1]
              rw [this]
            · rw [pendAnswers, h3]
              rfl
          by_cases hd : d = 0
          · subst hd
            have key := foldCloseF_stack f t₀ 0 _ rfl k2 (.inl rfl) (treesClose_root rest (.node y []))
            rcases e : (plug rest.reverse (.node y [])).foldDone f 0 t₀ with ⟨t', b⟩
            rw [e] at key
            cases b with
            | false => exact fails t' (key.1 rfl)
            | true =>
              obtain ⟨o, e1, e2⟩ := key.2 rfl
              rw [plugged_eq_plug] at e1
              refine ⟨(s', some v), w', t', l', ?_, ⟨h2, fun _ => by simpa using h5⟩, ?_⟩
              · rw [loop_eq, h1]
                simp only [List.head?_cons, Option.map_some]
                have : (foldEndF f).step q (M.path s') v t = .ok (some (.inl o), t') := by simp only [foldEndF, h6, e2]
                rw [this]
                simp [e1]
              · rw [pendAnswers, h3]
                simp
          · obtain ⟨keep', c1, c2⟩ := TreesKeep.push (.inr ⟨y, rest, rfl, k1⟩) v d fun e => absurd e hd
            have key := foldCloseF_stack f t₀ d _ rfl k2 (.inl rfl) c1
            rcases e : (plug rest.reverse (.node y [])).foldDone f d t₀ with ⟨t', b⟩
            rw [e] at key
            cases b with
            | false => exact fails t' (key.1 rfl)
            | true =>
              obtain ⟨inv', folded', e1, e2⟩ := key.2 rfl
              simp only [if_neg hd]
              exact push e2 e1 c2 (Nat.le_trans (treesClose_length _ _ c1) k3)

/-- All calls. -/
theorem calls_answers (f : τ → List O → W → τ × Option O) {M : FPipe S W σ} {r : σ → Nat → N → σ × Option (Option W × Bool)}
    {R : S → List (Nat × Tree N) → Prop} (hM : M.Walks (FPipe.lenAt 1) r R) (k : Nat) :
    ∀ {l : List (Nat × Tree N)} {x : S × Option W} {w : σ} {t : τ}, CollEnd.Rest M R l x →
      nthCallE ((foldEndF f).call M) k (x, w, t) = .ok (pendAnswers f r w t l x.2)[k]? := by
  have one : ∀ {l : List (Nat × Tree N)} {x : S × Option W} {w : σ} {t : τ}, CollEnd.Rest M R l x → ∃ x' w' t' l',
      (foldEndF f).call M (x, w, t) = .ok ((pendAnswers f r w t l x.2).head?, x', w', t') ∧
      CollEnd.Rest M R l' x' ∧ pendAnswers f r w' t' l' x'.2 = (pendAnswers f r w t l x.2).tail := by
    intro l x w t h
    obtain ⟨s, o⟩ := x
    cases o with
    | none => exact loop_answers f hM t _ rfl h.1 ⟨[], .inl ⟨rfl, rfl⟩, .nil, by simp⟩
    | some v =>
      obtain ⟨x', w', t', l', h1, h2⟩ := loop_answers f hM t _ rfl h.1 (w := w) (g := [(0, v)]) (q := ([v], [[]])) (t := t)
        ⟨[.node v []], .inr ⟨v, [], rfl, rfl⟩, .cons .nil rfl, by simp⟩
      refine ⟨x', w', t', l', ?_, h2⟩
      rw [call, next]
      have : (foldEndF f).step (foldEndF f).empty (M.path s) v t = .ok (some (.inr ([v], [[]])), t) := by
        have h6 : Pipe.collDepth (M.path s) = .ok 0 := collDepth_length (h.2 (by simp))
        simp only [foldEndF, h6, foldCloseF]
      simp only [this]
      exact h1
  induction k with
  | zero =>
    intro l x w t h
    obtain ⟨x', w', t', l', h1, -⟩ := one (w := w) (t := t) h
    rw [nthCallE, stateAfterE]
    simp only [h1, List.head?_eq_getElem?]
  | succ k ih =>
    intro l x w t h
    obtain ⟨x', w', t', l', h1, h2, h3⟩ := one (w := w) (t := t) h
    have := ih (w := w') (t := t') h2
    rw [nthCallE, stateAfterE]
    simp only [h1]
    rw [nthCallE] at this
    rw [this, h3, List.getElem?_tail]

end FEnd

/-! ## Whole trees -/

section
variable {W : Type u} {O : Type v} {τ : Type w}

theorem mem_attach (t : Tree W) : ∀ (d : Nat) (v x : W), x ∈ (t.attach d v).preorder → x ∈ t.preorder ∨ x = v := by
  induction t using Tree.ind with
  | h a cs ih =>
    intro d v x hx
    have hL : ∀ ts : List (Tree W), (∀ t ∈ ts, ∀ (d : Nat) (v x : W), x ∈ (t.attach d v).preorder → x ∈ t.preorder ∨ x = v) →
        ∀ d, x ∈ (Tree.attachL d v ts).flatMap Tree.preorder → x ∈ ts.flatMap Tree.preorder ∨ x = v := by
      intro ts
      induction ts with
      | nil =>
        intro _ d h
        simpa [Tree.attachL, Tree.preorder_node] using h
      | cons t ts ih2 =>
        intro h d hx
        cases ts with
        | nil =>
          rw [Tree.attachL] at hx
          simpa using h t (by simp) d v x (by simpa using hx)
        | cons t' ts =>
          rw [Tree.attachL, List.flatMap_cons, List.mem_append] at hx
          rw [List.flatMap_cons, List.mem_append]
          rcases hx with hx | hx
          · exact .inl (.inl hx)
          · rcases ih2 (fun t ht => h t (by simp [ht])) d hx with h | h
            · exact .inl (.inr h)
            · exact .inr h
    rw [Tree.attach] at hx
    split at hx
    · simp only [Tree.preorder_node, List.flatMap_append, List.mem_cons, List.mem_append, List.flatMap_cons,
        List.flatMap_nil, List.not_mem_nil, or_false] at hx ⊢
      rcases hx with hx | hx | hx
      · exact .inl (.inl hx)
      · exact .inl (.inr hx)
      · exact .inr hx
    · rw [Tree.preorder_node, List.mem_cons] at hx ⊢
      rcases hx with hx | hx
      · exact .inl (.inl hx)
      · rcases hL cs ih _ hx with h | h
        · exact .inl (.inr h)
        · exact .inr h

theorem mem_regroup {g : List (Nat × W)} {s : Tree W} (h : regroup g = some s) : ∀ x ∈ s.preorder, x ∈ g.map Prod.snd := by
  cases g with
  | nil => simp [regroup] at h
  | cons y g =>
    obtain ⟨d, y⟩ := y
    simp only [regroup, Option.some.injEq] at h
    subst h
    have : ∀ (g : List (Nat × W)) (s : Tree W), ∀ x ∈ (g.foldl (fun (t : Tree W) x => t.attach x.1 x.2) s).preorder,
        x ∈ s.preorder ∨ x ∈ g.map Prod.snd := by
      intro g
      induction g with
      | nil => intro s x hx; exact .inl hx
      | cons z g ih =>
        intro s x hx
        rcases ih _ x hx with h | h
        · rcases mem_attach s _ _ x h with h | h
          · exact .inl h
          · exact .inr (by simp [h])
        · exact .inr (by simp only [List.map_cons, List.mem_cons]; exact .inr h)
    intro x hx
    rcases this g _ x hx with h | h
    · simp only [Tree.preorder_node, List.flatMap_nil, List.mem_singleton] at h
      simp [h]
    · simp only [List.map_cons, List.mem_cons]
      exact .inr h

/-- Without a panic a fold has a result. -/
theorem foldF_isSome {f : τ → List O → W → τ × Option O} (s : Tree W) :
    (∀ x ∈ s.preorder, ∀ t os, (f t os x).2 ≠ none) → ∀ t, (s.foldF f t).2 ≠ none := by
  induction s using Tree.ind with
  | h a cs ih =>
    intro h t
    have hL : ∀ ts : List (Tree W), (∀ s ∈ ts, (∀ x ∈ s.preorder, ∀ t os, (f t os x).2 ≠ none) → ∀ t, (s.foldF f t).2 ≠ none) →
        (∀ s ∈ ts, ∀ x ∈ s.preorder, ∀ t os, (f t os x).2 ≠ none) → ∀ t, (Tree.foldFL f t ts).2 ≠ none := by
      intro ts
      induction ts with
      | nil => intro _ _ t; simp [Tree.foldFL]
      | cons s ts ih2 =>
        intro h1 h2 t
        have h3 := h1 s (by simp) (h2 s (by simp)) t
        rw [Tree.foldFL]
        rcases e : s.foldF f t with ⟨t', _ | o⟩
        · simp [e] at h3
        · simpa using ih2 (fun s hs => h1 s (by simp [hs])) (fun s hs => h2 s (by simp [hs])) t'
    have h3 := hL cs ih (fun s hs x hx => h x (by
      rw [Tree.preorder_node, List.mem_cons]; exact .inr (List.mem_flatMap.2 ⟨s, hs, hx⟩))) t
    rw [Tree.foldF]
    rcases e : Tree.foldFL f t cs with ⟨t', _ | os⟩
    · simp [e] at h3
    · exact h a (by simp [Tree.preorder_node]) t' os

theorem foldDone_true {f : τ → List O → W → τ × Option O} (s : Tree W) :
    (∀ x ∈ s.preorder, ∀ t os, (f t os x).2 ≠ none) → ∀ d t, (s.foldDone f d t).2 = true := by
  induction s using Tree.ind with
  | h a cs ih =>
    intro h d t
    cases d with
    | zero =>
      have := foldF_isSome _ h t
      simp only [Tree.foldDone]
      exact Option.isSome_iff_ne_none.2 this
    | succ d =>
      rw [Tree.foldDone]
      have hL : ∀ ts : List (Tree W), (∀ s ∈ ts, (∀ x ∈ s.preorder, ∀ t os, (f t os x).2 ≠ none) →
            ∀ d t, (s.foldDone f d t).2 = true) →
          (∀ s ∈ ts, ∀ x ∈ s.preorder, ∀ t os, (f t os x).2 ≠ none) → ∀ t, (Tree.foldDoneL f d t ts).2 = true := by
        intro ts
        induction ts with
        | nil => intro _ _ t; rfl
        | cons s ts ih2 =>
          intro h1 h2 t
          cases ts with
          | nil => exact h1 s (by simp) (h2 s (by simp)) d t
          | cons s' ts =>
            have h3 := foldF_isSome _ (h2 s (by simp)) t
            rw [Tree.foldDoneL]
            rcases e : s.foldF f t with ⟨t', _ | o⟩
            · simp [e] at h3
            · exact ih2 (fun s hs => h1 s (by simp [hs])) (fun s hs => h2 s (by simp [hs])) t'
      exact hL cs ih (fun s hs x hx => h x (by
        rw [Tree.preorder_node, List.mem_cons]; exact .inr (List.mem_flatMap.2 ⟨s, hs, hx⟩))) t

/-- What came before leaves some values behind. -/
theorem foldAnswers_split (f : τ → List O → W → τ × Option O) (L L' : List (Option (Nat × W))) :
    ∀ t g, ∃ A t' g', foldAnswers f t g (L ++ L') = A ++ foldAnswers f t' g' L' := by
  induction L with
  | nil => intro t g; exact ⟨[], t, g, rfl⟩
  | cons a L ih =>
    intro t g
    cases a with
    | none =>
      obtain ⟨A, t', g', h⟩ := ih (((regroup g).map fun s => (s.foldDone f g.length t).1).getD t) []
      exact ⟨none :: A, t', g', by rw [List.cons_append, foldAnswers, h]; rfl⟩
    | some x =>
      rw [List.cons_append, foldAnswers]
      split
      · exact ih _ _
      · split
        · obtain ⟨A, t', g', h⟩ := ih _ []
          exact ⟨none :: A, t', g', by rw [h]; rfl⟩
        · split
          · obtain ⟨A, t', g', h⟩ := ih _ [x]
            exact ⟨_ :: A, t', g', by rw [h]; rfl⟩
          · exact ih _ _

/-- A root after values on which the closure does not panic. -/
theorem foldAnswers_root {f : τ → List O → W → τ × Option O} {g : List (Nat × W)}
    (hg : ∀ x ∈ g, ∀ t os, (f t os x.2).2 ≠ none) (t : τ) (v : W) (L : List (Option (Nat × W))) :
    ∃ A t', foldAnswers f t g (some (0, v) :: L) = A ++ foldAnswers f t' [(0, v)] L := by
  rw [foldAnswers]
  rcases e : regroup g with _ | s
  · exact ⟨[], t, rfl⟩
  · have := foldDone_true (f := f) s (fun x hx => by
      obtain ⟨y, hy, rfl⟩ := List.mem_map.1 (mem_regroup e x hx)
      exact hg y hy) 0 t
    rcases e' : s.foldDone f 0 t with ⟨t', b⟩
    rw [e'] at this
    simp only at this
    subst this
    exact ⟨[(s.foldF f t).2], t', by simp [e']⟩

/-- Values below the root, on which the closure does not panic. -/
theorem foldAnswers_take {f : τ → List O → W → τ × Option O} (l : List (Nat × W)) (L : List (Option (Nat × W)))
    (hl : ∀ x ∈ l, 1 ≤ x.1) : ∀ {g : List (Nat × W)} (t : τ), (∀ x ∈ g ++ l, ∀ t os, (f t os x.2).2 ≠ none) →
    foldAnswers f t g (l.map some ++ L) = foldAnswers f t (g ++ l) L := by
  induction l with
  | nil => intro g t _; simp
  | cons x l ih =>
    intro g t hg
    rw [List.map_cons, List.cons_append, foldAnswers]
    have := ih (fun x hx => hl x (by simp [hx])) (g := g ++ [x]) t (by simpa using hg)
    rw [List.append_assoc] at this
    rcases e : regroup g with _ | s
    · have hg : g = [] := by
        cases g with
        | nil => rfl
        | cons y g => simp [regroup] at e
      subst hg
      exact this
    · have h2 := foldDone_true (f := f) s (fun y hy => by
        obtain ⟨z, hz, rfl⟩ := List.mem_map.1 (mem_regroup e y hy)
        exact hg z (by simp [hz])) x.1 t
      rcases e' : s.foldDone f x.1 t with ⟨t', b⟩
      rw [e'] at h2
      simp only at h2
      subst h2
      have h3 : ¬ x.1 = 0 := by have := hl x (by simp); omega
      simp only [if_neg h3, e']
      exact this

end

end TreeIter
