import Verif.Model.FailPlace
import Verif.Spec.FailPlace
import Verif.Lemmas.FailFold
import Verif.Lemmas.FailPath

/-! # Ends of collection pipelines that look at the numbers of the children, after panics -/

universe u v w x y z u' v' w'

namespace TreeIter

/-! ## Arrangements with positions -/

section
variable {W : Type u}

/-- The position of the node at the top of a stack. -/
def labelOf : List (Tree (Nat × W)) → List Nat
  | [] => []
  | .node x _ :: rest => labelOf rest ++ [x.1]

/-- The trees of a stack with positions. -/
def placeStack : List (Tree (Nat × W)) → List (Tree (List Nat × W))
  | [] => []
  | t :: rest => t.place (labelOf rest) :: placeStack rest

theorem placeStack_length (keep : List (Tree (Nat × W))) : (placeStack keep).length = keep.length := by
  induction keep with
  | nil => rfl
  | cons t keep ih => simp [placeStack, ih]

theorem placeL_append (p : List Nat) (cs ds : List (Tree (Nat × W))) :
    Tree.placeL p (cs ++ ds) = Tree.placeL p cs ++ Tree.placeL p ds := by
  induction cs with
  | nil => rfl
  | cons c cs ih => simp [Tree.placeL, ih]

theorem plug_place (rest : List (Tree (Nat × W))) : ∀ T,
    (plug rest.reverse T).place [] = plug (placeStack rest).reverse (T.place (labelOf rest)) := by
  induction rest with
  | nil => intro T; rfl
  | cons u rest ih =>
    intro T
    obtain ⟨x, cs⟩ := u
    rw [List.reverse_cons, plug_append, ih, placeStack, List.reverse_cons, Tree.place, Tree.place, plug_append, placeL_append]
    rfl

theorem treesClose_place (d : Nat) (keep : List (Tree (Nat × W))) : ∀ {q}, treesClose d keep = .ok q →
    treesClose d (placeStack keep) = .ok (match q with
      | .inl s => .inl (s.place [])
      | .inr keep' => .inr (placeStack keep')) := by
  fun_induction treesClose d keep with
  | case1 h => intro q hq; cases hq
  | case2 h =>
    intro q hq
    cases hq
    rw [placeStack, treesClose, if_neg h]
    rfl
  | case3 t h =>
    intro q hq
    cases hq
    rw [placeStack, placeStack, treesClose, if_pos h]
    rfl
  | case4 t h =>
    intro q hq
    cases hq
    rw [placeStack, placeStack, treesClose, if_neg h]
    rfl
  | case5 t a cs rest h ih =>
    intro q hq
    rw [placeStack, placeStack, Tree.place, treesClose, placeStack_length, if_pos h]
    have := ih hq
    rw [placeStack, Tree.place, placeL_append] at this
    exact this
  | case6 t a cs rest h =>
    intro q hq
    cases hq
    rw [placeStack, placeStack, Tree.place, treesClose, placeStack_length, if_neg h]
    rfl

end

/-! ## A fold with positions -/

section
variable {W : Type u} {O : Type v} {τ : Type w}

/-- A fold of values with numbers; the position of a value is made of the numbers on the stack. -/
def placeEndF (f : τ → List O → List Nat × W → τ × Option O) : FEnd (List (List Nat × W) × List (List O)) (Nat × W) O τ where
  empty := ([], [])
  step q p v t :=
    match Pipe.collDepth p with
    | .error e => .error e
    | .ok depth =>
      match foldCloseF f depth q.1 q.2 t with
      | .error e => .error e
      | .ok (none, t') => .ok (none, t')
      | .ok (some (.inl o), t') => .ok (some (.inl o), t')
      | .ok (some (.inr (inv, folded)), t') =>
        .ok (some (.inr (((inv.head?.map Prod.fst).getD [] ++ [v.1], v.2) :: inv, [] :: folded)), t')
  drain q t := foldDrainF f q.1 q.2 t

/-- The stacks after the values `g`; the state of the closure was `t₀` before them. -/
def PlaceKeep (f : τ → List O → List Nat × W → τ × Option O) (t₀ : τ) (g : List (Nat × Nat × W))
    (q : List (List Nat × W) × List (List O)) (t : τ) : Prop :=
  ∃ keep, TreesKeep g keep ∧ FoldsTo f t₀ (placeStack keep) q.1 q.2 t ∧ keep.length ≤ g.length

theorem FoldsTo.label {f : τ → List O → List Nat × W → τ × Option O} {t₀ t : τ} {keep : List (Tree (Nat × W))}
    {inv : List (List Nat × W)} {folded : List (List O)} (h : FoldsTo f t₀ (placeStack keep) inv folded t) :
    (inv.head?.map Prod.fst).getD [] = labelOf keep := by
  cases keep with
  | nil => cases h; rfl
  | cons u keep =>
    obtain ⟨x, cs⟩ := u
    rw [placeStack, Tree.place] at h
    cases h
    rfl

end

namespace FEnd

variable {S : Type u} {N : Type v} {W : Type x} {σ : Type w} {O : Type z} {τ : Type y}

/-- The answers to come. -/
def pendPlaces (f : τ → List O → List Nat × W → τ × Option O) (r : σ → Nat → N → σ × Option (Option (Nat × W) × Bool)) (w : σ)
    (t : τ) (l : List (Nat × Tree N)) (peeked : Option (Nat × W)) : List (Option O) :=
  placeAnswers f t (peeked.toList.map (Prod.mk 0)) (FPipe.repliesP (FPipe.lev r) w l).1

theorem loop_places (f : τ → List O → List Nat × W → τ × Option O) {M : FPipe S (Nat × W) σ}
    {r : σ → Nat → N → σ × Option (Option (Nat × W) × Bool)}
    {R : S → List (Nat × Tree N) → Prop} (hM : M.Walks (FPipe.lenAt 1) r R) (t₀ : τ) (k : Nat) :
    ∀ {l : List (Nat × Tree N)} {s : S} {w : σ} {g : List (Nat × Nat × W)} {q : List (List Nat × W) × List (List O)} {t : τ},
      (FPipe.repliesP (FPipe.lev r) w l).1.length = k → R s l → PlaceKeep f t₀ g q t → ∃ x' w' t' l',
      (placeEndF f).loop M s w q t = .ok ((placeAnswers f t₀ g (FPipe.repliesP (FPipe.lev r) w l).1).head?, x', w', t') ∧
      CollEnd.Rest M R l' x' ∧
      pendPlaces f r w' t' l' x'.2 = (placeAnswers f t₀ g (FPipe.repliesP (FPipe.lev r) w l).1).tail := by
  induction k with
  | zero =>
    intro l s w g q t hk hR hK
    obtain ⟨s', w', l', h1, h2, h3, h4, -⟩ := hM.callLev l (w := w) hR
    have hk := List.length_eq_zero_iff.1 hk
    rw [hk] at h1 h3 ⊢
    have : l' = [] := h4 hk
    subst this
    obtain ⟨keep, k1, k2, -⟩ := hK
    rcases k1 with ⟨rfl, rfl⟩ | ⟨y, rest, rfl, k1⟩
    · obtain ⟨inv, folded⟩ := q
      cases k2
      refine ⟨(s', none), w', t₀, [], ?_, ⟨h2, by simp⟩, rfl⟩
      rw [loop_eq, h1]
      simp [placeEndF, foldDrainF, placeAnswers, regroupAt, regroup]
    · have k1 : regroupAt g = some (plug (placeStack rest).reverse ((Tree.node y []).place (labelOf rest))) := by
        rw [regroupAt, k1, Option.map_some, plug_place]
      refine ⟨(s', none), w', ((plug (placeStack rest).reverse ((Tree.node y []).place (labelOf rest))).foldF f t₀).1, [], ?_,
        ⟨h2, by simp⟩, ?_⟩
      · rw [loop_eq, h1]
        simp only [List.head?_nil, Option.map_none, placeEndF, foldDrainF_stack f t₀ _ k2]
        rw [placeAnswers, k1]
        rfl
      · rw [placeAnswers, k1]
        rfl
  | succ k ih =>
    intro l s w g q t hk hR hK
    obtain ⟨s', w', l', h1, h2, h3, -, h5⟩ := hM.callLev l (w := w) hR
    cases hL : (FPipe.repliesP (FPipe.lev r) w l).1 with
    | nil => simp [hL] at hk
    | cons a L =>
      rw [hL] at h1 h3 h5
      simp only [List.tail_cons] at h3
      obtain ⟨keep, k1, k2, k3⟩ := hK
      cases a with
      | none =>
        refine ⟨(s', none), w', t, l', ?_, ⟨h2, by simp⟩, ?_⟩
        · rw [loop_eq, h1]
          rfl
        · rw [pendPlaces, h3, placeAnswers, List.tail_cons]
          congr 1
          rcases k1 with ⟨rfl, rfl⟩ | ⟨y, rest, rfl, k1⟩
          · generalize q.1 = inv at k2
            generalize q.2 = folded at k2
            cases k2
            rfl
          · rw [regroupAt, k1, Option.map_some, plug_place]
            have : (plug (placeStack rest).reverse ((Tree.node y []).place (labelOf rest))).foldDone f g.length t₀ = (t, true) := by
              generalize q.1 = inv at k2
              generalize q.2 = folded at k2
              rw [placeStack, Tree.place] at k2
              cases k2 with
              | cons k2 hcs =>
                rw [List.length_cons] at k3
                rw [Tree.place, foldDone_plug _ k2 _ _ (by rw [placeStack_length]; omega), placeStack_length]
                obtain ⟨e, he⟩ : ∃ e, g.length - rest.length = e + 1 := ⟨g.length - rest.length - 1, by omega⟩
                simp only [Tree.placeL, Tree.foldFL, Prod.mk.injEq, Option.some.injEq] at hcs
                rw [he, Tree.foldDone, Tree.placeL, Tree.foldDoneL, hcs.1]
            simp [this]
      | some x =>
        obtain ⟨d, v⟩ := x
        have h5 := h5 d v rfl
        have h6 : Pipe.collDepth (M.path s') = .ok d := collDepth_length h5
        -- the value goes on the stack
        have push : ∀ {keep' inv' folded' t'}, foldCloseF f d q.1 q.2 t = .ok (some (.inr (inv', folded')), t') →
            FoldsTo f t₀ (placeStack keep') inv' folded' t' → TreesKeep (g ++ [(d, v)]) (.node v [] :: keep') →
            keep'.length ≤ g.length → ∃ x' w' t' l',
            (placeEndF f).loop M s w q t = .ok ((placeAnswers f t₀ (g ++ [(d, v)]) L).head?, x', w', t') ∧
            CollEnd.Rest M R l' x' ∧ pendPlaces f r w' t' l' x'.2 = (placeAnswers f t₀ (g ++ [(d, v)]) L).tail := by
          intro keep' inv' folded' t' e1 e2 e3 e4
          obtain ⟨x', w'', t'', l'', i1, i2, i3⟩ := ih (l := l') (w := w')
            (q := ((labelOf keep' ++ [v.1], v.2) :: inv', [] :: folded')) (t := t') (by
            rw [h3]; simp only [hL, List.length_cons] at hk; simp only; omega) h2
            ⟨_, e3, .cons e2 rfl, by simpa using e4⟩
          rw [h3] at i1 i3
          refine ⟨x', w'', t'', l'', ?_, i2, i3⟩
          rw [loop_eq, h1]
          simp only [List.head?_cons, Option.map_some]
          have : (placeEndF f).step q (M.path s') v t =
              .ok (some (.inr ((labelOf keep' ++ [v.1], v.2) :: inv', [] :: folded')), t') := by
            simp only [placeEndF, h6, e1, e2.label]
          rw [this]
          exact i1
        rcases k1 with ⟨rfl, rfl⟩ | ⟨y, rest, rfl, k1⟩
        · rw [placeAnswers]
          refine push (keep' := []) (inv' := []) (folded' := []) (t' := t₀) ?_ .nil (.inr ⟨v, [], rfl, rfl⟩) (by simp)
          generalize q.1 = inv at k2
          generalize q.2 = folded at k2
          cases k2
          rw [foldCloseF]
        · have hg : g ≠ [] := by rintro rfl; simp [regroup] at k1
          have k1' : regroupAt g = some (plug (placeStack rest).reverse ((Tree.node y []).place (labelOf rest))) := by
            rw [regroupAt, k1, Option.map_some, plug_place]
          rw [placeAnswers, k1']
          dsimp only
          -- the closure panics
          have fails : ∀ t', foldCloseF f d q.1 q.2 t = .ok (none, t') → ∃ x' w'' t'' l'',
              (placeEndF f).loop M s w q t = .ok (some none, x', w'', t'') ∧
              CollEnd.Rest M R l'' x' ∧ pendPlaces f r w'' t'' l'' x'.2 = placeAnswers f t' [] L := by
            intro t' e1
            refine ⟨(s', none), w', t', l', ?_, ⟨h2, by simp⟩, ?_⟩
            · rw [loop_eq, h1]
              simp only [List.head?_cons, Option.map_some]
              have : (placeEndF f).step q (M.path s') v t = .ok (none, t') := by simp only [placeEndF, h6, e1]
              rw [this]
            · rw [pendPlaces, h3]
              rfl
          by_cases hd : d = 0
          · subst hd
            have key := foldCloseF_stack f t₀ 0 _ rfl k2 (.inl rfl) (treesClose_place _ _ (treesClose_root rest (.node y [])))
            simp only [Tree.placeL] at key
            simp only [Tree.place, Tree.placeL]
            rcases e : (plug (placeStack rest).reverse (.node (labelOf rest ++ [y.1], y.2) [])).foldDone f 0 t₀ with ⟨t', b⟩
            rw [e] at key
            cases b with
            | false => exact fails t' (key.1 rfl)
            | true =>
              obtain ⟨o, e1, e2⟩ := key.2 rfl
              rw [plugged_eq_plug, plug_place, Tree.place, Tree.placeL] at e1
              refine ⟨(s', some v), w', t', l', ?_, ⟨h2, fun _ => by simpa using h5⟩, ?_⟩
              · rw [loop_eq, h1]
                simp only [List.head?_cons, Option.map_some]
                have : (placeEndF f).step q (M.path s') v t = .ok (some (.inl o), t') := by simp only [placeEndF, h6, e2]
                rw [this]
                simp [e1]
              · rw [pendPlaces, h3]
                simp
          · obtain ⟨keep', c1, c2⟩ := TreesKeep.push (.inr ⟨y, rest, rfl, k1⟩) v d fun e => absurd e hd
            have key := foldCloseF_stack f t₀ d _ rfl k2 (.inl rfl) (treesClose_place _ _ c1)
            simp only [Tree.placeL] at key
            simp only [Tree.place, Tree.placeL]
            rcases e : (plug (placeStack rest).reverse (.node (labelOf rest ++ [y.1], y.2) [])).foldDone f d t₀ with ⟨t', b⟩
            rw [e] at key
            cases b with
            | false => exact fails t' (key.1 rfl)
            | true =>
              obtain ⟨inv', folded', e1, e2⟩ := key.2 rfl
              simp only [if_neg hd]
              exact push e2 e1 c2 (Nat.le_trans (treesClose_length _ _ c1) k3)

/-- All calls. -/
theorem calls_places (f : τ → List O → List Nat × W → τ × Option O) {M : FPipe S (Nat × W) σ}
    {r : σ → Nat → N → σ × Option (Option (Nat × W) × Bool)}
    {R : S → List (Nat × Tree N) → Prop} (hM : M.Walks (FPipe.lenAt 1) r R) (k : Nat) :
    ∀ {l : List (Nat × Tree N)} {x : S × Option (Nat × W)} {w : σ} {t : τ}, CollEnd.Rest M R l x →
      nthCallE ((placeEndF f).call M) k (x, w, t) = .ok (pendPlaces f r w t l x.2)[k]? := by
  have one : ∀ {l : List (Nat × Tree N)} {x : S × Option (Nat × W)} {w : σ} {t : τ}, CollEnd.Rest M R l x → ∃ x' w' t' l',
      (placeEndF f).call M (x, w, t) = .ok ((pendPlaces f r w t l x.2).head?, x', w', t') ∧
      CollEnd.Rest M R l' x' ∧ pendPlaces f r w' t' l' x'.2 = (pendPlaces f r w t l x.2).tail := by
    intro l x w t h
    obtain ⟨s, o⟩ := x
    cases o with
    | none => exact loop_places f hM t _ rfl h.1 ⟨[], .inl ⟨rfl, rfl⟩, .nil, by simp⟩
    | some v =>
      obtain ⟨x', w', t', l', h1, h2⟩ := loop_places f hM t _ rfl h.1 (w := w) (g := [(0, v)]) (q := ([([v.1], v.2)], [[]])) (t := t)
        ⟨[.node v []], .inr ⟨v, [], rfl, rfl⟩, .cons .nil rfl, by simp⟩
      refine ⟨x', w', t', l', ?_, h2⟩
      rw [call, next]
      have : (placeEndF f).step (placeEndF f).empty (M.path s) v t = .ok (some (.inr ([([v.1], v.2)], [[]])), t) := by
        have h6 : Pipe.collDepth (M.path s) = .ok 0 := collDepth_length (h.2 (by simp))
        simp [placeEndF, h6, foldCloseF]
      simp only [this]
      exact h1
  induction k with
  | zero =>
    intro l x w t h
    obtain ⟨x', w', t', l', h1, -⟩ := one (w := w) (t := t) h
    rw [nthCallE, stateAfterE]
    simp only [h1, List.head?_eq_getElem?]
  | succ k ih =>
    intro l x w t h
    obtain ⟨x', w', t', l', h1, h2, h3⟩ := one (w := w) (t := t) h
    have := ih (w := w') (t := t') h2
    rw [nthCallE, stateAfterE]
    simp only [h1]
    rw [nthCallE] at this
    rw [this, h3, List.getElem?_tail]

end FEnd

/-! ## Values with numbers -/

namespace FPipe

variable {S : Type u} {N : Type v} {W : Type x} {σ : Type w}

/-- Values are given with the last number of the path. -/
def tag (M : FPipe S W σ) : FPipe S (Nat × W) σ where
  next s w :=
    match M.next s w with
    | .error e => .error e
    | .ok (none, s', w') => .ok (none, s', w')
    | .ok (some o, s', w') => .ok (some (o.map (Prod.mk ((M.path s').getLast?.getD 0))), s', w')
  path := M.path
  prune := M.prune
  size := M.size
  size_next := by
    intro s w o s' w' h
    split at h
    · simp at h
    · simp at h
    · next h1 =>
      simp only [Except.ok.injEq, Prod.mk.injEq] at h
      rw [← h.2.1]
      exact M.size_next h1
  size_prune := M.size_prune
  path_prune := M.path_prune
  prune_prune := M.prune_prune

/-- The replies with numbers. -/
def tagged (r : σ → Nat → List Nat × N → σ × Option (Option W × Bool)) (w : σ) (d : Nat) (x : List Nat × N) :
    σ × Option (Option (Nat × W) × Bool) :=
  ((r w d x).1, (r w d x).2.map fun y => (y.1.map (Prod.mk (x.1.getLast?.getD 0)), y.2))

theorem Walks.tag {M : FPipe S W σ} {A : Nat → List Nat × N → Bool → List Nat → Prop}
    {r : σ → Nat → List Nat × N → σ × Option (Option W × Bool)} {R : S → List (Nat × Tree (List Nat × N)) → Prop}
    (hM : Walks M A r R) {b₀ : Nat} (hA : ∀ {d x p}, A d x true p → p = x.1 ∧ p.length = d + b₀) :
    Walks M.tag (lenAt b₀) (tagged r) R where
  weak := by intro d n p _ h; cases h
  done {s} h w := by
    obtain ⟨s', h1, h2⟩ := hM.done h w
    exact ⟨s', by simp only [FPipe.tag, h1], h2⟩
  drop {s d n cs l} h w e := by
    simp only [tagged, Option.map_eq_none_iff] at e
    obtain ⟨s', h1, h2⟩ := hM.drop h w e
    exact ⟨s', by simp only [FPipe.tag, h1, tagged], h2⟩
  ans {s d n cs l} h w o b e := by
    simp only [tagged, Option.map_eq_some_iff] at e
    obtain ⟨⟨o', b'⟩, e1, e2⟩ := e
    simp only [Prod.mk.injEq] at e2
    obtain ⟨rfl, rfl⟩ := e2
    obtain ⟨s', h1, h2, h3, h4⟩ := hM.ans h w o' b' e1
    refine ⟨s', ?_, h2, h3, ?_⟩
    · simp only [FPipe.tag, h1, tagged]
      cases o' with
      | none => rfl
      | some y => rw [(hA h4).1]
    · intro ho
      cases o' with
      | none => cases ho
      | some y => exact (hA h4).2

/-- One call, whatever it gives. -/
theorem Walks.callAny {M : FPipe S W σ} {A : Nat → N → Bool → List Nat → Prop} {r : σ → Nat → N → σ × Option (Option W × Bool)}
    {R : S → List (Nat × Tree N) → Prop} (hM : Walks M A r R) (l : List (Nat × Tree N)) :
    ∀ {s : S} (w : σ), R s l → ∃ o s' w' l', M.next s w = .ok (o, s', w') ∧ R s' l' ∧
      ∀ v, o = some (some v) → ∃ d n, A d n true (M.path s') := by
  induction l with
  | nil =>
    intro s w h
    obtain ⟨s', h1, h2⟩ := hM.done h w
    exact ⟨none, s', w, [], h1, h2, by simp⟩
  | cons t l ih =>
    intro s w h
    obtain ⟨d, n, cs⟩ := t
    cases e : (r w d n).2 with
    | none =>
      obtain ⟨s1, h1, h2⟩ := hM.drop h w e
      obtain ⟨o, s', w', l', i1, i2⟩ := ih (r w d n).1 h2
      exact ⟨o, s', w', l', h1.trans i1, i2⟩
    | some a =>
      obtain ⟨o, b⟩ := a
      obtain ⟨s', h1, h2, _, h4⟩ := hM.ans h w o b e
      refine ⟨some o, s', _, _, h1, h2, ?_⟩
      rintro v hv
      obtain rfl := Option.some.inj hv
      exact ⟨d, n, h4⟩

/-- Nothing but trees of a kind that is kept. -/
theorem Walks.restrict {M : FPipe S W σ} {A : Nat → N → Bool → List Nat → Prop} {r : σ → Nat → N → σ × Option (Option W × Bool)}
    {R : S → List (Nat × Tree N) → Prop} (hM : Walks M A r R) {K : Nat → Tree N → Prop}
    (hK : ∀ {d n cs}, K d (.node n cs) → ∀ c ∈ cs, K (d + 1) c) :
    Walks M (fun d n b p => A d n b p ∧ ∃ cs, K d (.node n cs)) r (fun s l => R s l ∧ ∀ t ∈ l, K t.1 t.2) where
  weak h := ⟨hM.weak h.1, h.2⟩
  done {s} h w := by
    obtain ⟨s', h1, h2⟩ := hM.done h.1 w
    exact ⟨s', h1, h2, by simp⟩
  drop {s d n cs l} h w e := by
    obtain ⟨s', h1, h2⟩ := hM.drop h.1 w e
    exact ⟨s', h1, h2, fun t ht => h.2 t (by simp [ht])⟩
  ans {s d n cs l} h w o b e := by
    obtain ⟨s', h1, h2, h3, h4⟩ := hM.ans h.1 w o b e
    have hd : K d (.node n cs) := h.2 (d, .node n cs) (by simp)
    refine ⟨s', h1, ⟨h2, ?_⟩, ⟨h3, fun t ht => h.2 t (by simp [ht])⟩, h4, cs, hd⟩
    intro t ht
    rcases List.mem_append.1 ht with ht | ht
    · split at ht
      · obtain ⟨c, hc, rfl⟩ := List.mem_map.1 ht
        exact hK hd c hc
      · simp at ht
    · exact h.2 t (by simp [ht])

end FPipe

/-! ## Ends that do the same -/

namespace FEnd

variable {S : Type u} {N : Type v} {W : Type x} {σ : Type w} {O : Type z} {O' : Type u'} {τ : Type y} {Q : Type v'} {Q' : Type w'}

/-- `E` does with values what `E'` does with values with numbers. -/
structure Sim (E : FEnd Q W O τ) (E' : FEnd Q' (Nat × W) O' τ) (h : O' → O) (Good : List Nat → Prop) (Rel : Q → Q' → Prop) :
    Prop where
  empty : Rel E.empty E'.empty
  step : ∀ {q q'}, Rel q q' → ∀ {p}, Good p → ∀ v t x, E'.step q' p (p.getLast?.getD 0, v) t = .ok x →
    match x with
    | (none, t') => E.step q p v t = .ok (none, t')
    | (some (.inl o), t') => E.step q p v t = .ok (some (.inl (h o)), t')
    | (some (.inr q1'), t') => ∃ q1, E.step q p v t = .ok (some (.inr q1), t') ∧ Rel q1 q1'
  drain : ∀ {q q'}, Rel q q' → ∀ t o t', E'.drain q' t = .ok (o, t') → E.drain q t = .ok (o.map (Option.map h), t')

/-- The states of the two between two calls. -/
def Both (M : FPipe S W σ) (R : S → List (Nat × Tree N) → Prop) (Good : List Nat → Prop) (x : S × Option W)
    (x' : S × Option (Nat × W)) : Prop :=
  x.1 = x'.1 ∧ (∃ l, R x.1 l) ∧ x.2 = x'.2.map Prod.snd ∧ ∀ v, x'.2 = some v → Good (M.path x.1) ∧ v.1 = (M.path x.1).getLast?.getD 0

theorem Sim.loop {E : FEnd Q W O τ} {E' : FEnd Q' (Nat × W) O' τ} {h : O' → O} {Good : List Nat → Prop} {Rel : Q → Q' → Prop}
    (hE : Sim E E' h Good Rel) {M : FPipe S W σ} {A : Nat → N → Bool → List Nat → Prop}
    {r : σ → Nat → N → σ × Option (Option W × Bool)} {R : S → List (Nat × Tree N) → Prop} (hM : M.Walks A r R)
    (hA : ∀ {d n p}, A d n true p → Good p) (k : Nat) :
    ∀ {s : S} {l : List (Nat × Tree N)} {w : σ} {q : Q} {q' : Q'} {t : τ} {o x' w' t'}, M.size s = k → R s l → Rel q q' →
      E'.loop M.tag s w q' t = .ok (o, x', w', t') →
      ∃ x, E.loop M s w q t = .ok (o.map (Option.map h), x, w', t') ∧ Both M R Good x x' := by
  induction k using Nat.strongRecOn with
  | _ k ih =>
    intro s l w q q' t o x' w' t' hk hR hq hl
    obtain ⟨o1, s1, w1, l1, h1, h2, h3⟩ := hM.callAny l w hR
    rw [loop_eq] at hl
    rw [loop_eq, h1]
    simp only [FPipe.tag, h1] at hl
    rcases o1 with _ | _ | v
    · dsimp only at hl ⊢
      rcases e : E'.drain q' t with er | ⟨o2, t2⟩
      · rw [e] at hl; cases hl
      · rw [e] at hl
        simp only [Except.ok.injEq, Prod.mk.injEq] at hl
        obtain ⟨rfl, rfl, rfl, rfl⟩ := hl
        rw [hE.drain hq _ _ _ e]
        exact ⟨_, rfl, rfl, ⟨l1, h2⟩, rfl, by simp⟩
    · simp only [Option.map_none, Except.ok.injEq, Prod.mk.injEq] at hl
      obtain ⟨rfl, rfl, rfl, rfl⟩ := hl
      exact ⟨_, rfl, rfl, ⟨l1, h2⟩, rfl, by simp⟩
    · obtain ⟨d, n, h3⟩ := h3 v rfl
      have hg := hA h3
      dsimp only [Option.map_some] at hl ⊢
      rcases e : E'.step q' (M.path s1) ((M.path s1).getLast?.getD 0, v) t with er | ⟨_ | o2 | q2, t2⟩
      · rw [e] at hl; cases hl
      · rw [e] at hl
        simp only [Except.ok.injEq, Prod.mk.injEq] at hl
        obtain ⟨rfl, rfl, rfl, rfl⟩ := hl
        have := hE.step hq hg v t _ e
        dsimp only at this
        rw [this]
        exact ⟨_, rfl, rfl, ⟨l1, h2⟩, rfl, by simp⟩
      · rw [e] at hl
        simp only [Except.ok.injEq, Prod.mk.injEq] at hl
        obtain ⟨rfl, rfl, rfl, rfl⟩ := hl
        have := hE.step hq hg v t _ e
        dsimp only at this
        rw [this]
        refine ⟨_, rfl, rfl, ⟨l1, h2⟩, rfl, ?_⟩
        rintro v' hv
        obtain rfl := Option.some.inj hv
        exact ⟨hg, rfl⟩
      · rw [e] at hl
        obtain ⟨q1, i1, i2⟩ := hE.step hq hg v t _ e
        rw [i1]
        exact ih _ (hk ▸ M.size_next h1) rfl h2 i2 hl

theorem Sim.calls {E : FEnd Q W O τ} {E' : FEnd Q' (Nat × W) O' τ} {h : O' → O} {Good : List Nat → Prop} {Rel : Q → Q' → Prop}
    (hE : Sim E E' h Good Rel) {M : FPipe S W σ} {A : Nat → N → Bool → List Nat → Prop}
    {r : σ → Nat → N → σ × Option (Option W × Bool)} {R : S → List (Nat × Tree N) → Prop} (hM : M.Walks A r R)
    (hA : ∀ {d n p}, A d n true p → Good p) (k : Nat) :
    ∀ {x : S × Option W} {x' : S × Option (Nat × W)} {w : σ} {t : τ} {o}, Both M R Good x x' →
      nthCallE (E'.call M.tag) k (x', w, t) = .ok o → nthCallE (E.call M) k (x, w, t) = .ok (o.map (Option.map h)) := by
  have one : ∀ {x : S × Option W} {x' : S × Option (Nat × W)} {w : σ} {t : τ} {o y' w' t'}, Both M R Good x x' →
      E'.call M.tag (x', w, t) = .ok (o, y', w', t') →
      ∃ y, E.call M (x, w, t) = .ok (o.map (Option.map h), y, w', t') ∧ Both M R Good y y' := by
    intro x x' w t o y' w' t' hx hc
    obtain ⟨s, a⟩ := x
    obtain ⟨s', a'⟩ := x'
    obtain ⟨h1, ⟨l, h2⟩, h3, h4⟩ := hx
    dsimp only at h1 h2 h3 h4
    subst h1 h3
    rw [call, next] at hc ⊢
    cases a' with
    | none => exact hE.loop hM hA _ rfl h2 hE.empty hc
    | some v =>
      obtain ⟨hg, hv⟩ := h4 v rfl
      obtain ⟨i, v⟩ := v
      dsimp only at hv
      subst hv
      dsimp only [Option.map_some, FPipe.tag] at hc ⊢
      rcases e : E'.step E'.empty (M.path s) ((M.path s).getLast?.getD 0, v) t with er | ⟨_ | o2 | q2, t2⟩
      · rw [e] at hc; cases hc
      · rw [e] at hc
        simp only [Except.ok.injEq, Prod.mk.injEq] at hc
        obtain ⟨rfl, rfl, rfl, rfl⟩ := hc
        have := hE.step hE.empty hg v t _ e
        dsimp only at this
        rw [this]
        exact ⟨_, rfl, rfl, ⟨l, h2⟩, rfl, by simp⟩
      · rw [e] at hc
        simp only [Except.ok.injEq, Prod.mk.injEq] at hc
        obtain ⟨rfl, rfl, rfl, rfl⟩ := hc
        have := hE.step hE.empty hg v t _ e
        dsimp only at this
        rw [this]
        refine ⟨_, rfl, rfl, ⟨l, h2⟩, rfl, ?_⟩
        rintro v' hv
        obtain rfl := Option.some.inj hv
        exact ⟨hg, rfl⟩
      · rw [e] at hc
        obtain ⟨q1, i1, i2⟩ := hE.step hE.empty hg v t _ e
        rw [i1]
        exact hE.loop hM hA _ rfl h2 i2 hc
  induction k with
  | zero =>
    intro x x' w t o hx hc
    rw [nthCallE, stateAfterE] at hc ⊢
    dsimp only at hc ⊢
    rcases e : E'.call M.tag (x', w, t) with er | ⟨o1, y', w', t'⟩
    · rw [e] at hc; cases hc
    · obtain ⟨y, h1, -⟩ := one hx e
      rw [e] at hc
      simp only [Except.ok.injEq] at hc
      subst hc
      simp only [h1]
  | succ k ih =>
    intro x x' w t o hx hc
    rw [nthCallE, stateAfterE] at hc ⊢
    rcases e : E'.call M.tag (x', w, t) with er | ⟨o1, y', w', t'⟩
    · simp only [e] at hc; cases hc
    · obtain ⟨y, h1, h2⟩ := one hx e
      simp only [e] at hc
      simp only [h1]
      have := ih (o := o) h2 (w := w') (t := t') (by rw [nthCallE]; exact hc)
      rw [nthCallE] at this
      exact this

end FEnd

/-! ## `fold_path` -/

section
variable {W : Type u} {O : Type v} {τ : Type w}

/-- The values on a stack, and the numbers on the way to them. -/
inductive Labels : List W → List Nat → List (List Nat × W) → Prop
  | nil : Labels [] [] []
  | cons {inv path inv'} (v : W) (i : Nat) : Labels inv path inv' → Labels (v :: inv) (i :: path) (((i :: path).reverse, v) :: inv')

theorem Labels.head {inv : List W} {path : List Nat} {inv' : List (List Nat × W)} (h : Labels inv path inv') :
    (inv'.head?.map Prod.fst).getD [] = path.reverse := by
  cases h <;> rfl

theorem Labels.length {inv : List W} {path : List Nat} {inv' : List (List Nat × W)} (h : Labels inv path inv') :
    path.length = inv'.length := by
  induction h with
  | nil => rfl
  | cons v i _ ih => simp [ih]

theorem Labels.values {inv : List W} {path : List Nat} {inv' : List (List Nat × W)} (h : Labels inv path inv') :
    inv.length = inv'.length := by
  induction h with
  | nil => rfl
  | cons v i _ ih => simp [ih]

theorem Labels.push {inv : List W} {path : List Nat} {inv' : List (List Nat × W)} (h : Labels inv path inv') (v : W) (i : Nat) :
    Labels (v :: inv) (i :: path) (((inv'.head?.map Prod.fst).getD [] ++ [i], v) :: inv') := by
  rw [h.head, ← List.reverse_cons]
  exact .cons v i h

/-- A closure that is told the position. -/
def atPlace (f : τ → List O → List Nat → W → τ × Option O) (t : τ) (os : List O) (x : List Nat × W) : τ × Option O := f t os x.1 x.2

/-- The stacks of the two folds. -/
def PathRel (q : List W × List (List O) × List Nat) (q' : List (List Nat × W) × List (List O)) : Prop :=
  Labels q.1 q.2.2 q'.1 ∧ q.2.1 = q'.2 ∧ q'.1.length = q'.2.length

theorem foldPathCloseF_place (f : τ → List O → List Nat → W → τ × Option O) (d : Nat) (inv' : List (List Nat × W))
    (folded' : List (List O)) (t : τ) : ∀ {inv folded path x}, PathRel (inv, folded, path) (inv', folded') →
    foldCloseF (atPlace f) d inv' folded' t = .ok x →
    match x with
    | (none, t') => foldPathCloseF f d inv folded path t = .ok (none, t')
    | (some (.inl o), t') => foldPathCloseF f d inv folded path t = .ok (some (.inl o), t')
    | (some (.inr q1'), t') => ∃ q1, foldPathCloseF f d inv folded path t = .ok (some (.inr q1), t') ∧ PathRel q1 q1' ∧
      q1'.2.length ≤ d := by
  fun_induction foldCloseF (atPlace f) d inv' folded' t with
  | case1 inv' t =>
    intro inv folded path x h hx
    obtain ⟨h1, h2, h3⟩ := h
    cases hx
    dsimp only at h1 h2 h3
    subst h2
    exact ⟨_, by rw [foldPathCloseF], ⟨h1, rfl, h3⟩, by simp⟩
  | case2 items rest t h0 => intro inv folded path x h hx; cases hx
  | case3 items t v inv' rest t' hf h0 =>
    intro inv folded path x h hx
    obtain ⟨h1, h2, h3⟩ := h
    cases hx
    dsimp only at h1 h2 h3 ⊢
    subst h2
    cases h1 with
    | cons v i h1 =>
      rw [foldPathCloseF, if_pos h0]
      simp only [atPlace] at hf
      simp only [hf]
  | case4 items t v inv' t' o hf h0 =>
    intro inv folded path x h hx
    obtain ⟨h1, h2, h3⟩ := h
    cases hx
    dsimp only at h1 h2 h3 ⊢
    subst h2
    cases h1 with
    | cons v i h1 =>
      rw [foldPathCloseF, if_pos h0]
      simp only [atPlace] at hf
      simp only [hf]
  | case5 items t v inv' t' o hf last rest h0 ih =>
    intro inv folded path x h hx
    obtain ⟨h1, h2, h3⟩ := h
    dsimp only at h1 h2 h3 ⊢
    subst h2
    cases h1 with
    | cons v i h1 =>
      rw [foldPathCloseF, if_pos (by assumption)]
      simp only [atPlace] at hf
      simp only [hf]
      exact ih ⟨h1, rfl, by simpa using h3⟩ hx
  | case6 inv' items rest t h0 =>
    intro inv folded path x h hx
    obtain ⟨h1, h2, h3⟩ := h
    cases hx
    dsimp only at h1 h2 h3 ⊢
    subst h2
    refine ⟨(inv, items :: rest, path), ?_, ⟨h1, rfl, h3⟩, by simp only [List.length_cons]; omega⟩
    rw [foldPathCloseF.eq_def]
    simp only [if_neg h0]

theorem foldPathDrainF_place (f : τ → List O → List Nat → W → τ × Option O) (inv' : List (List Nat × W))
    (folded' : List (List O)) (t : τ) : ∀ {inv folded path x}, PathRel (inv, folded, path) (inv', folded') →
    foldDrainF (atPlace f) inv' folded' t = .ok x → foldPathDrainF f inv folded path t = .ok x := by
  fun_induction foldDrainF (atPlace f) inv' folded' t with
  | case1 inv' t =>
    intro inv folded path x h hx
    obtain ⟨h1, h2, h3⟩ := h
    cases hx
    dsimp only at h1 h2 h3
    subst h2
    rw [foldPathDrainF]
  | case2 t items rest => intro inv folded path x h hx; cases hx
  | case3 v inv' items rest t t' hf =>
    intro inv folded path x h hx
    obtain ⟨h1, h2, h3⟩ := h
    cases hx
    dsimp only at h1 h2 h3
    subst h2
    cases h1 with
    | cons v i h1 =>
      simp only [atPlace] at hf
      rw [foldPathDrainF]
      simp only [hf]
  | case4 v inv' items t t' o hf =>
    intro inv folded path x h hx
    obtain ⟨h1, h2, h3⟩ := h
    cases hx
    dsimp only at h1 h2 h3
    subst h2
    cases h1 with
    | cons v i h1 =>
      simp only [atPlace] at hf
      rw [foldPathDrainF]
      simp only [hf]
  | case5 v inv' items t t' o hf last rest ih =>
    intro inv folded path x h hx
    obtain ⟨h1, h2, h3⟩ := h
    dsimp only at h1 h2 h3
    subst h2
    cases h1 with
    | cons v i h1 =>
      simp only [atPlace] at hf
      rw [foldPathDrainF]
      simp only [hf]
      exact ih ⟨h1, rfl, by simpa using h3⟩ hx

theorem foldPathEndF_sim (f : τ → List O → List Nat → W → τ × Option O) :
    (foldPathEndF f).Sim (placeEndF (atPlace f)) id (fun p => p ≠ []) PathRel where
  empty := ⟨.nil, rfl, rfl⟩
  step {q q'} h {p} hp v t x hx := by
    obtain ⟨inv, folded, path⟩ := q
    obtain ⟨inv', folded'⟩ := q'
    cases p with
    | nil => exact absurd rfl hp
    | cons i0 p =>
      have hd : Pipe.collDepth (i0 :: p) = .ok p.length := collDepth_length rfl
      simp only [placeEndF, hd] at hx
      simp only [foldPathEndF, hd, id_eq]
      rcases e : foldCloseF (atPlace f) p.length inv' folded' t with er | ⟨_ | o | q1', t'⟩
      · rw [e] at hx; cases hx
      · rw [e] at hx
        cases hx
        have := foldPathCloseF_place f _ _ _ _ h e
        simp only at this
        simp only [this]
      · rw [e] at hx
        cases hx
        have := foldPathCloseF_place f _ _ _ _ h e
        simp only at this
        simp only [this]
      · rw [e] at hx
        cases hx
        obtain ⟨q1, h1, ⟨h2, h3, h4⟩, h5⟩ := foldPathCloseF_place f _ _ _ _ h e
        obtain ⟨inv1, folded1, path1⟩ := q1
        dsimp only at h2 h3 h4 h5
        simp only [h1]
        obtain ⟨i, hi⟩ : ∃ i, (i0 :: p).getLast? = some i := ⟨_, List.getLast?_cons⟩
        have hlen : ¬ path1.length = p.length + 1 := by rw [h2.length, h4]; omega
        refine ⟨(v :: inv1, [] :: folded1, i :: path1), ?_, ?_, ?_, ?_⟩
        · simp only [foldPathPush, hi, if_neg hlen]
        · simp only [hi, Option.getD_some]
          exact h2.push v i
        · simp [h3]
        · simp [h4]
  drain {q q'} h t o t' ho := by
    have := foldPathDrainF_place f _ _ t (inv := q.1) (folded := q.2.1) (path := q.2.2) h ho
    simpa [foldPathEndF] using this

/-! ## Binary trees -/

/-- What the two slots hold. -/
def slotsOf (os : List (Nat × O)) : Option O × Option O := (lastOf 0 os, lastOf 1 os)

theorem lastOf_append (j : Nat) (os : List (Nat × O)) (o : Nat × O) :
    lastOf j (os ++ [o]) = if o.1 = j then some o.2 else lastOf j os := by
  rw [lastOf, List.filter_append]
  by_cases h : o.1 = j
  · simp [h]
  · simp [h, lastOf]

theorem setSlot_slotsOf {i : Nat} (hi : i ≤ 1) (o : Nat × O) (ho : o.1 = i) (os : List (Nat × O)) :
    Pipe.setSlot i o.2 (slotsOf os) = .ok (slotsOf (os ++ [o])) := by
  match i, hi with
  | 0, _ => simp [Pipe.setSlot, slotsOf, lastOf_append, ho]
  | 1, _ => simp [Pipe.setSlot, slotsOf, lastOf_append, ho]

theorem putSlot_slotsOf {i : Nat} (hi : i ≤ 1) (o : Nat × BinTree W) (ho : o.1 = i) (os : List (Nat × BinTree W)) (v : W) :
    Pipe.putSlot i o.2 (.node v (slotsOf os).1 (slotsOf os).2) =
      .ok (.node v (slotsOf (os ++ [o])).1 (slotsOf (os ++ [o])).2) := by
  match i, hi with
  | 0, _ => simp [Pipe.putSlot, slotsOf, lastOf_append, ho]
  | 1, _ => simp [Pipe.putSlot, slotsOf, lastOf_append, ho]

theorem slotClosure_none {f : τ → Option O × Option O → List Nat → W → τ × Option O} {t t' : τ} {os : List (Nat × O)}
    {x : List Nat × W} (h : slotClosure f t os x = (t', none)) : f t (slotsOf os) x.1 x.2 = (t', none) := by
  simp only [slotClosure, Prod.mk.injEq, Option.map_eq_none_iff] at h
  exact Prod.ext h.1 h.2

theorem slotClosure_some {f : τ → Option O × Option O → List Nat → W → τ × Option O} {t t' : τ} {os : List (Nat × O)}
    {i : Nat} {path : List Nat} {v : W} {o : Nat × O} (h : slotClosure f t os ((i :: path).reverse, v) = (t', some o)) :
    f t (slotsOf os) (i :: path).reverse v = (t', some o.2) ∧ o.1 = i := by
  simp only [slotClosure, Prod.mk.injEq, Option.map_eq_some_iff] at h
  obtain ⟨h1, o', h2, rfl⟩ := h
  exact ⟨Prod.ext h1 h2, by simp⟩

/-- The numbers of the nodes that have a parent on the stack. -/
def SlotPath : List Nat → Prop
  | [] => True
  | [_] => True
  | i :: j :: r => i ≤ 1 ∧ SlotPath (j :: r)

theorem SlotPath.tail {i : Nat} {r : List Nat} (h : SlotPath (i :: r)) : SlotPath r := by
  cases r with
  | nil => trivial
  | cons j r => exact h.2

theorem SlotPath.le {i : Nat} {r : List Nat} (h : SlotPath (i :: r)) (hr : r ≠ []) : i ≤ 1 := by
  cases r with
  | nil => exact absurd rfl hr
  | cons j r => exact h.1

theorem SlotPath.push {i : Nat} {r : List Nat} (h : SlotPath r) (hi : r ≠ [] → i ≤ 1) : SlotPath (i :: r) := by
  cases r with
  | nil => trivial
  | cons j r => exact ⟨hi (by simp), h⟩

/-- The paths of binary collections: the number of a node that has a parent is at most 1. -/
def SlotGood (p : List Nat) : Prop := p ≠ [] ∧ (2 ≤ p.length → p.getLast?.getD 0 ≤ 1)

/-- What a fold with positions holds. -/
structure SlotKeep (inv : List W) (path : List Nat) (q' : List (List Nat × W) × List (List (Nat × O))) : Prop where
  labels : Labels inv path q'.1
  length : q'.1.length = q'.2.length
  slots : SlotPath path

theorem SlotKeep.uncons {inv : List W} {path : List Nat} {x : List Nat × W} {inv' : List (List Nat × W)} {os : List (Nat × O)}
    {folded' : List (List (Nat × O))} (h : SlotKeep inv path (x :: inv', os :: folded')) :
    ∃ inv1 i path1, inv = x.2 :: inv1 ∧ path = i :: path1 ∧ x.1 = (i :: path1).reverse ∧ SlotKeep inv1 path1 (inv', folded') ∧
      (folded' ≠ [] → i ≤ 1) := by
  obtain ⟨h1, h2, h3⟩ := h
  cases h1 with
  | @cons inv1 path1 _ v i h1 =>
    refine ⟨inv1, i, path1, rfl, rfl, rfl, ⟨h1, by simpa using h2, h3.tail⟩, fun hf => h3.le ?_⟩
    rintro rfl
    cases h1
    simp only [List.length_cons, List.length_nil, Nat.add_right_cancel_iff] at h2
    exact hf (List.length_eq_zero_iff.1 h2.symm)

theorem SlotKeep.nil {inv : List W} {path : List Nat} {inv' : List (List Nat × W)}
    (h : SlotKeep (O := O) inv path (inv', [])) : inv = [] ∧ path = [] ∧ inv' = [] := by
  obtain ⟨h1, h2, h3⟩ := h
  simp only [List.length_nil, List.length_eq_zero_iff] at h2
  subst h2
  cases h1
  exact ⟨rfl, rfl, rfl⟩

theorem SlotKeep.push {inv : List W} {path : List Nat} {inv' : List (List Nat × W)} {folded' : List (List (Nat × O))}
    (h : SlotKeep inv path (inv', folded')) (v : W) (i : Nat) (hi : folded' ≠ [] → i ≤ 1) :
    SlotKeep (v :: inv) (i :: path) (((inv'.head?.map Prod.fst).getD [] ++ [i], v) :: inv', [] :: folded') := by
  obtain ⟨h1, h2, h3⟩ := h
  refine ⟨h1.push v i, by simpa using h2, h3.push fun hp => hi ?_⟩
  rintro rfl
  simp only [List.length_nil, List.length_eq_zero_iff] at h2
  subst h2
  cases h1
  exact hp rfl

/-- An end of a binary pipeline whose stack is told by what a fold with positions holds. -/
structure SlotEnd {Q : Type v'} (E : FEnd Q W O τ) (f : τ → Option O × Option O → List Nat → W → τ × Option O)
    (stack : List W → List Nat → List (List (Nat × O)) → Q) (close : Nat → Q → τ → Except Panic (Option (O ⊕ Q) × τ))
    (push : Nat → W → Q → Q) : Prop where
  empty : E.empty = stack [] [] []
  step : ∀ q p d i v t, p.length = d + 1 → p.getLast? = some i →
    E.step q p v t =
      match close d q t with
      | .error e => .error e
      | .ok (none, t') => .ok (none, t')
      | .ok (some (.inl o), t') => .ok (some (.inl o), t')
      | .ok (some (.inr q'), t') => .ok (some (.inr (push i v q')), t')
  push_stack : ∀ i v inv path folded, push i v (stack inv path folded) = stack (v :: inv) (i :: path) ([] :: folded)
  close_nil : ∀ d t, close d (stack [] [] []) t = .ok (some (.inr (stack [] [] [])), t)
  close_stop : ∀ d v inv i path os folded t, inv.length = folded.length → path.length = folded.length → ¬ folded.length + 1 > d →
    close d (stack (v :: inv) (i :: path) (os :: folded)) t = .ok (some (.inr (stack (v :: inv) (i :: path) (os :: folded))), t)
  close_fail : ∀ d v inv i path os folded t t', inv.length = folded.length → path.length = folded.length →
    folded.length + 1 > d → f t (slotsOf os) (i :: path).reverse v = (t', none) →
    close d (stack (v :: inv) (i :: path) (os :: folded)) t = .ok (none, t')
  close_done : ∀ d v i os t t' o, 1 > d → f t (slotsOf os) [i] v = (t', some o) →
    close d (stack [v] [i] [os]) t = .ok (some (.inl o), t')
  close_step : ∀ d v u inv i j path os last folded t t' o, inv.length = folded.length → path.length = folded.length → i ≤ 1 →
    folded.length + 2 > d → f t (slotsOf os) (i :: j :: path).reverse v = (t', some o) →
    close d (stack (v :: u :: inv) (i :: j :: path) (os :: last :: folded)) t =
      close d (stack (u :: inv) (j :: path) ((last ++ [(i, o)]) :: folded)) t'
  drain_nil : ∀ t, E.drain (stack [] [] []) t = .ok (none, t)
  drain_fail : ∀ v inv i path os folded t t', inv.length = folded.length → path.length = folded.length →
    f t (slotsOf os) (i :: path).reverse v = (t', none) →
    E.drain (stack (v :: inv) (i :: path) (os :: folded)) t = .ok (some none, t')
  drain_done : ∀ v i os t t' o, f t (slotsOf os) [i] v = (t', some o) → E.drain (stack [v] [i] [os]) t = .ok (some (some o), t')
  drain_step : ∀ v u inv i j path os last folded t t' o, inv.length = folded.length → path.length = folded.length → i ≤ 1 →
    f t (slotsOf os) (i :: j :: path).reverse v = (t', some o) →
    E.drain (stack (v :: u :: inv) (i :: j :: path) (os :: last :: folded)) t =
      E.drain (stack (u :: inv) (j :: path) ((last ++ [(i, o)]) :: folded)) t'

theorem SlotKeep.lengths {inv : List W} {path : List Nat} {inv' : List (List Nat × W)} {folded' : List (List (Nat × O))}
    (h : SlotKeep inv path (inv', folded')) : inv.length = folded'.length ∧ path.length = folded'.length := by
  obtain ⟨h1, h2, -⟩ := h
  exact ⟨h1.values.trans h2, h1.length.trans h2⟩

section
variable {Q : Type v'} {E : FEnd Q W O τ} {f : τ → Option O × Option O → List Nat → W → τ × Option O}
  {stack : List W → List Nat → List (List (Nat × O)) → Q} {close : Nat → Q → τ → Except Panic (Option (O ⊕ Q) × τ)}
  {push : Nat → W → Q → Q}

theorem SlotEnd.close_place (hE : SlotEnd E f stack close push) (d : Nat) (inv' : List (List Nat × W))
    (folded' : List (List (Nat × O))) (t : τ) : ∀ {inv path x}, SlotKeep inv path (inv', folded') →
    foldCloseF (slotClosure f) d inv' folded' t = .ok x →
    match x with
    | (none, t') => close d (stack inv path folded') t = .ok (none, t')
    | (some (.inl o), t') => close d (stack inv path folded') t = .ok (some (.inl o.2), t')
    | (some (.inr q1'), t') => ∃ inv1 path1, close d (stack inv path folded') t = .ok (some (.inr (stack inv1 path1 q1'.2)), t') ∧
      SlotKeep inv1 path1 q1' ∧ q1'.2.length ≤ d := by
  fun_induction foldCloseF (slotClosure f) d inv' folded' t with
  | case1 inv' t =>
    intro inv path x h hx
    obtain ⟨rfl, rfl, rfl⟩ := h.nil
    cases hx
    exact ⟨[], [], hE.close_nil d t, h, by simp⟩
  | case2 items rest t h0 => intro inv path x h hx; cases hx
  | case3 items t v inv' rest t' hf h0 =>
    intro inv path x h hx
    obtain ⟨inv1, i, path1, rfl, rfl, h1, h2, h3⟩ := h.uncons
    cases hx
    have := slotClosure_none hf
    rw [h1] at this
    exact hE.close_fail _ _ _ _ _ _ _ _ _ h2.lengths.1 h2.lengths.2 h0 this
  | case4 items t v inv' t' o hf h0 =>
    intro inv path x h hx
    obtain ⟨inv1, i, path1, rfl, rfl, h1, h2, h3⟩ := h.uncons
    cases hx
    obtain ⟨p, v⟩ := v
    dsimp only at h1
    subst h1
    have hf := slotClosure_some hf
    obtain ⟨rfl, rfl, rfl⟩ := h2.nil
    exact hE.close_done _ _ _ _ _ _ _ h0 hf.1
  | case5 items t v inv' t' o hf last rest h0 ih =>
    intro inv path x h hx
    obtain ⟨inv1, i, path1, rfl, rfl, h1, h2, h3⟩ := h.uncons
    obtain ⟨p, v⟩ := v
    dsimp only at h1
    subst h1
    have hf := slotClosure_some hf
    cases inv' with
    | nil => have := h2.length; simp at this
    | cons y inv' =>
      obtain ⟨inv2, j, path2, rfl, rfl, k1, k2, k3⟩ := h2.uncons
      have := hE.close_step d v y.2 inv2 i j path2 items last rest t t' o.2 k2.lengths.1 k2.lengths.2 (h3 (by simp))
        (by simpa using h0) hf.1
      rw [this]
      have ho : (i, o.2) = o := Prod.ext hf.2.symm rfl
      rw [ho]
      exact ih ⟨h2.labels, by simpa using h2.length, h2.slots⟩ hx
  | case6 inv' items rest t h0 =>
    intro inv path x h hx
    cases hx
    cases inv' with
    | nil => have := h.length; simp at this
    | cons y inv' =>
      obtain ⟨inv1, i, path1, rfl, rfl, h1, h2, h3⟩ := h.uncons
      exact ⟨_, _, hE.close_stop _ _ _ _ _ _ _ _ h2.lengths.1 h2.lengths.2 h0, h, by simp only [List.length_cons]; omega⟩

theorem SlotEnd.drain_place (hE : SlotEnd E f stack close push) (inv' : List (List Nat × W))
    (folded' : List (List (Nat × O))) (t : τ) : ∀ {inv path o t'}, SlotKeep inv path (inv', folded') →
    foldDrainF (slotClosure f) inv' folded' t = .ok (o, t') →
    E.drain (stack inv path folded') t = .ok (o.map (Option.map Prod.snd), t') := by
  fun_induction foldDrainF (slotClosure f) inv' folded' t with
  | case1 inv' t =>
    intro inv path o t' h hx
    obtain ⟨rfl, rfl, rfl⟩ := h.nil
    cases hx
    exact hE.drain_nil t
  | case2 items rest t => intro inv path o t' h hx; cases hx
  | case3 v inv' items rest t t' hf =>
    intro inv path x t'' h hx
    obtain ⟨inv1, i, path1, rfl, rfl, h1, h2, h3⟩ := h.uncons
    cases hx
    have := slotClosure_none hf
    rw [h1] at this
    exact hE.drain_fail _ _ _ _ _ _ _ _ h2.lengths.1 h2.lengths.2 this
  | case4 v inv' items t t' o hf =>
    intro inv path x t'' h hx
    obtain ⟨inv1, i, path1, rfl, rfl, h1, h2, h3⟩ := h.uncons
    cases hx
    obtain ⟨p, v⟩ := v
    dsimp only at h1
    subst h1
    have hf := slotClosure_some hf
    obtain ⟨rfl, rfl, rfl⟩ := h2.nil
    exact hE.drain_done _ _ _ _ _ _ hf.1
  | case5 v inv' items t t' o hf last rest ih =>
    intro inv path x t'' h hx
    obtain ⟨inv1, i, path1, rfl, rfl, h1, h2, h3⟩ := h.uncons
    obtain ⟨p, v⟩ := v
    dsimp only at h1
    subst h1
    have hf := slotClosure_some hf
    cases inv' with
    | nil => have := h2.length; simp at this
    | cons y inv' =>
      obtain ⟨inv2, j, path2, rfl, rfl, k1, k2, k3⟩ := h2.uncons
      have := hE.drain_step v y.2 inv2 i j path2 items last rest t t' o.2 k2.lengths.1 k2.lengths.2 (h3 (by simp)) hf.1
      rw [this]
      have ho : (i, o.2) = o := Prod.ext hf.2.symm rfl
      rw [ho]
      exact ih ⟨h2.labels, by simpa using h2.length, h2.slots⟩ hx

theorem SlotEnd.sim (hE : SlotEnd E f stack close push) :
    E.Sim (placeEndF (slotClosure f)) Prod.snd SlotGood
      (fun q q' => ∃ inv path, SlotKeep inv path q' ∧ q = stack inv path q'.2) where
  empty := ⟨[], [], ⟨.nil, rfl, trivial⟩, hE.empty⟩
  step {q q'} h {p} hp v t x hx := by
    obtain ⟨inv, path, h, rfl⟩ := h
    obtain ⟨inv', folded'⟩ := q'
    cases p with
    | nil => exact absurd rfl hp.1
    | cons i0 p =>
      have hd : Pipe.collDepth (i0 :: p) = .ok p.length := collDepth_length rfl
      obtain ⟨i, hi⟩ : ∃ i, (i0 :: p).getLast? = some i := ⟨_, List.getLast?_cons⟩
      simp only [placeEndF, hd] at hx
      have hs := hE.step (stack inv path folded') (i0 :: p) p.length i v t rfl hi
      rcases e : foldCloseF (slotClosure f) p.length inv' folded' t with er | ⟨_ | o | q1', t'⟩
      · rw [e] at hx; cases hx
      · rw [e] at hx
        cases hx
        have := hE.close_place _ _ _ _ h e
        simp only at this
        simp only [hs, this]
      · rw [e] at hx
        cases hx
        have := hE.close_place _ _ _ _ h e
        simp only at this
        simp only [hs, this]
      · rw [e] at hx
        cases hx
        obtain ⟨inv1, path1, h1, h2, h3⟩ := hE.close_place _ _ _ _ h e
        obtain ⟨inv1', folded1'⟩ := q1'
        dsimp only at h1 h3
        refine ⟨stack (v :: inv1) (i :: path1) ([] :: folded1'), ?_, v :: inv1, i :: path1, ?_, rfl⟩
        · simp only [hs, h1, hE.push_stack]
        · simp only [hi, Option.getD_some]
          refine h2.push v i fun hf => ?_
          have := hp.2 (by
            cases folded1' with
            | nil => exact absurd rfl hf
            | cons a r => simp only [List.length_cons] at h3 ⊢; omega)
          simpa [hi] using this
  drain {q q'} h t o t' ho := by
    obtain ⟨inv, path, h, rfl⟩ := h
    exact hE.drain_place _ _ t h ho

end

theorem binFoldPathEndF_slots (f : τ → Option O × Option O → List Nat → W → τ × Option O) :
    SlotEnd (binFoldPathEndF f) f (fun inv path folded => (inv, folded.map slotsOf, path))
      (fun d q t => binFoldPathCloseF f d q.1 q.2.1 q.2.2 t)
      (fun i v q => (v :: q.1, (none, none) :: q.2.1, i :: q.2.2)) where
  empty := rfl
  step q p d i v t hp hi := by
    simp only [binFoldPathEndF, collDepth_length hp, hi]
    rcases binFoldPathCloseF f d q.1 q.2.1 q.2.2 t with er | ⟨_ | o | ⟨a, b, c⟩, t'⟩ <;> rfl
  push_stack i v inv path folded := rfl
  close_nil d t := by simp [binFoldPathCloseF]
  close_stop d v inv i path os folded t h1 h2 h3 := by
    rw [binFoldPathCloseF.eq_def]
    simp only [List.map_cons, List.length_map, if_neg h3]
  close_fail d v inv i path os folded t t' h1 h2 h3 h4 := by
    rw [binFoldPathCloseF.eq_def]
    simp only [List.map_cons, List.length_map, if_pos h3, h4]
  close_done d v i os t t' o h1 h2 := by
    rw [binFoldPathCloseF.eq_def]
    simp only [List.map_cons, List.map_nil, List.length_nil, if_pos h1, List.reverse_singleton, h2]
  close_step d v u inv i j path os last folded t t' o h1 h2 h3 h4 h5 := by
    rw [binFoldPathCloseF.eq_def]
    simp only [List.map_cons, List.length_cons, List.length_map, if_pos h4, h5, setSlot_slotsOf h3 (i, o) rfl]
  drain_nil t := by simp [binFoldPathEndF, binFoldPathDrainF]
  drain_fail v inv i path os folded t t' h1 h2 h4 := by
    simp only [binFoldPathEndF]
    rw [binFoldPathDrainF.eq_def]
    simp only [List.map_cons, h4]
  drain_done v i os t t' o h2 := by
    simp only [binFoldPathEndF]
    rw [binFoldPathDrainF.eq_def]
    simp only [List.map_cons, List.map_nil, List.reverse_singleton, h2]
  drain_step v u inv i j path os last folded t t' o h1 h2 h3 h5 := by
    simp only [binFoldPathEndF]
    rw [binFoldPathDrainF.eq_def]
    simp only [List.map_cons, h5, setSlot_slotsOf h3 (i, o) rfl]

theorem binFoldEndF_slots (f : τ → Option O × Option O → W → τ × Option O) :
    SlotEnd (binFoldEndF f) (fun t os _ v => f t os v)
      (fun inv path folded => (inv, List.zipWith (fun i os => (i, slotsOf os)) path folded))
      (fun d q t => binFoldCloseF f d q.1 q.2 t)
      (fun i v q => (v :: q.1, (i, none, none) :: q.2)) where
  empty := rfl
  step q p d i v t hp hi := by
    simp only [binFoldEndF, collDepth_length hp, hi]
    rcases binFoldCloseF f d q.1 q.2 t with er | ⟨_ | o | ⟨a, b⟩, t'⟩ <;> rfl
  push_stack i v inv path folded := rfl
  close_nil d t := by simp [binFoldCloseF]
  close_stop d v inv i path os folded t h1 h2 h3 := by
    rw [binFoldCloseF.eq_def]
    simp only [List.zipWith_cons_cons, List.length_zipWith, h2, Nat.min_self, if_neg h3]
  close_fail d v inv i path os folded t t' h1 h2 h3 h4 := by
    rw [binFoldCloseF.eq_def]
    simp only [List.zipWith_cons_cons, List.length_zipWith, h2, Nat.min_self, if_pos h3, h4]
  close_done d v i os t t' o h1 h2 := by
    rw [binFoldCloseF.eq_def]
    simp only [List.zipWith_cons_cons, List.zipWith_nil_left, List.length_nil, if_pos h1, h2]
  close_step d v u inv i j path os last folded t t' o h1 h2 h3 h4 h5 := by
    rw [binFoldCloseF.eq_def]
    simp only [List.zipWith_cons_cons, List.length_cons, List.length_zipWith, h2, Nat.min_self, if_pos h4, h5,
      setSlot_slotsOf h3 (i, o) rfl]
  drain_nil t := by simp [binFoldEndF, binFoldDrainF]
  drain_fail v inv i path os folded t t' h1 h2 h4 := by
    simp only [binFoldEndF]
    rw [binFoldDrainF.eq_def]
    simp only [List.zipWith_cons_cons, h4]
  drain_done v i os t t' o h2 := by
    simp only [binFoldEndF]
    rw [binFoldDrainF.eq_def]
    simp only [List.zipWith_cons_cons, List.zipWith_nil_left, h2]
  drain_step v u inv i j path os last folded t t' o h1 h2 h3 h5 := by
    simp only [binFoldEndF]
    rw [binFoldDrainF.eq_def]
    simp only [List.zipWith_cons_cons, h5, setSlot_slotsOf h3 (i, o) rfl]

/-! ## `trees()` -/

/-- An end without a closure that may panic. -/
def CollEnd.toF {Q : Type v'} (E : CollEnd Q W O τ) : FEnd Q W O τ where
  empty := E.empty
  step q p v t :=
    match E.step q p v t with
    | .error e => .error e
    | .ok (x, t') => .ok (some x, t')
  drain q t :=
    match E.drain q t with
    | .error e => .error e
    | .ok (o, t') => .ok (o.map some, t')

theorem CollEnd.loopF_toF {S : Type x} {σ : Type y} {Q : Type v'} (E : CollEnd Q W O Unit) (M : FPipe S W σ) (k : Nat) :
    ∀ (s : S) (w : σ) (q : Q), M.size s = k → E.loopF M s w q () = E.toF.loop M s w q () := by
  induction k using Nat.strongRecOn with
  | _ k ih =>
    intro s w q hk
    rw [CollEnd.loopF_eq, FEnd.loop_eq]
    rcases e : M.next s w with er | ⟨_ | _ | v, s', w'⟩
    · rfl
    · simp only [CollEnd.toF]
      rcases E.drain q () with er | ⟨o, t'⟩ <;> rfl
    · rfl
    · simp only [CollEnd.toF]
      rcases e2 : E.step q (M.path s') v () with er | ⟨o | q', t'⟩
      · rfl
      · rfl
      · exact ih _ (hk ▸ M.size_next e) s' w' q' rfl

theorem CollEnd.callF_toF {S : Type x} {σ : Type y} {Q : Type v'} (E : CollEnd Q W O Unit) (M : FPipe S W σ) :
    E.callF M = E.toF.call M := by
  funext x
  obtain ⟨⟨s, a⟩, w, t⟩ := x
  rw [CollEnd.callF, CollEnd.nextF, FEnd.call, FEnd.next]
  cases a with
  | none => exact CollEnd.loopF_toF E M _ s w _ rfl
  | some v =>
    simp only [CollEnd.toF]
    rcases e2 : E.step E.empty (M.path s) v t with er | ⟨o | q', t'⟩
    · rfl
    · rfl
    · exact CollEnd.loopF_toF E M _ s w q' rfl

/-- The stack of `trees()`. -/
def treeStack : List W → List Nat → List (List (Nat × BinTree W)) → List (Nat × BinTree W)
  | v :: inv, i :: path, os :: folded => (i, .node v (slotsOf os).1 (slotsOf os).2) :: treeStack inv path folded
  | _, _, _ => []

theorem treeStack_length (inv : List W) : ∀ (path : List Nat) (folded : List (List (Nat × BinTree W))),
    inv.length = folded.length → path.length = folded.length → (treeStack inv path folded).length = folded.length := by
  induction inv with
  | nil =>
    intro path folded h1 h2
    have : folded = [] := List.length_eq_zero_iff.1 h1.symm
    subst this
    rfl
  | cons v inv ih =>
    intro path folded h1 h2
    cases folded with
    | nil => simp at h1
    | cons os folded =>
      cases path with
      | nil => simp at h2
      | cons i path => simpa [treeStack] using ih path folded (by simpa using h1) (by simpa using h2)

/-- `trees()` as a fold. -/
def nodeClosure (t : Unit) (os : Option (BinTree W) × Option (BinTree W)) (_ : List Nat) (v : W) : Unit × Option (BinTree W) :=
  (t, some (.node v os.1 os.2))

theorem binTreesEnd_slots :
    SlotEnd (binTreesEnd (V := W)).toF nodeClosure treeStack
      (fun d q t => match binTreesClose (d + 1) q with
        | .error e => .error e
        | .ok x => .ok (some x, t))
      (fun i v q => (i, .node v none none) :: q) where
  empty := rfl
  step q p d i v t hp hi := by
    simp only [CollEnd.toF, binTreesEnd, hp, hi]
    rcases binTreesClose (d + 1) q with er | o | q' <;> rfl
  push_stack i v inv path folded := rfl
  close_nil d t := by simp [treeStack, binTreesClose]
  close_stop d v inv i path os folded t h1 h2 h3 := by
    have hlen := treeStack_length inv path folded h1 h2
    rw [treeStack, binTreesClose.eq_def]
    cases e : treeStack inv path folded with
    | nil =>
      rw [e] at hlen
      simp only [List.length_nil] at hlen
      simp only
      rw [if_neg (by omega)]
    | cons u r =>
      rw [e] at hlen
      simp only [List.length_cons] at hlen
      simp only
      rw [if_neg (by omega)]
  close_fail d v inv i path os folded t t' h1 h2 h3 h4 := by simp [nodeClosure] at h4
  close_done d v i os t t' o h1 h2 := by
    simp only [nodeClosure, Prod.mk.injEq, Option.some.injEq] at h2
    obtain ⟨-, rfl⟩ := h2
    simp only [treeStack]
    rw [binTreesClose, if_pos (by omega)]
  close_step d v u inv i j path os last folded t t' o h1 h2 h3 h4 h5 := by
    simp only [nodeClosure, Prod.mk.injEq, Option.some.injEq] at h5
    obtain ⟨-, rfl⟩ := h5
    simp only [treeStack]
    rw [binTreesClose, treeStack_length inv path folded h1 h2, if_pos (by omega)]
    simp only [putSlot_slotsOf h3 (i, .node v (slotsOf os).1 (slotsOf os).2) rfl]
  drain_nil t := by simp [CollEnd.toF, binTreesEnd, treeStack, binTreesDrain]
  drain_fail v inv i path os folded t t' h1 h2 h4 := by simp [nodeClosure] at h4
  drain_done v i os t t' o h2 := by
    simp only [nodeClosure, Prod.mk.injEq, Option.some.injEq] at h2
    obtain ⟨-, rfl⟩ := h2
    simp [CollEnd.toF, binTreesEnd, treeStack, binTreesDrain]
  drain_step v u inv i j path os last folded t t' o h1 h2 h3 h5 := by
    simp only [nodeClosure, Prod.mk.injEq, Option.some.injEq] at h5
    obtain ⟨-, rfl⟩ := h5
    simp only [CollEnd.toF, binTreesEnd, treeStack]
    rw [binTreesDrain]
    simp only [putSlot_slotsOf h3 (i, .node v (slotsOf os).1 (slotsOf os).2) rfl]

end

/-! ## Collections -/

namespace PChain

variable {N : Type u} {V W : Type v} {σ : Type w} {O : Type x} {O' : Type z} {τ : Type y}

theorem placeAt_eq [SplitNode N V] (bad : N → Bool) (c : PChain σ V W) :
    FPipe.lev (FPipe.tagged (c.stepAt bad)) = c.placeAt bad := by
  funext w d x
  simp only [FPipe.lev, FPipe.tagged, placeAt, Option.map_map, Prod.mk.injEq, true_and]
  congr 1
  funext y
  simp [Function.comp_def]

theorem pathsFirst_of_exact (c : PChain σ V W) (h : c.exact = true) : c.PathsFirst := by
  induction c with
  | source => trivial
  | map c f ih => exact ih h
  | prunePath c f ih => cases h
  | pruneDepth c d ih => exact ih h

/-- All calls, on any pipeline that gives exact positions; `ok` is what is known of these. -/
theorem end_calls {S : Type u'} {Q : Type v'} [SplitNode N V] {bad : N → Bool} {c : PChain σ V W} {M : FPipe S W σ}
    {A : Nat → List Nat × N → Bool → List Nat → Prop} {R : S → List (Nat × Tree (List Nat × N)) → Prop}
    (hM : M.Walks A (c.stepAt bad) R) (hA : ∀ {d x p}, A d x true p → p = x.1 ∧ p.length = d + 1)
    {f : τ → List O' → List Nat × W → τ × Option O'} {E : FEnd Q W O τ} {h : O' → O} {Good : List Nat → Prop}
    {Rel : Q → List (List Nat × W) × List (List O') → Prop} (hE : E.Sim (placeEndF f) h Good Rel)
    (hG : ∀ {d n p}, A d n true p → Good p) {s : S} {l : List (Nat × Tree (List Nat × N))} (hs : R s l) (w : σ) (t : τ) (k : Nat) :
    nthCallE (E.call M) k ((s, none), w, t) =
      .ok ((placeAnswers f t [] (FPipe.repliesP (c.placeAt bad) w l).1).map (Option.map h))[k]? := by
  have h1 := FEnd.calls_places f (hM.tag hA) k (l := l) (x := (s, none)) (w := w) (t := t) ⟨hs, by simp⟩
  have h2 := hE.calls hM hG k (x := (s, none)) (x' := (s, none)) ⟨rfl, ⟨l, hs⟩, rfl, by simp⟩ h1
  rw [h2, FEnd.pendPlaces, placeAt_eq, List.getElem?_map]
  rfl

/-- The trees of a binary collection. -/
def SlotTree (d : Nat) (t : Tree (List Nat × N)) : Prop :=
  ∃ (b : BinTree N) (p : List Nat), t = (b.addr p).toTree ∧ p.length = d + 1 ∧ SlotGood p

theorem slotTree_kids {d : Nat} {n : List Nat × N} {cs : List (Tree (List Nat × N))} (h : SlotTree d (.node n cs)) :
    ∀ c ∈ cs, SlotTree (d + 1) c := by
  obtain ⟨⟨a, l, r⟩, p, h1, h2, -⟩ := h
  rw [BinTree.addr, BinTree.toTree, Tree.node.injEq] at h1
  obtain ⟨-, rfl⟩ := h1
  intro c hc
  rcases List.mem_append.1 hc with hc | hc
  · cases l with
    | none => simp [BinTree.addrO, BinTree.slotTrees] at hc
    | some b =>
      simp only [BinTree.addrO, BinTree.slotTrees, List.mem_singleton] at hc
      exact ⟨b, p ++ [0], hc, by simp [h2], by simp [SlotGood]⟩
  · cases r with
    | none => simp [BinTree.addrO, BinTree.slotTrees] at hc
    | some b =>
      simp only [BinTree.addrO, BinTree.slotTrees, List.mem_singleton] at hc
      exact ⟨b, p ++ [1], hc, by simp [h2], by simp [SlotGood]⟩

theorem slotTree_good {d : Nat} {n : List Nat × N} {cs : List (Tree (List Nat × N))} (h : SlotTree d (.node n cs)) :
    SlotGood n.1 := by
  obtain ⟨⟨a, l, r⟩, p, h1, h2, h3⟩ := h
  rw [BinTree.addr, BinTree.toTree, Tree.node.injEq] at h1
  obtain ⟨rfl, -⟩ := h1
  exact h3

theorem slot_good {d : Nat} {n : List Nat × N} {p : List Nat}
    (h : FPipe.exactAt 1 d n true p ∧ ∃ cs, SlotTree d (.node n cs)) : SlotGood p := by
  obtain ⟨⟨rfl, -⟩, cs, h⟩ := h
  exact slotTree_good h

/-- The binary pipeline; `K` and `R` as in `Walks.restrict`. -/
theorem binColl_walks [BinNode N V] (bad : N → Bool) (c : PChain σ V W) :
    (c.binCollPipeF bad).Walks (fun d n b p => FPipe.exactAt 1 d n b p ∧ ∃ cs, SlotTree d (.node n cs)) (c.stepAt bad)
      (fun s l => Fail.CollPend (fun _ => True) (Fail.BinLocPend (N := N) 1) (fun n i => ((unfold2 n).addr [i]).toTree) s l ∧
        ∀ t ∈ l, SlotTree t.1 t.2) :=
  (binPipe_walks (Fail.binCollPipe_loc bad σ) (depthOf := Pipe.collDepth) (fun _ _ h => collDepth_length h) c).restrict
    fun h => slotTree_kids h

theorem binColl_new [BinNode N V] (ns : List N) :
    Fail.CollPend (fun _ => True) (Fail.BinLocPend (N := N) 1) (fun n i => ((unfold2 n).addr [i]).toTree) (CollPipe.State.new ns)
      ((ns.zipIdx.map fun x => ((unfold2 x.1).addr [x.2]).toTree).map fun t => (0, t)) ∧
    ∀ t ∈ ((ns.zipIdx.map fun x => ((unfold2 x.1).addr [x.2]).toTree).map fun t => (0, t)), SlotTree t.1 t.2 := by
  refine ⟨Fail.binCollPend_new ns, fun t ht => ?_⟩
  simp only [List.map_map, List.mem_map, Function.comp_def] at ht
  obtain ⟨x, -, rfl⟩ := ht
  exact ⟨unfold2 x.1, [x.2], rfl, rfl, by simp [SlotGood]⟩

/-- All calls of an end on a binary collection. -/
theorem bin_calls {Q : Type v'} [BinNode N V] (bad : N → Bool) (c : PChain σ V W)
    {f : τ → Option O × Option O → List Nat → W → τ × Option O} {E : FEnd Q W O τ}
    {stack : List W → List Nat → List (List (Nat × O)) → Q} {close : Nat → Q → τ → Except Panic (Option (O ⊕ Q) × τ)}
    {push : Nat → W → Q → Q} (hE : SlotEnd E f stack close push) (ns : List N) (w : σ) (t : τ) (k : Nat) :
    nthCallE (E.call (c.binCollPipeF bad)) k ((.new ns, none), w, t) =
      .ok ((placeAnswers (slotClosure f) t [] (c.binCollReplies bad ns w)).map (Option.map Prod.snd))[k]? := by
  rw [end_calls (binColl_walks bad c) (fun h => ⟨h.1.1, h.1.1 ▸ h.1.2⟩) hE.sim slot_good (binColl_new ns),
    CollEnd.repliesP_forest]
  rfl

/-- The same after some calls of `next` on the pipeline. -/
theorem bin_calls_advanced {Q : Type v'} [BinNode N V] (bad : N → Bool) (c : PChain σ V W)
    {f : τ → Option O × Option O → List Nat → W → τ × Option O} {E : FEnd Q W O τ}
    {stack : List W → List Nat → List (List (Nat × O)) → Q} {close : Nat → Q → τ → Except Panic (Option (O ⊕ Q) × τ)}
    {push : Nat → W → Q → Q} (hE : SlotEnd E f stack close push) (ns : List N) (w : σ) (t : τ) (j : Nat) :
    ∃ s w', stateAfterE (c.binCollPipeF bad).call j (.new ns, w) = .ok (s, w') ∧
      ∀ k, nthCallE (E.call (c.binCollPipeF bad)) k ((s, none), w', t) =
        .ok ((placeAnswers (slotClosure f) t [] ((c.binCollReplies bad ns w).drop j)).map (Option.map Prod.snd))[k]? := by
  have hA : ∀ {d : Nat} {x : List Nat × N} {p : List Nat}, (FPipe.exactAt 1 d x true p ∧ ∃ cs, SlotTree d (.node x cs)) →
      p = x.1 ∧ p.length = d + 1 := fun h => ⟨h.1.1, h.1.1 ▸ h.1.2⟩
  obtain ⟨s, w', l, h1, h2, h3⟩ := ((binColl_walks bad c).tag hA).afterLev j (w := w) (binColl_new ns)
  refine ⟨s, w', ?_, fun k => ?_⟩
  · rw [← h1]
    have : ∀ j x, stateAfterE (c.binCollPipeF bad).call j x = stateAfterE (c.binCollPipeF bad).tag.call j x := by
      intro j
      induction j with
      | zero => intro x; rfl
      | succ j ih =>
        intro x
        rw [stateAfterE, stateAfterE]
        simp only [FPipe.call, FPipe.tag]
        rcases (c.binCollPipeF bad).next x.1 x.2 with e | ⟨_ | o, s', w'⟩
        · rfl
        · exact ih _
        · exact ih _
    exact this _ _
  · rw [end_calls (binColl_walks bad c) hA hE.sim slot_good h2, ← placeAt_eq, h3, CollEnd.repliesP_forest]
    rw [placeAt_eq]
    rfl

end PChain

/-! ## Closures that do not panic -/

section
variable {W : Type u} {O : Type v}

theorem regroupAt_isSome (g : List (Nat × Nat × W)) (h : g ≠ []) : ∃ s, regroupAt g = some s := by
  cases g with
  | nil => exact absurd rfl h
  | cons x g => exact ⟨_, rfl⟩

theorem placeAnswers_total {f : Unit → List O → List Nat × W → Unit × Option O} (hf : ∀ t os x, (f t os x).2 ≠ none)
    (L : List (Option (Nat × Nat × W))) : ∀ g : List (Nat × Nat × W),
    placeAnswers f () g L = (batches g L).map (·.bind fun b => (regroupAt b).bind fun s => (s.foldF f ()).2) := by
  induction L with
  | nil =>
    intro g
    cases g with
    | nil => rfl
    | cons x g =>
      rw [placeAnswers, batches]
      obtain ⟨s, hs⟩ := regroupAt_isSome (x :: g) (by simp)
      simp [hs]
  | cons a L ih =>
    intro g
    cases a with
    | none =>
      rw [placeAnswers, ih]
      cases g <;> rfl
    | some x =>
      cases g with
      | nil =>
        rw [placeAnswers, batches, ← ih]
        rfl
      | cons y g =>
        obtain ⟨s, hs⟩ := regroupAt_isSome (y :: g) (by simp)
        have hd := foldDone_true (f := f) s (fun x _ => fun t os => hf t os x) x.1 ()
        rw [placeAnswers, batches]
        rcases e : s.foldDone f x.1 () with ⟨t', b⟩
        rw [e] at hd
        simp only at hd
        subst hd
        simp only [hs, e]
        split
        · rw [ih, List.map_cons]
          simp [hs]
        · exact ih _

theorem toSlots_fold (T : Tree (Nat × W)) : ∀ p : List Nat,
    (T.place p).foldF (slotClosure nodeClosure) () = ((), some T.toSlots) := by
  induction T using Tree.ind with
  | h x cs ih =>
    intro p
    have hL : ∀ ts : List (Tree (Nat × W)), (∀ t ∈ ts, ∀ p : List Nat,
        (t.place p).foldF (slotClosure nodeClosure) () = ((), some t.toSlots)) → ∀ p,
        Tree.foldFL (slotClosure nodeClosure) () (Tree.placeL p ts) = ((), some (Tree.toSlotsL ts)) := by
      intro ts
      induction ts with
      | nil => intro _ p; rfl
      | cons t ts ih2 =>
        intro h p
        rw [Tree.placeL, Tree.foldFL, h t (by simp)]
        simp only [ih2 (fun t ht => h t (by simp [ht])) p]
        rfl
    rw [Tree.place, Tree.foldF, hL cs ih]
    simp [slotClosure, nodeClosure, Tree.toSlots]

end

end TreeIter
