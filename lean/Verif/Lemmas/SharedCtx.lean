import Verif.Spec.SharedCtx

/-!
# Preorder contexts over nodes that share state: helper lemmas
-/

universe u v w x y

namespace TreeIter

namespace Shared

variable {W : Type x} {N : Type u} {V : Type v} {C : Type y} {I : Type w}

/-- The path segment of an iterator that has given `k` slots. -/
def seg (k : Nat) : Nat := (k + (2 ^ 64 - 1)) % 2 ^ 64

theorem seg_zero : seg 0 = usizeMax := rfl

theorem seg_succ (k : Nat) : seg (k + 1) = k % 2 ^ 64 := by
  simp only [seg]
  omega

theorem wrapSucc_seg (k : Nat) : wrapSucc (seg k) = seg (k + 1) := by
  simp only [seg, wrapSucc]
  omega

def segs (fs : List (Nat × I)) : List Nat := fs.map fun f => seg f.1

/-- The visitor, with the calls under way on a stack. -/
inductive RunCtx [CtxNode W N V C I] (body : CtxBody W V C) : List (Nat × I) → List V → W → Ending W → Prop
  | ended {as : List V} {w : W} : RunCtx body [] as w (.ended w)
  | done {k : Nat} {i i' : I} {fs : List (Nat × I)} {as : List V} {w w1 : W} {r : Ending W} :
      pollC (N := N) i w = (none, i', w1) → RunCtx body fs as.tail w1 r → RunCtx body ((k, i) :: fs) as w r
  | empty {k : Nat} {i i' : I} {fs : List (Nat × I)} {as : List V} {w w1 : W} {r : Ending W} :
      pollC (N := N) i w = (some none, i', w1) → RunCtx body ((k + 1, i') :: fs) as w1 r → RunCtx body ((k, i) :: fs) as w r
  | halt {k : Nat} {i i' : I} {fs : List (Nat × I)} {d : N} {as as1 : List V} {v : V} {c c1 : C} {w w1 w2 w3 : W} :
      pollC i w = (some (some d), i', w1) → splitC d w1 = (v, c, w2) →
      body (segs ((k + 1, i') :: fs)).reverse (v :: as).reverse c w2 = (false, as1, c1, w3) →
      RunCtx body ((k, i) :: fs) as w (.broke w3)
  | child {k : Nat} {i i' j : I} {fs : List (Nat × I)} {d : N} {as as1 : List V} {v : V} {c c1 : C} {w w1 w2 w3 w4 : W}
      {r : Ending W} : pollC i w = (some (some d), i', w1) → splitC d w1 = (v, c, w2) →
      body (segs ((k + 1, i') :: fs)).reverse (v :: as).reverse c w2 = (true, as1, c1, w3) →
      intoC (N := N) c1 w3 = (j, w4) → RunCtx body ((0, j) :: (k + 1, i') :: fs) as1.reverse w4 r →
      RunCtx body ((k, i) :: fs) as w r

theorem run_no_panic [CtxNode W N V C I] {body : CtxBody W V C} {fs : List (Nat × I)} {as : List V} {w : W} {r : Ending W}
    (h : RunCtx (N := N) body fs as w r) : r ≠ .panicked := by
  induction h with
  | ended => exact nofun
  | done _ _ ih => exact ih
  | empty _ _ ih => exact ih
  | halt => exact nofun
  | child _ _ _ _ _ ih => exact ih

/-! ## The two visitors -/

/-- The calls under way, one after the other. -/
def EachCtx (N : Type u) [CtxNode W N V C I] (body : CtxBody W V C) : List (Nat × I) → List V → W → Ending W → Prop
  | [], _, w, r => r = .ended w
  | f :: fs, as, w, r =>
    (∃ w', r = .broke w' ∧ VisitCtx (N := N) body (.rest (segs fs) f.1 f.2) as w (.broke w')) ∨
      ∃ as1 w1, VisitCtx (N := N) body (.rest (segs fs) f.1 f.2) as w (.through as1 w1) ∧ EachCtx N body fs as1 w1 r

theorem eachCtx_of_run [CtxNode W N V C I] {body : CtxBody W V C} {fs : List (Nat × I)} {as : List V} {w : W} {r : Ending W}
    (h : RunCtx (N := N) body fs as w r) : EachCtx N body fs as w r := by
  induction h with
  | ended => rfl
  | done h1 _ ih => exact .inr ⟨_, _, .done h1, ih⟩
  | empty h1 _ ih =>
    rcases ih with ⟨w', rfl, hv⟩ | ⟨as1, w1, hv, he⟩
    · exact .inl ⟨w', rfl, .empty h1 hv⟩
    · exact .inr ⟨as1, w1, .empty h1 hv, he⟩
  | halt h1 h2 h3 =>
    simp only [segs, List.map_cons, seg_succ] at h3
    exact .inl ⟨_, rfl, .stop h1 (.halt h2 h3)⟩
  | child h1 h2 h3 h4 _ ih =>
    simp only [segs, List.map_cons, seg_succ] at h3
    rcases ih with ⟨w', rfl, hv⟩ | ⟨as1, w1, hv, ⟨w', rfl, hv'⟩ | ⟨as2, w2, hv', he⟩⟩
    · simp only [segs, List.map_cons, seg_succ] at hv
      exact .inl ⟨w', rfl, .stop h1 (.node h2 h3 h4 hv)⟩
    · simp only [segs, List.map_cons, seg_succ] at hv
      exact .inl ⟨w', rfl, .child h1 (.node h2 h3 h4 hv) hv'⟩
    · simp only [segs, List.map_cons, seg_succ] at hv
      exact .inr ⟨as2, w2, .child h1 (.node h2 h3 h4 hv) hv', he⟩

/-- A step to a node when the calls under way are `fs`. -/
def AtNode [CtxNode W N V C I] (body : CtxBody W V C) (fs : List (Nat × I)) (n : N) (as : List V) (w : W) (r : Ending W) :
    Prop :=
  ∃ v c w1, splitC n w = (v, c, w1) ∧
    ((∃ as1 c1 w2, body (segs fs).reverse (v :: as).reverse c w1 = (false, as1, c1, w2) ∧ r = .broke w2) ∨
      ∃ as1 c1 w2 j w3, body (segs fs).reverse (v :: as).reverse c w1 = (true, as1, c1, w2) ∧
        intoC (N := N) c1 w2 = (j, w3) ∧ RunCtx (N := N) body ((0, j) :: fs) as1.reverse w3 r)

theorem run_of_atNode [CtxNode W N V C I] {body : CtxBody W V C} {k : Nat} {i i' : I} {fs : List (Nat × I)} {d : N}
    {as : List V} {w w1 : W} {r : Ending W} (h1 : pollC i w = (some (some d), i', w1))
    (h : AtNode body ((k + 1, i') :: fs) d as w1 r) : RunCtx (N := N) body ((k, i) :: fs) as w r := by
  obtain ⟨v, c, w2, h2, ⟨as1, c1, w3, h3, rfl⟩ | ⟨as1, c1, w3, j, w4, h3, h4, h5⟩⟩ := h
  · exact .halt h1 h2 h3
  · exact .child h1 h2 h3 h4 h5

/-- What comes of a visit when the calls under way are `fs`. -/
def After (N : Type u) [CtxNode W N V C I] (body : CtxBody W V C) (fs : List (Nat × I)) (P : Ending W → Prop) : Outcome W V → Prop
  | .broke w' => P (.broke w')
  | .through as w' => ∀ r, RunCtx (N := N) body fs as w' r → P r

/-- Visiting leads from what is visited to what comes after it. -/
def LeadsCtx [CtxNode W N V C I] (body : CtxBody W V C) : CtxTask N I → List V → W → Outcome W V → Prop
  | .rest path k i, as, w, e => ∀ fs : List (Nat × I), segs fs = path →
      After N body fs (RunCtx (N := N) body ((k, i) :: fs) as w) e
  | .node path n, as, w, e => ∀ fs : List (Nat × I), segs fs = path → After N body fs (AtNode body fs n as w) e

theorem After.mono [CtxNode W N V C I] {body : CtxBody W V C} {fs : List (Nat × I)} {P Q : Ending W → Prop}
    (h : ∀ r, P r → Q r) {e : Outcome W V} (he : After N body fs P e) : After N body fs Q e := by
  cases e with
  | broke => exact h _ he
  | through => exact fun r hr => h r (he r hr)

theorem leadsCtx_of_visit [CtxNode W N V C I] {body : CtxBody W V C} {t : CtxTask N I} {as : List V} {w : W} {e : Outcome W V}
    (h : VisitCtx body t as w e) : LeadsCtx body t as w e := by
  induction h with
  | halt h1 h2 =>
    rintro fs rfl
    exact ⟨_, _, _, h1, .inl ⟨_, _, _, h2, rfl⟩⟩
  | node h1 h2 h3 _ ih =>
    rintro fs rfl
    exact (ih fs rfl).mono fun r hr => ⟨_, _, _, h1, .inr ⟨_, _, _, _, _, h2, h3, hr⟩⟩
  | done h1 =>
    rintro fs rfl
    exact fun r hr => .done h1 hr
  | empty h1 _ ih =>
    rintro fs rfl
    exact (ih fs rfl).mono fun r hr => .empty h1 hr
  | @stop path k i i' d as w w1 w2 h1 _ ih =>
    rintro fs rfl
    exact run_of_atNode h1 (ih ((k + 1, i') :: fs) (by simp [segs, seg_succ]))
  | @child path k i i' d as as1 w w1 w2 e h1 _ _ ih1 ih2 =>
    rintro fs rfl
    have h := ih1 ((k + 1, i') :: fs) (by simp [segs, seg_succ])
    exact (ih2 fs rfl).mono fun r hr => run_of_atNode h1 (h r hr)

/-- A visit of a tree is a run from its root. -/
theorem visitTree_iff [CtxNode W N V C I] {body : CtxBody W V C} {n : N} {w : W} {r : Ending W} :
    VisitTreeCtx body n w r ↔ AtNode body [] n [] w r := by
  constructor
  · intro h
    cases r with
    | panicked => exact h.elim
    | broke w' => exact leadsCtx_of_visit h [] rfl
    | ended w' =>
      obtain ⟨as, h⟩ := h
      exact leadsCtx_of_visit h [] rfl _ .ended
  · rintro ⟨v, c, w1, h1, ⟨as1, c1, w2, h2, rfl⟩ | ⟨as1, c1, w2, j, w3, h2, h3, h4⟩⟩
    · exact .halt h1 h2
    · rcases eachCtx_of_run h4 with ⟨w', rfl, hv⟩ | ⟨as2, w4, hv, rfl⟩
      · exact .node h1 h2 h3 hv
      · exact ⟨as2, .node h1 h2 h3 hv⟩

/-! ## The loop -/

/-- What follows when the next node has been looked for. -/
def ctxThen [CtxNode W N V C I] (fuel : Nat) (body : CtxBody W V C) (k : Nat) :
    Option (Except Panic (Option N × List I × List Nat × List V × W)) → Option (Ending W)
  | none => none
  | some (.error _) => some .panicked
  | some (.ok (none, _, _, _, w)) => some (.ended w)
  | some (.ok (some n, st, path, anc, w)) =>
    match splitC n w with
    | (v, c, w) =>
      match body path.reverse (v :: anc).reverse c w with
      | (false, _, _, w) => some (.broke w)
      | (true, as, c, w) => ctxWhile (N := N) fuel body k ⟨none, st, path, as.reverse, some c⟩ w

theorem ctxWhile_new [CtxNode W N V C I] (fuel : Nat) (body : CtxBody W V C) (k : Nat) (n : N) (w : W) :
    ctxWhile fuel body (k + 1) (PreCtx.new (I := I) n) w = ctxThen fuel body k (some (.ok (some n, [], [], [], w))) := by
  simp [ctxWhile, preCtxAdvance, PreCtx.new, ctxThen]
  rfl

theorem ctxWhile_mid [CtxNode W N V C I] (fuel : Nat) (body : CtxBody W V C) (k : Nat) (st : List I) (path : List Nat)
    (as : List V) (c : C) (w : W) (j : I) (w' : W) (has : as ≠ []) (hj : intoC (N := N) c w = (j, w')) :
    ctxWhile (N := N) fuel body (k + 1) ⟨none, st, path, as, some c⟩ w =
      ctxThen fuel body k (preCtxLoop (N := N) fuel (j :: st) (usizeMax :: path) as w') := by
  have he : as.isEmpty = false := by cases as <;> simp_all
  rw [ctxWhile]
  simp only [preCtxAdvance, he, hj, Bool.false_eq_true, if_false]
  rcases preCtxLoop (N := N) fuel (j :: st) (usizeMax :: path) as w' with _ | _ | ⟨_ | n, st', path', anc, w2⟩
  · rfl
  · rfl
  · simp [ctxThen, preCtxFinish]
  · simp [ctxThen, preCtxFinish]
    rfl

theorem ctx_frames_step [CtxNode W N V C I] {body : CtxBody W V C}
    (hlen : ∀ p as c w, (body p as c w).2.1.length = as.length) (fuel k : Nat)
    (H : ∀ k', k = k' + 1 → ∀ f (fs : List (Nat × I)) as w r,
      ctxThen fuel body k' (preCtxLoop (N := N) f (fs.map Prod.snd) (segs fs) as w) = some r →
        RunCtx (N := N) body fs as w r) :
    (∀ (fs : List (Nat × I)) (n : N) as w r,
      ctxThen fuel body k (some (.ok (some n, fs.map Prod.snd, segs fs, as, w))) = some r → AtNode body fs n as w r) ∧
    ∀ f (fs : List (Nat × I)) as w r,
      ctxThen fuel body k (preCtxLoop (N := N) f (fs.map Prod.snd) (segs fs) as w) = some r →
        RunCtx (N := N) body fs as w r := by
  have hnode : ∀ (fs : List (Nat × I)) (n : N) as w r,
      ctxThen fuel body k (some (.ok (some n, fs.map Prod.snd, segs fs, as, w))) = some r → AtNode body fs n as w r := by
    intro fs n as w r h
    rcases hs : splitC (I := I) n w with ⟨v, c, w1⟩
    simp only [ctxThen, hs] at h
    rcases hb : body (segs fs).reverse (v :: as).reverse c w1 with ⟨_ | _, as1, c1, w2⟩
    · simp only [hb, Option.some.injEq] at h
      exact ⟨v, c, w1, hs, .inl ⟨as1, c1, w2, hb, h.symm⟩⟩
    · simp only [hb] at h
      rcases hj : intoC (N := N) c1 w2 with ⟨j, w3⟩
      have hl := hlen (segs fs).reverse (v :: as).reverse c w1
      rw [hb] at hl
      have hne : as1.reverse ≠ [] := by
        intro he
        simp only [List.reverse_eq_nil_iff] at he
        subst he
        simp at hl
      cases k with
      | zero => simp [ctxWhile] at h
      | succ k =>
        rw [ctxWhile_mid fuel body k _ _ _ _ _ j w3 hne hj, ← seg_zero] at h
        exact ⟨v, c, w1, hs, .inr ⟨as1, c1, w2, j, w3, hb, hj, H k rfl fuel ((0, j) :: fs) as1.reverse w3 r h⟩⟩
  refine ⟨hnode, fun f => ?_⟩
  induction f with
  | zero => intro fs as w r h; simp [preCtxLoop, ctxThen] at h
  | succ f ih =>
    intro fs as w r h
    cases fs with
    | nil =>
      simp only [List.map_nil, preCtxLoop, ctxThen, Option.some.injEq] at h
      subst h
      exact .ended
    | cons g fs =>
      obtain ⟨m, i⟩ := g
      simp only [List.map_cons, segs, preCtxLoop] at h
      rcases hp : pollC (N := N) i w with ⟨_ | _ | d, i', w1⟩
      · simp only [hp, List.tail_cons] at h
        exact .done hp (ih fs as.tail w1 r h)
      · simp only [hp, wrapSucc_seg] at h
        exact .empty hp (ih ((m + 1, i') :: fs) as w1 r h)
      · simp only [hp, wrapSucc_seg] at h
        exact run_of_atNode hp (hnode ((m + 1, i') :: fs) d as w1 r h)

theorem ctx_frames_all [CtxNode W N V C I] {body : CtxBody W V C}
    (hlen : ∀ p as c w, (body p as c w).2.1.length = as.length) (fuel k : Nat) :
    (∀ (fs : List (Nat × I)) (n : N) as w r,
      ctxThen fuel body k (some (.ok (some n, fs.map Prod.snd, segs fs, as, w))) = some r → AtNode body fs n as w r) ∧
    ∀ f (fs : List (Nat × I)) as w r,
      ctxThen fuel body k (preCtxLoop (N := N) f (fs.map Prod.snd) (segs fs) as w) = some r →
        RunCtx (N := N) body fs as w r := by
  induction k with
  | zero => exact ctx_frames_step hlen fuel 0 fun _ h => by cases h
  | succ k ih => exact ctx_frames_step hlen fuel (k + 1) fun k' h => by cases h; exact ih.2

/-! ## Monotonicity -/

theorem preCtxLoop_mono [CtxNode W N V C I] (fuel : Nat) : ∀ (st : List I) (path : List Nat) (as : List V) (w : W) r,
    preCtxLoop (N := N) fuel st path as w = some r → preCtxLoop (N := N) (fuel + 1) st path as w = some r := by
  induction fuel with
  | zero => intro st path as w r h; simp [preCtxLoop] at h
  | succ fuel ih =>
    intro st path as w r h
    cases st with
    | nil => exact h
    | cons i rest =>
      rw [preCtxLoop] at h ⊢
      rcases hp : pollC (N := N) i w with ⟨_ | _ | d, i', w1⟩
      · simp only [hp] at h ⊢
        exact ih _ _ _ _ _ h
      · simp only [hp] at h ⊢
        cases path with
        | nil => exact h
        | cons p path => exact ih _ _ _ _ _ h
      · simp only [hp] at h ⊢
        exact h

theorem preCtxAdvance_mono [CtxNode W N V C I] {fuel : Nat} {s : PreCtx N V C I} {w : W} {r}
    (h : preCtxAdvance fuel s w = some r) : preCtxAdvance (fuel + 1) s w = some r := by
  obtain ⟨root, st, path, as, ch⟩ := s
  cases root with
  | some n => exact h
  | none =>
    simp only [preCtxAdvance] at h ⊢
    split
    · rename_i he
      simpa only [he, if_true] using h
    · rename_i he
      simp only [he, Bool.false_eq_true, if_false] at h
      cases ch with
      | none =>
        simp only at h ⊢
        rcases hl : preCtxLoop (N := N) fuel st (if path.head? = some usizeMax then path.tail else path) as.tail w with _ | y
        · simp [hl] at h
        · rw [preCtxLoop_mono _ _ _ _ _ _ hl]
          simpa only [hl] using h
      | some c =>
        simp only at h ⊢
        rcases hl : preCtxLoop (N := N) fuel ((intoC (N := N) c w).1 :: st) (usizeMax :: path) as (intoC (N := N) c w).2 with _ | y
        · simp [hl] at h
        · rw [preCtxLoop_mono _ _ _ _ _ _ hl]
          simpa only [hl] using h

theorem ctxWhile_mono [CtxNode W N V C I] {fuel : Nat} {body : CtxBody W V C} (k : Nat) : ∀ (s : PreCtx N V C I) (w : W) r,
    ctxWhile fuel body k s w = some r → ctxWhile (fuel + 1) body k s w = some r := by
  induction k with
  | zero => intro s w r h; simp [ctxWhile] at h
  | succ k ih =>
    intro s w r h
    rw [ctxWhile] at h ⊢
    rcases ha : preCtxAdvance fuel s w with _ | y
    · simp [ha] at h
    · rw [preCtxAdvance_mono ha]
      simp only [ha] at h
      rcases y with e | ⟨s1, w1⟩
      · exact h
      · simp only at h ⊢
        split
        · rename_i he
          simpa only [he, if_true] using h
        · rename_i he
          simp only [he, Bool.false_eq_true, if_false] at h
          cases hc : s1.children with
          | none => simpa only [hc] using h
          | some c =>
            simp only [hc] at h ⊢
            rcases hb : body s1.path.reverse s1.ancestors.reverse c w1 with ⟨_ | _, as1, c1, w2⟩
            · simpa only [hb] using h
            · simp only [hb] at h ⊢
              exact ih _ _ _ h

theorem ctxThen_mono [CtxNode W N V C I] {fuel : Nat} {body : CtxBody W V C} {k : Nat}
    {x x' : Option (Except Panic (Option N × List I × List Nat × List V × W))} (hx : ∀ y, x = some y → x' = some y) {r}
    (h : ctxThen fuel body k x = some r) : ctxThen (fuel + 1) body k x' = some r := by
  cases x with
  | none => simp [ctxThen] at h
  | some y =>
    rw [hx y rfl]
    rcases y with e | ⟨_ | n, st, path, anc, w⟩
    · exact h
    · exact h
    · simp only [ctxThen] at h ⊢
      rcases hb : body path.reverse ((splitC (I := I) n w).1 :: anc).reverse (splitC (I := I) n w).2.1 (splitC (I := I) n w).2.2
        with ⟨_ | _, as1, c1, w2⟩
      · simpa only [hb] using h
      · simp only [hb] at h ⊢
        exact ctxWhile_mono _ _ _ _ h

theorem ctx_node [CtxNode W N V C I] {body : CtxBody W V C} (hlen : ∀ p as c w, (body p as c w).2.1.length = as.length)
    {fs : List (Nat × I)} {n : N} {as as1 : List V} {v : V} {c c1 : C} {j : I} {w w1 w2 w3 : W} {r : Ending W} {fuel k : Nat}
    (h2 : splitC n w = (v, c, w1)) (h3 : body (segs fs).reverse (v :: as).reverse c w1 = (true, as1, c1, w2))
    (h4 : intoC (N := N) c1 w2 = (j, w3))
    (hk : ctxThen fuel body k (preCtxLoop (N := N) fuel (((0, j) :: fs).map Prod.snd) (segs ((0, j) :: fs)) as1.reverse w3) =
      some r) :
    ctxThen fuel body (k + 1) (some (.ok (some n, fs.map Prod.snd, segs fs, as, w))) = some r := by
  have hl := hlen (segs fs).reverse (v :: as).reverse c w1
  rw [h3] at hl
  have hne : as1.reverse ≠ [] := by
    intro he
    simp only [List.reverse_eq_nil_iff] at he
    subst he
    simp at hl
  simp only [ctxThen, h2, h3]
  rw [ctxWhile_mid fuel body k _ _ _ _ _ j w3 hne h4, ← seg_zero]
  exact hk

theorem ctx_loop [CtxNode W N V C I] {body : CtxBody W V C} (hlen : ∀ p as c w, (body p as c w).2.1.length = as.length)
    {fs : List (Nat × I)} {as : List V} {w : W} {r : Ending W} (h : RunCtx (N := N) body fs as w r) :
    ∃ fuel k, ctxThen fuel body k (preCtxLoop (N := N) fuel (fs.map Prod.snd) (segs fs) as w) = some r := by
  induction h with
  | ended => exact ⟨1, 0, rfl⟩
  | @done k i i' fs as w w1 r h1 _ ih =>
    obtain ⟨fuel, m, hk⟩ := ih
    refine ⟨fuel + 1, m, ?_⟩
    simp only [List.map_cons, segs, preCtxLoop, h1, List.tail_cons]
    exact ctxThen_mono (fun y hy => hy) hk
  | @empty k i i' fs as w w1 r h1 _ ih =>
    obtain ⟨fuel, m, hk⟩ := ih
    refine ⟨fuel + 1, m, ?_⟩
    simp only [List.map_cons, segs, preCtxLoop, h1, wrapSucc_seg]
    exact ctxThen_mono (fun y hy => hy) hk
  | @halt k i i' fs d as as1 v c c1 w w1 w2 w3 h1 h2 h3 =>
    refine ⟨1, 0, ?_⟩
    simp only [segs, List.map_cons] at h3
    simp only [List.map_cons, segs, preCtxLoop, h1, wrapSucc_seg, ctxThen, h2, h3]
  | @child k i i' j fs d as as1 v c c1 w w1 w2 w3 w4 r h1 h2 h3 h4 _ ih =>
    obtain ⟨fuel, m, hk⟩ := ih
    refine ⟨fuel + 1, m + 1, ?_⟩
    have := ctx_node hlen h2 h3 h4 hk
    simp only [List.map_cons, segs, preCtxLoop, h1, wrapSucc_seg]
    exact ctxThen_mono (fun y hy => hy) this

end Shared

end TreeIter
