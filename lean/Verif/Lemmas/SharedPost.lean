import Verif.Spec.SharedPost
import Verif.Lemmas.SharedCtx

/-!
# Postorder contexts over nodes that share state: helper lemmas
-/

universe u v w x y

namespace TreeIter

namespace Shared

variable {W : Type x} {N : Type u} {V : Type v} {C : Type y} {I : Type w}

/-- A call of the visitor that is under way: how many slots it has seen, the children, and the rest of them. -/
structure PFrame (C : Type y) (I : Type w) where
  seen : Nat
  kids : C
  iter : I

def psegs (fs : List (PFrame C I)) : List Nat := fs.map fun f => seg f.seen

/-- The visitor, with the calls under way on a stack. -/
inductive RunPost (N : Type u) [CtxNode W N V C I] (keep : Bool) (body : PostBody W V C) :
    List (PFrame C I) → List V → W → Ending W → Prop
  | ended {as : List V} {w : W} : RunPost N keep body [] as w (.ended w)
  | halt {k : Nat} {c : C} {i i' : I} {fs : List (PFrame C I)} {as as1 : List V} {ch : Option C} {w w1 w2 : W} :
      pollC (N := N) i w = (none, i', w1) →
      body (psegs fs).reverse as.reverse (if keep then some c else none) w1 = (false, as1, ch, w2) →
      RunPost N keep body (⟨k, c, i⟩ :: fs) as w (.broke w2)
  | done {k : Nat} {c : C} {i i' : I} {fs : List (PFrame C I)} {as as1 : List V} {ch : Option C} {w w1 w2 : W} {r : Ending W} :
      pollC (N := N) i w = (none, i', w1) →
      body (psegs fs).reverse as.reverse (if keep then some c else none) w1 = (true, as1, ch, w2) →
      RunPost N keep body fs as1.reverse.tail w2 r → RunPost N keep body (⟨k, c, i⟩ :: fs) as w r
  | empty {k : Nat} {c : C} {i i' : I} {fs : List (PFrame C I)} {as : List V} {w w1 : W} {r : Ending W} :
      pollC (N := N) i w = (some none, i', w1) → RunPost N keep body (⟨k + 1, c, i'⟩ :: fs) as w1 r →
      RunPost N keep body (⟨k, c, i⟩ :: fs) as w r
  | child {k : Nat} {c c' : C} {i i' j : I} {fs : List (PFrame C I)} {d : N} {as : List V} {v : V} {w w1 w2 w3 : W}
      {r : Ending W} : pollC i w = (some (some d), i', w1) → splitC d w1 = (v, c', w2) →
      intoC (N := N) c' w2 = (j, w3) → RunPost N keep body (⟨0, c', j⟩ :: ⟨k + 1, c, i'⟩ :: fs) (v :: as) w3 r →
      RunPost N keep body (⟨k, c, i⟩ :: fs) as w r

/-- The calls under way, one after the other. -/
def EachPost (N : Type u) [CtxNode W N V C I] (keep : Bool) (body : PostBody W V C) :
    List (PFrame C I) → List V → W → Ending W → Prop
  | [], _, w, r => r = .ended w
  | f :: fs, as, w, r =>
    (∃ w', r = .broke w' ∧ VisitPost (N := N) keep body (.rest (psegs fs) f.kids f.seen f.iter) as w (.broke w')) ∨
      ∃ as1 w1, VisitPost (N := N) keep body (.rest (psegs fs) f.kids f.seen f.iter) as w (.through as1 w1) ∧
        EachPost N keep body fs as1 w1 r

theorem eachPost_of_run [CtxNode W N V C I] {keep : Bool} {body : PostBody W V C} {fs : List (PFrame C I)} {as : List V} {w : W}
    {r : Ending W} (h : RunPost N keep body fs as w r) : EachPost N keep body fs as w r := by
  induction h with
  | ended => rfl
  | halt h1 h2 => exact .inl ⟨_, rfl, .halt h1 h2⟩
  | done h1 h2 _ ih => exact .inr ⟨_, _, .done h1 h2, ih⟩
  | empty h1 _ ih =>
    rcases ih with ⟨w', rfl, hv⟩ | ⟨as1, w1, hv, he⟩
    · exact .inl ⟨w', rfl, .empty h1 hv⟩
    · exact .inr ⟨as1, w1, .empty h1 hv, he⟩
  | child h1 h2 h3 _ ih =>
    rcases ih with ⟨w', rfl, hv⟩ | ⟨as1, w1, hv, ⟨w', rfl, hv'⟩ | ⟨as2, w2, hv', he⟩⟩
    · simp only [psegs, List.map_cons, seg_succ] at hv
      exact .inl ⟨w', rfl, .stop h1 (.node h2 h3 hv)⟩
    · simp only [psegs, List.map_cons, seg_succ] at hv
      exact .inl ⟨w', rfl, .child h1 (.node h2 h3 hv) hv'⟩
    · simp only [psegs, List.map_cons, seg_succ] at hv
      exact .inr ⟨as2, w2, .child h1 (.node h2 h3 hv) hv', he⟩

/-- A step to a node when the calls under way are `fs`. -/
def AtPost [CtxNode W N V C I] (keep : Bool) (body : PostBody W V C) (fs : List (PFrame C I)) (n : N) (as : List V) (w : W)
    (r : Ending W) : Prop :=
  ∃ v c w1 j w2, splitC n w = (v, c, w1) ∧ intoC (N := N) c w1 = (j, w2) ∧
    RunPost N keep body (⟨0, c, j⟩ :: fs) (v :: as) w2 r

/-- What comes of a visit when the calls under way are `fs`. -/
def AfterPost (N : Type u) [CtxNode W N V C I] (keep : Bool) (body : PostBody W V C) (fs : List (PFrame C I))
    (P : Ending W → Prop) : Outcome W V → Prop
  | .broke w' => P (.broke w')
  | .through as w' => ∀ r, RunPost N keep body fs as w' r → P r

theorem AfterPost.mono [CtxNode W N V C I] {keep : Bool} {body : PostBody W V C} {fs : List (PFrame C I)}
    {P Q : Ending W → Prop} (h : ∀ r, P r → Q r) {e : Outcome W V} (he : AfterPost N keep body fs P e) :
    AfterPost N keep body fs Q e := by
  cases e with
  | broke => exact h _ he
  | through => exact fun r hr => h r (he r hr)

/-- Visiting leads from what is visited to what comes after it. -/
def LeadsPost [CtxNode W N V C I] (keep : Bool) (body : PostBody W V C) : PostTask N C I → List V → W → Outcome W V → Prop
  | .rest path c k i, as, w, e => ∀ fs : List (PFrame C I), psegs fs = path →
      AfterPost N keep body fs (RunPost N keep body (⟨k, c, i⟩ :: fs) as w) e
  | .node path n, as, w, e => ∀ fs : List (PFrame C I), psegs fs = path →
      AfterPost N keep body fs (AtPost keep body fs n as w) e

theorem leadsPost_of_visit [CtxNode W N V C I] {keep : Bool} {body : PostBody W V C} {t : PostTask N C I} {as : List V} {w : W}
    {e : Outcome W V} (h : VisitPost keep body t as w e) : LeadsPost keep body t as w e := by
  induction h with
  | node h1 h2 _ ih =>
    rintro fs rfl
    exact (ih fs rfl).mono fun r hr => ⟨_, _, _, _, _, h1, h2, hr⟩
  | halt h1 h2 =>
    rintro fs rfl
    exact .halt h1 h2
  | done h1 h2 =>
    rintro fs rfl
    exact fun r hr => .done h1 h2 hr
  | empty h1 _ ih =>
    rintro fs rfl
    exact (ih fs rfl).mono fun r hr => .empty h1 hr
  | @stop path c k i i' d as w w1 w2 h1 _ ih =>
    rintro fs rfl
    obtain ⟨v, c', w3, j, w4, h2, h3, h4⟩ := ih (⟨k + 1, c, i'⟩ :: fs) (by simp [psegs, seg_succ])
    exact .child h1 h2 h3 h4
  | @child path c k i i' d as as1 w w1 w2 e h1 _ _ ih1 ih2 =>
    rintro fs rfl
    have h := ih1 (⟨k + 1, c, i'⟩ :: fs) (by simp [psegs, seg_succ])
    refine (ih2 fs rfl).mono fun r hr => ?_
    obtain ⟨v, c', w3, j, w4, h2, h3, h4⟩ := h r hr
    exact .child h1 h2 h3 h4

/-- A visit of a tree is a run from its root. -/
theorem visitTreePost_iff [CtxNode W N V C I] {keep : Bool} {body : PostBody W V C} {n : N} {w : W} {r : Ending W} :
    VisitTreePost keep body n w r ↔ AtPost keep body [] n [] w r := by
  constructor
  · intro h
    cases r with
    | panicked => exact h.elim
    | broke w' => exact leadsPost_of_visit h [] rfl
    | ended w' =>
      obtain ⟨as, h⟩ := h
      exact leadsPost_of_visit h [] rfl _ .ended
  · rintro ⟨v, c, w1, j, w2, h1, h2, h3⟩
    rcases eachPost_of_run h3 with ⟨w', rfl, hv⟩ | ⟨as2, w4, hv, rfl⟩
    · exact .node h1 h2 hv
    · exact ⟨as2, .node h1 h2 hv⟩

/-! ## The loop -/

/-- The children kept for the calls under way. -/
def kept (keep : Bool) (fs : List (PFrame C I)) : List C := if keep then fs.map PFrame.kids else []

theorem kept_cons (keep : Bool) (f : PFrame C I) (fs : List (PFrame C I)) :
    kept keep (f :: fs) = if keep then f.kids :: kept keep fs else kept keep fs := by
  cases keep <;> rfl

/-- The loop from calls under way. -/
def loopAt (N : Type u) [CtxNode W N V C I] (keep : Bool) (f : Nat) (fs : List (PFrame C I)) (as : List V) (w : W) :
    Option (Except Panic (PostCtx N V C I × W)) :=
  postCtxLoop keep f (fs.map PFrame.iter) (kept keep fs) (psegs fs) as w

theorem loopAt_done [CtxNode W N V C I] {keep : Bool} {f : Nat} {k : Nat} {c : C} {i i' : I} {fs : List (PFrame C I)}
    {as : List V} {w w1 : W} (h : pollC (N := N) i w = (none, i', w1)) :
    loopAt N keep (f + 1) (⟨k, c, i⟩ :: fs) as w =
      some (.ok (⟨none, fs.map PFrame.iter, kept keep fs, psegs fs, as, if keep then some c else none⟩, w1)) := by
  simp only [loopAt, List.map_cons, psegs, postCtxLoop, h, List.tail_cons, kept_cons]
  cases keep <;> rfl

theorem loopAt_empty [CtxNode W N V C I] {keep : Bool} {f : Nat} {k : Nat} {c : C} {i i' : I} {fs : List (PFrame C I)}
    {as : List V} {w w1 : W} (h : pollC (N := N) i w = (some none, i', w1)) :
    loopAt N keep (f + 1) (⟨k, c, i⟩ :: fs) as w = loopAt N keep f (⟨k + 1, c, i'⟩ :: fs) as w1 := by
  simp only [loopAt, List.map_cons, psegs, postCtxLoop, h, wrapSucc_seg, kept_cons]

theorem loopAt_child [CtxNode W N V C I] {keep : Bool} {f : Nat} {k : Nat} {c c' : C} {i i' j : I} {fs : List (PFrame C I)}
    {d : N} {v : V} {as : List V} {w w1 w2 w3 : W} (h : pollC i w = (some (some d), i', w1)) (h2 : splitC d w1 = (v, c', w2))
    (h3 : intoC (N := N) c' w2 = (j, w3)) :
    loopAt N keep (f + 1) (⟨k, c, i⟩ :: fs) as w = loopAt N keep f (⟨0, c', j⟩ :: ⟨k + 1, c, i'⟩ :: fs) (v :: as) w3 := by
  simp only [loopAt, List.map_cons, psegs, postCtxLoop, h, wrapSucc_seg, h2, h3, kept_cons, seg_zero]

theorem postWhile_new [CtxNode W N V C I] {keep : Bool} {fuel : Nat} {body : PostBody W V C} {k : Nat} {n : N} {v : V} {c : C}
    {j : I} {w w1 w2 : W} (h1 : splitC n w = (v, c, w1)) (h2 : intoC (N := N) c w1 = (j, w2)) :
    postWhile keep fuel body (k + 1) (PostCtx.new (I := I) n) w =
      ctxConclude (postWhile keep fuel body k) body (loopAt N keep fuel [⟨0, c, j⟩] [v] w2) := by
  simp only [postWhile, postCtxAdvance, PostCtx.new, h1, h2, loopAt, List.map_cons, List.map_nil, psegs, seg_zero, kept_cons]
  cases keep <;> rfl

/-- The loop after the body has been called for a node. -/
theorem postWhile_mid [CtxNode W N V C I] {keep : Bool} {fuel : Nat} {body : PostBody W V C} {k : Nat}
    {fs : List (PFrame C I)} {as : List V} {ch : Option C} {w : W} (hl : as.length = fs.length + 1) :
    postWhile (N := N) keep fuel body (k + 1) ⟨none, fs.map PFrame.iter, kept keep fs, psegs fs, as, ch⟩ w =
      if fs = [] then some (.ended w)
      else ctxConclude (postWhile keep fuel body k) body (loopAt N keep fuel fs as.tail w) := by
  cases fs with
  | nil =>
    have he : as.tail = [] := by
      apply List.eq_nil_of_length_eq_zero
      simp only [List.length_tail, hl, List.length_nil]
    simp [postWhile, postCtxAdvance, he, ctxConclude]
  | cons f fs =>
    have he : as.tail.isEmpty = false := by
      rw [Bool.eq_false_iff]
      intro h
      rw [List.isEmpty_iff] at h
      have := congrArg List.length h
      simp only [List.length_tail, hl, List.length_cons, List.length_nil] at this
      omega
    simp only [postWhile, postCtxAdvance, he, Bool.false_eq_true, if_false, reduceCtorEq, loopAt]

theorem post_frames_step [CtxNode W N V C I] {keep : Bool} {body : PostBody W V C}
    (hlen : ∀ p as c w, (body p as c w).2.1.length = as.length) (fuel k : Nat)
    (H : ∀ k', k = k' + 1 → ∀ f (fs : List (PFrame C I)) as w r, fs ≠ [] → as.length = fs.length →
      ctxConclude (postWhile (N := N) keep fuel body k') body (loopAt N keep f fs as w) = some r →
        RunPost N keep body fs as w r) (f : Nat) :
    ∀ (fs : List (PFrame C I)) as w r, fs ≠ [] → as.length = fs.length →
      ctxConclude (postWhile (N := N) keep fuel body k) body (loopAt N keep f fs as w) = some r →
        RunPost N keep body fs as w r := by
  induction f with
  | zero => intro fs as w r _ _ h; simp [loopAt, postCtxLoop, ctxConclude] at h
  | succ f ih =>
    intro fs as w r hne hl h
    cases fs with
    | nil => exact absurd rfl hne
    | cons g fs =>
      obtain ⟨m, c, i⟩ := g
      rcases hp : pollC (N := N) i w with ⟨_ | _ | d, i', w1⟩
      · rw [loopAt_done hp] at h
        have he : as.isEmpty = false := by cases as <;> simp_all
        simp only [ctxConclude, he, Bool.false_eq_true, if_false] at h
        rcases hb : body (psegs fs).reverse as.reverse (if keep then some c else none) w1 with ⟨_ | _, as1, ch, w2⟩
        · simp only [hb, Option.some.injEq] at h
          subst h
          exact .halt hp hb
        · simp only [hb] at h
          have hl1 := hlen (psegs fs).reverse as.reverse (if keep then some c else none) w1
          rw [hb] at hl1
          have hl2 : as1.reverse.length = fs.length + 1 := by
            simp only [List.length_reverse] at hl1 ⊢
            simpa [hl] using hl1
          cases k with
          | zero => simp [postWhile] at h
          | succ k =>
            rw [postWhile_mid hl2] at h
            refine .done hp hb ?_
            by_cases hf : fs = []
            · subst hf
              simp only [if_true, Option.some.injEq] at h
              subst h
              exact .ended
            · rw [if_neg hf] at h
              exact H k rfl fuel fs _ w2 r hf (by rw [List.length_tail, hl2]; rfl) h
      · rw [loopAt_empty hp] at h
        exact .empty hp (ih _ as w1 r (by simp) (by simpa using hl) h)
      · rcases hs : splitC (I := I) d w1 with ⟨v, c', w2⟩
        rcases hj : intoC (N := N) c' w2 with ⟨j, w3⟩
        rw [loopAt_child hp hs hj] at h
        exact .child hp hs hj (ih _ (v :: as) w3 r (by simp) (by simpa using hl) h)

theorem post_frames_all [CtxNode W N V C I] {keep : Bool} {body : PostBody W V C}
    (hlen : ∀ p as c w, (body p as c w).2.1.length = as.length) (fuel k : Nat) :
    ∀ f (fs : List (PFrame C I)) as w r, fs ≠ [] → as.length = fs.length →
      ctxConclude (postWhile (N := N) keep fuel body k) body (loopAt N keep f fs as w) = some r →
        RunPost N keep body fs as w r := by
  induction k with
  | zero => exact post_frames_step hlen fuel 0 fun _ h => by cases h
  | succ k ih => exact post_frames_step hlen fuel (k + 1) fun k' h => by cases h; exact ih

/-! ## Monotonicity -/

theorem postCtxLoop_mono [CtxNode W N V C I] {keep : Bool} (fuel : Nat) :
    ∀ (st : List I) (into : List C) (path : List Nat) (as : List V) (w : W) r,
    postCtxLoop (N := N) keep fuel st into path as w = some r → postCtxLoop (N := N) keep (fuel + 1) st into path as w = some r := by
  induction fuel with
  | zero => intro st into path as w r h; simp [postCtxLoop] at h
  | succ fuel ih =>
    intro st into path as w r h
    cases st with
    | nil => exact h
    | cons i rest =>
      rw [postCtxLoop] at h ⊢
      rcases hp : pollC (N := N) i w with ⟨_ | _ | d, i', w1⟩
      · simp only [hp] at h ⊢
        exact h
      · simp only [hp] at h ⊢
        cases path with
        | nil => exact h
        | cons p path => exact ih _ _ _ _ _ _ h
      · simp only [hp] at h ⊢
        cases path with
        | nil => exact h
        | cons p path => exact ih _ _ _ _ _ _ h

theorem postCtxAdvance_mono [CtxNode W N V C I] {keep : Bool} {fuel : Nat} {s : PostCtx N V C I} {w : W} {r}
    (h : postCtxAdvance keep fuel s w = some r) : postCtxAdvance keep (fuel + 1) s w = some r := by
  obtain ⟨root, st, into, path, as, ch⟩ := s
  cases root with
  | some n => exact postCtxLoop_mono _ _ _ _ _ _ _ h
  | none =>
    simp only [postCtxAdvance] at h ⊢
    split
    · rename_i he
      simpa only [he, if_true] using h
    · rename_i he
      simp only [he, Bool.false_eq_true, if_false] at h
      exact postCtxLoop_mono _ _ _ _ _ _ _ h

theorem ctxConclude_mono {again again' : PostCtx N V C I → W → Option (Ending W)} {body : PostBody W V C}
    {x x' : Option (Except Panic (PostCtx N V C I × W))} (h : ∀ s w r, again s w = some r → again' s w = some r)
    (hx : ∀ y, x = some y → x' = some y) {r : Ending W} (hc : ctxConclude again body x = some r) :
    ctxConclude again' body x' = some r := by
  cases x with
  | none => simp [ctxConclude] at hc
  | some y =>
    rw [hx y rfl]
    rcases y with e | ⟨s, w⟩
    · exact hc
    · simp only [ctxConclude] at hc ⊢
      split
      · rename_i he
        simpa only [he, if_true] using hc
      · rename_i he
        simp only [he, Bool.false_eq_true, if_false] at hc
        rcases hb : body s.path.reverse s.ancestors.reverse s.children w with ⟨_ | _, as1, ch, w2⟩
        · simpa only [hb] using hc
        · simp only [hb] at hc ⊢
          exact h _ _ _ hc

theorem postWhile_mono [CtxNode W N V C I] {keep : Bool} {fuel : Nat} {body : PostBody W V C} (k : Nat) :
    ∀ (s : PostCtx N V C I) (w : W) r,
    postWhile keep fuel body k s w = some r → postWhile keep (fuel + 1) body k s w = some r := by
  induction k with
  | zero => intro s w r h; simp [postWhile] at h
  | succ k ih => exact fun s w r h => ctxConclude_mono ih (fun y hy => postCtxAdvance_mono hy) h

theorem post_ctx_loop [CtxNode W N V C I] {keep : Bool} {body : PostBody W V C}
    (hlen : ∀ p as c w, (body p as c w).2.1.length = as.length) {fs : List (PFrame C I)} {as : List V} {w : W} {r : Ending W}
    (h : RunPost N keep body fs as w r) : fs ≠ [] → as.length = fs.length →
      ∃ fuel k, ctxConclude (postWhile (N := N) keep fuel body k) body (loopAt N keep fuel fs as w) = some r := by
  induction h with
  | ended => intro hne; exact absurd rfl hne
  | @halt k c i i' fs as as1 ch w w1 w2 h1 h2 =>
    intro _ hl
    have he : as.isEmpty = false := by cases as <;> simp_all
    refine ⟨1, 0, ?_⟩
    rw [loopAt_done h1]
    simp only [ctxConclude, he, Bool.false_eq_true, if_false, h2]
  | @done k c i i' fs as as1 ch w w1 w2 r h1 h2 hr ih =>
    intro _ hl
    have he : as.isEmpty = false := by cases as <;> simp_all
    have hl1 := hlen (psegs fs).reverse as.reverse (if keep then some c else none) w1
    rw [h2] at hl1
    have hl2 : as1.reverse.length = fs.length + 1 := by
      simp only [List.length_reverse] at hl1 ⊢
      simpa [hl] using hl1
    by_cases hf : fs = []
    · subst hf
      cases hr
      refine ⟨1, 1, ?_⟩
      rw [loopAt_done h1]
      simp only [ctxConclude, he, Bool.false_eq_true, if_false, h2]
      rw [postWhile_mid hl2, if_pos rfl]
    · obtain ⟨fuel, m, hk⟩ := ih hf (by rw [List.length_tail, hl2]; rfl)
      refine ⟨fuel + 1, m + 1, ?_⟩
      rw [loopAt_done h1]
      simp only [ctxConclude, he, Bool.false_eq_true, if_false, h2]
      rw [postWhile_mid hl2, if_neg hf]
      exact ctxConclude_mono (postWhile_mono m) (fun y hy => postCtxLoop_mono _ _ _ _ _ _ _ hy) hk
  | empty h1 _ ih =>
    intro _ hl
    obtain ⟨fuel, m, hk⟩ := ih (by simp) (by simpa using hl)
    refine ⟨fuel + 1, m, ?_⟩
    rw [loopAt_empty h1]
    exact ctxConclude_mono (postWhile_mono m) (fun y hy => hy) hk
  | child h1 h2 h3 _ ih =>
    intro _ hl
    obtain ⟨fuel, m, hk⟩ := ih (by simp) (by simpa using hl)
    refine ⟨fuel + 1, m, ?_⟩
    rw [loopAt_child h1 h2 h3]
    exact ctxConclude_mono (postWhile_mono m) (fun y hy => hy) hk

end Shared

end TreeIter
