import Verif.Spec.SharedIn

/-!
# In-order contexts over nodes that share state: helper lemmas
-/

universe u v w x y

namespace TreeIter

namespace Shared

open Inorder (Status)

variable {W : Type x} {N : Type u} {V : Type v}

/-- A call of the visitor that is under way: in the left subtree, or in the right one. -/
inductive IFrame (N : Type u) where
  | left (l r : Option N)
  | right

namespace IFrame

def dir : IFrame N → Nat
  | left _ _ => 0
  | right => 1

def status : IFrame N → Status
  | left _ _ => .wentLeft
  | right => .wentRight

def rights : List (IFrame N) → List (Option N)
  | [] => []
  | left _ r :: fs => r :: rights fs
  | right :: fs => rights fs

def kept (keep : Bool) : List (IFrame N) → List (Option N × Option N)
  | [] => []
  | left l r :: fs => if keep then (l, r) :: kept keep fs else kept keep fs
  | right :: fs => kept keep fs

end IFrame

/-- The visitor, with the calls under way on a stack. -/
inductive RunInC [SharedBin W N V] (keep : Bool) (body : PostBody W V (Option N × Option N)) :
    Option N → List (IFrame N) → List V → W → Ending W → Prop
  | ended {as : List V} {w : W} : RunInC keep body none [] as w (.ended w)
  | node {n : N} {fs : List (IFrame N)} {as : List V} {v : V} {l r : Option N} {w w1 : W} {e : Ending W} :
      split2W n w = (v, l, r, w1) → RunInC keep body l (.left l r :: fs) (v :: as) w1 e → RunInC keep body (some n) fs as w e
  | halt {l r : Option N} {fs : List (IFrame N)} {as as1 : List V} {ch : Option (Option N × Option N)} {w w1 : W} :
      body (fs.map IFrame.dir).reverse as.reverse (if keep then some (l, r) else none) w = (false, as1, ch, w1) →
      RunInC keep body none (.left l r :: fs) as w (.broke w1)
  | turn {l r : Option N} {fs : List (IFrame N)} {as as1 : List V} {ch : Option (Option N × Option N)} {w w1 : W} {e : Ending W} :
      body (fs.map IFrame.dir).reverse as.reverse (if keep then some (l, r) else none) w = (true, as1, ch, w1) →
      RunInC keep body r (.right :: fs) as1.reverse w1 e → RunInC keep body none (.left l r :: fs) as w e
  | back {fs : List (IFrame N)} {as : List V} {w : W} {e : Ending W} :
      RunInC keep body none fs as.tail w e → RunInC keep body none (.right :: fs) as w e

/-- The calls under way, one after the other. -/
def EachInC [SharedBin W N V] (keep : Bool) (body : PostBody W V (Option N × Option N)) :
    List (IFrame N) → List V → W → Ending W → Prop
  | [], _, w, e => e = .ended w
  | .right :: fs, as, w, e => EachInC keep body fs as.tail w e
  | .left l r :: fs, as, w, e =>
    ∃ b as1 ch w1, body (fs.map IFrame.dir).reverse as.reverse (if keep then some (l, r) else none) w = (b, as1, ch, w1) ∧
      ((b = false ∧ e = .broke w1) ∨
        b = true ∧ ((∃ w2, e = .broke w2 ∧ VisitInCtx keep body (1 :: fs.map IFrame.dir) r as1.reverse w1 (.broke w2)) ∨
          ∃ as2 w2, VisitInCtx keep body (1 :: fs.map IFrame.dir) r as1.reverse w1 (.through as2 w2) ∧
            EachInC keep body fs as2.tail w2 e))

theorem eachIn_of_run [SharedBin W N V] {keep : Bool} {body : PostBody W V (Option N × Option N)} {o : Option N}
    {fs : List (IFrame N)} {as : List V} {w : W} {e : Ending W} (h : RunInC keep body o fs as w e) :
    (∃ w1, e = .broke w1 ∧ VisitInCtx keep body (fs.map IFrame.dir) o as w (.broke w1)) ∨
      ∃ as1 w1, VisitInCtx keep body (fs.map IFrame.dir) o as w (.through as1 w1) ∧ EachInC keep body fs as1 w1 e := by
  induction h with
  | ended => exact .inr ⟨_, _, .absent, rfl⟩
  | node h1 _ ih =>
    rcases ih with ⟨w1, rfl, hv⟩ | ⟨as1, w1, hv, b, as2, ch, w2, hb, ⟨rfl, rfl⟩ | ⟨rfl, ⟨w3, rfl, hr⟩ | ⟨as3, w3, hr, he⟩⟩⟩
    · exact .inl ⟨w1, rfl, .left h1 hv⟩
    · exact .inl ⟨w2, rfl, .self h1 hv hb⟩
    · exact .inl ⟨w3, rfl, .right h1 hv hb hr⟩
    · exact .inr ⟨_, w3, .done h1 hv hb hr, he⟩
  | halt h1 => exact .inr ⟨_, _, .absent, _, _, _, _, h1, .inl ⟨rfl, rfl⟩⟩
  | turn h1 _ ih =>
    refine .inr ⟨_, _, .absent, _, _, _, _, h1, .inr ⟨rfl, ?_⟩⟩
    rcases ih with ⟨w1, rfl, hv⟩ | ⟨as1, w1, hv, he⟩
    · exact .inl ⟨w1, rfl, hv⟩
    · exact .inr ⟨as1, w1, hv, he⟩
  | back _ ih =>
    rcases ih with ⟨w1, rfl, hv⟩ | ⟨as1, w1, hv, he⟩
    · cases hv
    · cases hv
      exact .inr ⟨_, _, .absent, he⟩

/-- What comes of a visit when the calls under way are `fs`. -/
def AfterIn [SharedBin W N V] (keep : Bool) (body : PostBody W V (Option N × Option N)) (fs : List (IFrame N))
    (P : Ending W → Prop) : Outcome W V → Prop
  | .broke w' => P (.broke w')
  | .through as w' => ∀ e, RunInC keep body none fs as w' e → P e

theorem leadsIn_of_visit [SharedBin W N V] {keep : Bool} {body : PostBody W V (Option N × Option N)} {path : List Nat}
    {o : Option N} {as : List V} {w : W} {e : Outcome W V} (h : VisitInCtx keep body path o as w e) :
    ∀ fs : List (IFrame N), fs.map IFrame.dir = path → AfterIn keep body fs (RunInC keep body o fs as w) e := by
  induction h with
  | absent => exact fun fs _ e he => he
  | left h1 _ ih =>
    rintro fs rfl
    exact .node h1 (ih (.left _ _ :: fs) rfl)
  | self h1 _ h3 ih =>
    rintro fs rfl
    exact .node h1 (ih (.left _ _ :: fs) rfl _ (.halt h3))
  | right h1 _ h3 _ ih ih2 =>
    rintro fs rfl
    exact .node h1 (ih (.left _ _ :: fs) rfl _ (.turn h3 (ih2 (.right :: fs) rfl)))
  | done h1 _ h3 _ ih ih2 =>
    rintro fs rfl
    exact fun e he => .node h1 (ih (.left _ _ :: fs) rfl _ (.turn h3 (ih2 (.right :: fs) rfl _ (.back he))))

/-- A visit of a tree is a run from its root. -/
theorem visitTreeIn_iff [SharedBin W N V] {keep : Bool} {body : PostBody W V (Option N × Option N)} {n : N} {w : W}
    {e : Ending W} : VisitTreeIn keep body n w e ↔ RunInC keep body (some n) [] [] w e := by
  constructor
  · intro h
    cases e with
    | panicked => exact h.elim
    | broke w' => exact leadsIn_of_visit h [] rfl
    | ended w' =>
      obtain ⟨as, h⟩ := h
      exact leadsIn_of_visit h [] rfl _ .ended
  · intro h
    rcases eachIn_of_run h with ⟨w1, rfl, hv⟩ | ⟨as1, w1, hv, rfl⟩
    · exact hv
    · exact ⟨as1, hv⟩

/-! ## The loop -/

/-- The state in which the calls under way are `fs`. -/
def inAt (keep : Bool) (fs : List (IFrame N)) (as : List V) (ch : Option (Option N × Option N)) : InCtx N V :=
  ⟨IFrame.rights fs, IFrame.kept keep fs, (fs.map IFrame.dir).tail, as, fs.map IFrame.status, ch⟩

/-- The state in which a node is shown, above the calls `fs`. -/
def inShown (keep : Bool) (r : Option N) (fs : List (IFrame N)) (as : List V) (ch : Option (Option N × Option N)) :
    InCtx N V :=
  ⟨r :: IFrame.rights fs, IFrame.kept keep fs, fs.map IFrame.dir, as, .returnedSelf :: fs.map IFrame.status, ch⟩

def inDescAt [SharedBin W N V] (keep : Bool) (f : Nat) (o : Option N) (fs : List (IFrame N)) (as : List V)
    (ch : Option (Option N × Option N)) (w : W) : Option (Except Panic (InCtx N V × W)) :=
  inCtxFinish keep (inCtxDescend keep f o (inAt keep fs as ch) w)

theorem inCtxShow_left {keep : Bool} {l r : Option N} {fs : List (IFrame N)} {as : List V} {ch : Option (Option N × Option N)} {w : W}
    {p : List Nat} {ss : List Status} :
    inCtxShow keep (⟨r :: IFrame.rights fs, IFrame.kept keep (.left l r :: fs), p, as, ss, ch⟩ : InCtx N V) w =
      .ok (⟨r :: IFrame.rights fs, IFrame.kept keep fs, p, as, ss, if keep then some (l, r) else none⟩, w) := by
  cases keep <;> rfl

theorem inAdvance_right [SharedBin W N V] {keep : Bool} {fuel : Nat} {fs : List (IFrame N)} {as : List V}
    {ch : Option (Option N × Option N)} {w : W} :
    inCtxAdvance keep fuel (inAt keep (.right :: fs) as ch) w = inCtxAdvance keep fuel (inAt keep fs as.tail ch) w := by
  simp only [inCtxAdvance, inAt, List.map_cons, IFrame.status, IFrame.rights, IFrame.kept, List.tail_cons, inCtxFind]

theorem inAdvance_left [SharedBin W N V] {keep : Bool} {fuel : Nat} {l r : Option N} {fs : List (IFrame N)} {as : List V}
    {ch : Option (Option N × Option N)} {w : W} :
    inCtxAdvance keep fuel (inAt keep (.left l r :: fs) as ch) w =
      some (.ok (inShown keep r fs as (if keep then some (l, r) else none), w)) := by
  simp only [inCtxAdvance, inAt, List.map_cons, IFrame.status, IFrame.rights, List.tail_cons, inCtxFind, inCtxShow_left, inShown]

theorem inAdvance_nil [SharedBin W N V] {keep : Bool} {fuel : Nat} {as : List V}
    {ch : Option (Option N × Option N)} {w : W} :
    inCtxAdvance keep fuel (inAt keep ([] : List (IFrame N)) as ch) w = some (.ok (⟨[], [], [], [], [], ch⟩, w)) := by
  simp only [inCtxAdvance, inAt, List.map_nil, IFrame.rights, IFrame.kept, List.tail_nil, inCtxFind]

theorem inAdvance_shown_some [SharedBin W N V] {keep : Bool} {fuel : Nat} {n : N} {fs : List (IFrame N)} {as : List V}
    {ch : Option (Option N × Option N)} {w : W} :
    inCtxAdvance keep fuel (inShown keep (some n) fs as ch) w = inDescAt keep fuel (some n) (.right :: fs) as ch w := by
  simp only [inCtxAdvance, inShown, inDescAt, inAt, List.map_cons, IFrame.status, IFrame.rights, IFrame.kept, List.tail_cons,
    inCtxFind]

theorem inAdvance_shown_none [SharedBin W N V] {keep : Bool} {fuel : Nat} {fs : List (IFrame N)} {as : List V}
    {ch : Option (Option N × Option N)} {w : W} :
    inCtxAdvance keep fuel (inShown keep none fs as ch) w = inCtxAdvance keep fuel (inAt keep (.right :: fs) as ch) w := by
  simp only [inCtxAdvance, inShown, inAt, List.map_cons, IFrame.status, IFrame.rights, IFrame.kept, List.tail_cons,
    inCtxFind]

theorem inAdvance_new [SharedBin W N V] {keep : Bool} {fuel : Nat} {n : N} {w : W} :
    inCtxAdvance keep fuel (InCtx.new n) w = inDescAt (V := V) keep fuel (some n) [] [] none w := by
  simp only [inCtxAdvance, InCtx.new, inDescAt, inAt, List.map_nil, IFrame.rights, IFrame.kept, List.tail_nil, inCtxFind]

theorem inDescAt_some [SharedBin W N V] {keep : Bool} {f : Nat} {n : N} {v : V} {l r : Option N} {fs : List (IFrame N)}
    {as : List V} {ch : Option (Option N × Option N)} {w w1 : W} (h : split2W n w = (v, l, r, w1)) :
    inDescAt keep (f + 1) (some n) fs as ch w = inDescAt keep f l (.left l r :: fs) (v :: as) ch w1 := by
  simp only [inDescAt, inCtxDescend, h, inAt, List.map_cons, IFrame.status, IFrame.rights, IFrame.kept, List.tail_cons]
  rcases fs with _ | ⟨_ | _, fs⟩ <;> rfl

theorem inDescAt_none [SharedBin W N V] {keep : Bool} {f : Nat} {l r : Option N} {fs : List (IFrame N)}
    {as : List V} {ch : Option (Option N × Option N)} {w : W} :
    inDescAt keep (f + 1) none (.left l r :: fs) as ch w =
      some (.ok (inShown keep r fs as (if keep then some (l, r) else none), w)) := by
  simp only [inDescAt, inCtxDescend, inAt, List.map_cons, IFrame.rights, List.tail_cons, inCtxFinish, inCtxShow_left, inShown]

/-- What the loop does from here on. -/
def inGo [SharedBin W N V] (keep : Bool) (fuel f : Nat) (fs : List (IFrame N)) (as : List V)
    (ch : Option (Option N × Option N)) (w : W) : Option N → Option (Except Panic (InCtx N V × W))
  | some n => inDescAt keep f (some n) fs as ch w
  | none => inCtxAdvance keep fuel (inAt keep fs as ch) w

theorem inAdvance_shown [SharedBin W N V] {keep : Bool} {fuel : Nat} {r : Option N} {fs : List (IFrame N)} {as : List V}
    {ch : Option (Option N × Option N)} {w : W} :
    inCtxAdvance keep fuel (inShown keep r fs as ch) w = inGo keep fuel fuel (.right :: fs) as ch w r := by
  cases r with
  | none => exact inAdvance_shown_none
  | some n => exact inAdvance_shown_some

theorem inC_frames_step [SharedBin W N V] {keep : Bool} {body : PostBody W V (Option N × Option N)}
    (hlen : ∀ p as c w, (body p as c w).2.1.length = as.length) (fuel k : Nat)
    (H : ∀ k', k = k' + 1 → ∀ f o (fs : List (IFrame N)) as ch w e, as.length = fs.length →
      inConclude (inWhile keep fuel body k') body (inGo keep fuel f fs as ch w o) = some e → RunInC keep body o fs as w e) :
    ∀ f o (fs : List (IFrame N)) as ch w e, as.length = fs.length →
      inConclude (inWhile keep fuel body k) body (inGo keep fuel f fs as ch w o) = some e → RunInC keep body o fs as w e := by
  have hc : ∀ l r (fs : List (IFrame N)) as w e, as.length = fs.length + 1 →
      inConclude (inWhile keep fuel body k) body
        (some (.ok (inShown keep r fs as (if keep then some (l, r) else none), w))) = some e →
      RunInC keep body none (.left l r :: fs) as w e := by
    intro l r fs as w e hl h
    have he : as.isEmpty = false := by cases as <;> simp_all
    simp only [inConclude, inShown, he, Bool.false_eq_true, if_false] at h
    rcases hb : body (fs.map IFrame.dir).reverse as.reverse (if keep then some (l, r) else none) w with ⟨_ | _, as1, ch, w2⟩
    · simp only [hb, Option.some.injEq] at h
      subst h
      exact .halt hb
    · simp only [hb] at h
      have hl1 := hlen (fs.map IFrame.dir).reverse as.reverse (if keep then some (l, r) else none) w
      rw [hb] at hl1
      have hl2 : as1.reverse.length = (IFrame.right :: fs).length := by
        simp only [List.length_reverse] at hl1 ⊢
        simpa [hl] using hl1
      cases k with
      | zero => simp [inWhile] at h
      | succ k =>
        refine .turn hb (H k rfl fuel r _ _ ch w2 e hl2 ?_)
        rw [← inAdvance_shown]
        exact h
  have hd : ∀ f o l r (fs : List (IFrame N)) as ch w e, as.length = fs.length + 1 →
      inConclude (inWhile keep fuel body k) body (inDescAt keep f o (.left l r :: fs) as ch w) = some e →
      RunInC keep body o (.left l r :: fs) as w e := by
    intro f
    induction f with
    | zero => intro o l r fs as ch w e _ h; simp [inDescAt, inCtxDescend, inCtxFinish, inConclude] at h
    | succ f ih =>
      intro o l r fs as ch w e hl h
      cases o with
      | none =>
        rw [inDescAt_none] at h
        exact hc l r fs as w e hl h
      | some n =>
        rcases hs : split2W n w with ⟨v, l', r', w1⟩
        rw [inDescAt_some hs] at h
        exact .node hs (ih _ _ _ _ _ _ _ _ (by simpa using hl) h)
  intro f o
  cases o with
  | some n =>
    intro fs as ch w e hl h
    cases f with
    | zero => simp [inGo, inDescAt, inCtxDescend, inCtxFinish, inConclude] at h
    | succ f =>
      rcases hs : split2W n w with ⟨v, l', r', w1⟩
      simp only [inGo] at h
      rw [inDescAt_some hs] at h
      exact .node hs (hd _ _ _ _ _ _ _ _ _ (by simpa using hl) h)
  | none =>
    intro fs
    induction fs with
    | nil =>
      intro as ch w e hl h
      simp only [inGo, inAdvance_nil, inConclude, List.isEmpty_nil, if_true, Option.some.injEq] at h
      subst h
      exact .ended
    | cons g fs ih =>
      intro as ch w e hl h
      simp only [inGo] at h
      cases g with
      | right =>
        rw [inAdvance_right] at h
        exact .back (ih _ ch w e (by simp [hl]) h)
      | left l r =>
        rw [inAdvance_left] at h
        exact hc l r fs as w e hl h

theorem inC_frames_all [SharedBin W N V] {keep : Bool} {body : PostBody W V (Option N × Option N)}
    (hlen : ∀ p as c w, (body p as c w).2.1.length = as.length) (fuel k : Nat) :
    ∀ f o (fs : List (IFrame N)) as ch w e, as.length = fs.length →
      inConclude (inWhile keep fuel body k) body (inGo keep fuel f fs as ch w o) = some e → RunInC keep body o fs as w e := by
  induction k with
  | zero => exact inC_frames_step hlen fuel 0 fun _ h => by cases h
  | succ k ih => exact inC_frames_step hlen fuel (k + 1) fun k' h => by cases h; exact ih

/-! ## Monotonicity -/

theorem inCtxDescend_mono [SharedBin W N V] {keep : Bool} (fuel : Nat) : ∀ (o : Option N) (s : InCtx N V) (w : W) r,
    inCtxDescend keep fuel o s w = some r → inCtxDescend keep (fuel + 1) o s w = some r := by
  induction fuel with
  | zero => intro o s w r h; simp [inCtxDescend] at h
  | succ fuel ih =>
    intro o s w r h
    cases o with
    | none => exact h
    | some n =>
      rw [inCtxDescend] at h ⊢
      exact ih _ _ _ _ h

theorem inCtxFinish_mono {keep : Bool} {x x' : Option (InCtx N V × W)} (hx : ∀ y, x = some y → x' = some y) {r}
    (h : inCtxFinish keep x = some r) : inCtxFinish keep x' = some r := by
  cases x with
  | none => simp [inCtxFinish] at h
  | some y => rw [hx y rfl]; exact h

theorem inCtxAdvance_mono [SharedBin W N V] {keep : Bool} {fuel : Nat} {s : InCtx N V} {w : W} {r}
    (h : inCtxAdvance keep fuel s w = some r) : inCtxAdvance keep (fuel + 1) s w = some r := by
  unfold inCtxAdvance at h ⊢
  cases hf : inCtxFind s.into s.children s.status s.path s.ancestors s.right with
  | over s' => simpa only [hf] using h
  | back s' => simpa only [hf] using h
  | node n s' =>
    simp only [hf] at h ⊢
    exact inCtxFinish_mono (inCtxDescend_mono fuel _ _ _) h

theorem inConclude_mono {again again' : InCtx N V → W → Option (Ending W)} {body : PostBody W V (Option N × Option N)}
    {x x' : Option (Except Panic (InCtx N V × W))} (h : ∀ s w r, again s w = some r → again' s w = some r)
    (hx : ∀ y, x = some y → x' = some y) {r : Ending W} (hc : inConclude again body x = some r) :
    inConclude again' body x' = some r := by
  cases x with
  | none => simp [inConclude] at hc
  | some y =>
    rw [hx y rfl]
    rcases y with e | ⟨s, w⟩
    · exact hc
    · simp only [inConclude] at hc ⊢
      split
      · rename_i he
        simpa only [he, if_true] using hc
      · rename_i he
        simp only [he, Bool.false_eq_true, if_false] at hc
        rcases hb : body s.path.reverse s.ancestors.reverse s.children w with ⟨_ | _, as1, ch, w2⟩
        · simpa only [hb] using hc
        · simp only [hb] at hc ⊢
          exact h _ _ _ hc

theorem inWhile_mono [SharedBin W N V] {keep : Bool} {fuel : Nat} {body : PostBody W V (Option N × Option N)} (k : Nat) :
    ∀ (s : InCtx N V) (w : W) r, inWhile keep fuel body k s w = some r → inWhile keep (fuel + 1) body k s w = some r := by
  induction k with
  | zero => intro s w r h; simp [inWhile] at h
  | succ k ih => exact fun s w r h => inConclude_mono ih (fun y hy => inCtxAdvance_mono hy) h

theorem inGo_mono [SharedBin W N V] {keep : Bool} {fuel : Nat} {fs : List (IFrame N)} {as : List V}
    {ch : Option (Option N × Option N)} {w : W} {o : Option N} {r} (h : inGo keep fuel fuel fs as ch w o = some r) :
    inGo keep (fuel + 1) (fuel + 1) fs as ch w o = some r := by
  cases o with
  | none => exact inCtxAdvance_mono h
  | some n => exact inCtxFinish_mono (inCtxDescend_mono fuel _ _ _) h

theorem inC_loop [SharedBin W N V] {keep : Bool} {body : PostBody W V (Option N × Option N)}
    (hlen : ∀ p as c w, (body p as c w).2.1.length = as.length) {o : Option N} {fs : List (IFrame N)} {as : List V} {w : W}
    {e : Ending W} (h : RunInC keep body o fs as w e) : as.length = fs.length →
      ∀ ch, ∃ fuel k, inConclude (inWhile keep fuel body k) body (inGo keep fuel fuel fs as ch w o) = some e := by
  induction h with
  | ended =>
    intro _ ch
    refine ⟨0, 0, ?_⟩
    simp only [inGo, inAdvance_nil, inConclude, List.isEmpty_nil, if_true]
  | @node n fs as v l r w w1 e h1 _ ih =>
    intro hl ch
    obtain ⟨fuel, k, hk⟩ := ih (by simpa using hl) ch
    refine ⟨fuel + 2, k, ?_⟩
    simp only [inGo]
    rw [inDescAt_some h1]
    cases l with
    | none =>
      rw [inDescAt_none]
      simp only [inGo] at hk
      rw [inAdvance_left] at hk
      exact inConclude_mono (fun s w r h => inWhile_mono k _ _ _ (inWhile_mono k _ _ _ h)) (fun y hy => hy) hk
    | some c =>
      refine inConclude_mono (fun s w r h => inWhile_mono k _ _ _ (inWhile_mono k _ _ _ h)) (fun y hy => ?_) hk
      exact inCtxFinish_mono (inCtxDescend_mono fuel _ _ _) hy
  | @halt l r fs as as1 ch1 w w1 h1 =>
    intro hl ch
    have he : as.isEmpty = false := by cases as <;> simp_all
    refine ⟨0, 0, ?_⟩
    simp only [inGo]
    rw [inAdvance_left]
    simp only [inConclude, inShown, he, Bool.false_eq_true, if_false, h1]
  | @turn l r fs as as1 ch1 w w1 e h1 _ ih =>
    intro hl ch
    have he : as.isEmpty = false := by cases as <;> simp_all
    have hl1 := hlen (fs.map IFrame.dir).reverse as.reverse (if keep then some (l, r) else none) w
    rw [h1] at hl1
    have hl2 : as1.reverse.length = (IFrame.right :: fs).length := by
      simp only [List.length_reverse] at hl1 ⊢
      simpa [hl] using hl1
    obtain ⟨fuel, k, hk⟩ := ih hl2 ch1
    refine ⟨fuel, k + 1, ?_⟩
    simp only [inGo]
    rw [inAdvance_left]
    simp only [inConclude, inShown, he, Bool.false_eq_true, if_false, h1]
    rw [← inAdvance_shown] at hk
    exact hk
  | back _ ih =>
    intro hl ch
    obtain ⟨fuel, k, hk⟩ := ih (by simp [hl]) ch
    refine ⟨fuel, k, ?_⟩
    simp only [inGo]
    rw [inAdvance_right]
    exact hk

/-! ## `attach_ancestors` -/

/-- An iterator with ancestors, as one with context that has a path nobody asks for. -/
def withPath (p : List Nat) (s : Inorder.AncState N V) : InCtx N V := ⟨s.right, [], p, s.items, s.status, none⟩

/-- The two searches find the same. -/
inductive SameFound : Inorder.AncState N V ⊕ (N × Inorder.AncState N V) → InFound N V → Prop
  | over {s : Inorder.AncState N V} {p : List Nat} : SameFound (.inl ⟨s.right, [], s.status⟩) (.over (withPath p ⟨s.right, [], s.status⟩))
  | back {s : Inorder.AncState N V} {p : List Nat} : SameFound (.inl s) (.back (withPath p s))
  | node {n : N} {s : Inorder.AncState N V} {p : List Nat} : SameFound (.inr (n, s)) (.node n (withPath p s))

theorem ancFind_same : ∀ (ss : List Status) (items : List V) (right : List (Option N)) (p : List Nat),
    SameFound (Inorder.ancFind ss items right) (inCtxFind [] none ss p items right) := by
  intro ss items right
  induction ss, items, right using Inorder.ancFind.induct with
  | case1 ss items right ih => intro p; rw [Inorder.ancFind, inCtxFind]; exact ih _
  | case2 ss items right => intro p; rw [Inorder.ancFind, inCtxFind]; exact .back
  | case3 ss items =>
    intro p; rw [Inorder.ancFind, inCtxFind]
    exact SameFound.over (s := ⟨[], [], .wentRight :: ss⟩)
  | case4 ss items n right => intro p; rw [Inorder.ancFind, inCtxFind]; exact .node
  | case5 ss items right ih => intro p; rw [Inorder.ancFind, inCtxFind]; exact ih _
  | case6 items =>
    intro p; rw [Inorder.ancFind, inCtxFind]
    exact SameFound.over (s := ⟨[], [], []⟩)
  | case7 items n right => intro p; rw [Inorder.ancFind, inCtxFind]; exact .node
  | case8 items right ih => intro p; rw [Inorder.ancFind, inCtxFind]; exact ih _

theorem inAncDescend_same [SharedBin W N V] (fuel : Nat) : ∀ (o : Option N) (s : Inorder.AncState N V) (p : List Nat) (w : W),
    ∃ p', inCtxDescend false fuel o (withPath p s) w = (inAncDescend fuel o s w).map fun x => (withPath p' x.1, x.2) := by
  induction fuel with
  | zero => exact fun o s p w => ⟨[], rfl⟩
  | succ fuel ih =>
    intro o s p w
    cases o with
    | none => exact ⟨p, rfl⟩
    | some n => exact ih _ ⟨_, _, _⟩ _ _

theorem inAncWhile_same [SharedBin W N V] {fuel : Nat} {body : SliceBody W V} (k : Nat) :
    ∀ (s : Inorder.AncState N V) (p : List Nat) (w : W),
    inAncWhile fuel body k s w = inWhile false fuel (sliceOnly body) k (withPath p s) w := by
  induction k with
  | zero => exact fun _ _ _ => rfl
  | succ k ih =>
    intro s p w
    have key : ∀ (t : Inorder.AncState N V) (p' : List Nat) (w : W),
        (if t.items.isEmpty then some (.ended w)
          else
            match body t.items.reverse w with
            | (false, _, w) => some (.broke w)
            | (true, as, w) => inAncWhile fuel body k { t with items := as.reverse } w) =
        inConclude (inWhile false fuel (sliceOnly body) k) (sliceOnly body) (some (.ok (withPath p' t, w))) := by
      intro t p' w
      obtain ⟨rt, _ | ⟨a, it⟩, st⟩ := t
      · rfl
      · simp only [inConclude, withPath, sliceOnly, List.isEmpty_cons, Bool.false_eq_true, if_false]
        rcases body (a :: it).reverse w with ⟨_ | _, as, w1⟩
        · rfl
        · exact ih ⟨rt, as.reverse, st⟩ p' w1
    rw [inAncWhile, inWhile, inAncAdvance, inCtxAdvance]
    have hs := ancFind_same s.status s.items s.right p
    simp only [withPath] at hs ⊢
    generalize Inorder.ancFind s.status s.items s.right = x at hs ⊢
    generalize inCtxFind [] none s.status p s.items s.right = y at hs ⊢
    cases hs with
    | over => exact key _ _ _
    | back => exact key _ _ _
    | @node n t p' =>
      obtain ⟨p'', hd⟩ := inAncDescend_same fuel (some n) t p' w
      simp only [hd]
      rcases inAncDescend fuel (some n) t w with _ | ⟨⟨rt, it, _ | ⟨s0, ss⟩⟩, w1⟩
      · rfl
      · rfl
      · exact key ⟨rt, it, .returnedSelf :: ss⟩ p'' w1

end Shared

end TreeIter
