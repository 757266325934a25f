import Verif.Spec.SharedLeaf
import Verif.Lemmas.BfsAnc

/-!
# Breadth-first leaves with ancestors over nodes that share state: helper lemmas
-/

universe u v w x

namespace TreeIter

namespace Shared

open Bfs

variable {W : Type x} {N : Type u} {V : Type v} {I : Type w}

theorem ask_iff [SharedNode W N V I] {s s' : Started N I} {w w1 : W} {o : Option N} :
    Ask s w o s' w1 ↔ Peeked.next (⟨s.1, s.2⟩ : Peeked N I) w = (o, ⟨s'.1, s'.2⟩, w1) := by
  constructor
  · intro h
    cases h with
    | known => rfl
    | fresh h => simp [Peeked.next, h]
  · intro h
    obtain ⟨_ | a, i⟩ := s
    · rcases hp : pollW (N := N) i w with ⟨o', i', w'⟩
      obtain ⟨s1, s2⟩ := s'
      simp only [Peeked.next, hp, Prod.mk.injEq, Peeked.mk.injEq] at h
      obtain ⟨rfl, ⟨rfl, rfl⟩, rfl⟩ := h
      exact .fresh hp
    · obtain ⟨s1, s2⟩ := s'
      simp only [Peeked.next, Prod.mk.injEq, Peeked.mk.injEq] at h
      obtain ⟨rfl, ⟨rfl, rfl⟩, rfl⟩ := h
      exact .known

/-- The visitor with one queue. -/
inductive RunWl [SharedNode W N V I] (body : Body W (List V)) : List (List V × Started N I) → W → Ending W → Prop
  | ended {w : W} : RunWl body [] w (.ended w)
  | done {as : List V} {i i' : Started N I} {q : List (List V × Started N I)} {w w1 : W} {e : Ending W} :
      Ask i w none i' w1 → RunWl body q w1 e → RunWl body ((as, i) :: q) w e
  | inner {as : List V} {i i' : Started N I} {q : List (List V × Started N I)} {c d : N} {v : V} {j j' : I}
      {w w1 w2 w3 : W} {e : Ending W} : Ask i w (some c) i' w1 → splitW c w1 = (v, j, w2) → pollW j w2 = (some d, j', w3) →
      RunWl body ((as, i') :: q ++ [(as ++ [v], (some (some d), j'))]) w3 e → RunWl body ((as, i) :: q) w e
  | stop {as : List V} {i i' : Started N I} {q : List (List V × Started N I)} {c : N} {v : V} {j j' : I}
      {w w1 w2 w3 w4 : W} : Ask i w (some c) i' w1 → splitW c w1 = (v, j, w2) → pollW (N := N) j w2 = (none, j', w3) →
      body (as ++ [v]) w3 = (false, w4) → RunWl body ((as, i) :: q) w (.broke w4)
  | leaf {as : List V} {i i' : Started N I} {q : List (List V × Started N I)} {c : N} {v : V} {j j' : I}
      {w w1 w2 w3 w4 : W} {e : Ending W} : Ask i w (some c) i' w1 → splitW c w1 = (v, j, w2) →
      pollW (N := N) j w2 = (none, j', w3) → body (as ++ [v]) w3 = (true, w4) →
      RunWl body ((as, i') :: q ++ [(as ++ [v], (some none, j'))]) w4 e → RunWl body ((as, i) :: q) w e

theorem runWl_of_visit [SharedNode W N V I] {body : Body W (List V)} {is js : List (List V × Started N I)} {w : W}
    {e : Ending W} (h : VisitLeafLevelsAnc body is js w e) : RunWl body (is ++ js) w e := by
  induction h with
  | ended => exact .ended
  | level _ ih => simpa using ih
  | done h1 _ ih => exact .done h1 ih
  | inner h1 h2 h3 _ ih => exact .inner h1 h2 h3 (by simpa using ih)
  | stop h1 h2 h3 h4 => exact .stop h1 h2 h3 h4
  | leaf h1 h2 h3 h4 _ ih => exact .leaf h1 h2 h3 h4 (by simpa using ih)

theorem visit_of_runWl [SharedNode W N V I] {body : Body W (List V)} {q : List (List V × Started N I)} {w : W}
    {e : Ending W} (h : RunWl body q w e) : ∀ is js, q = is ++ js → VisitLeafLevelsAnc body is js w e := by
  have shift : ∀ (x : List V × Started N I) (q : List (List V × Started N I)) (w : W) (e : Ending W),
      (∀ is js, q = is ++ js → VisitLeafLevelsAnc body (x :: is) js w e) →
      ∀ is js, x :: q = is ++ js → VisitLeafLevelsAnc body is js w e := by
    intro x q w e hq is js he
    cases is with
    | nil =>
      obtain rfl : js = x :: q := by simpa using he.symm
      exact .level (hq q [] (by simp))
    | cons y is =>
      obtain ⟨rfl, rfl⟩ := List.cons.inj he
      exact hq is js rfl
  induction h with
  | ended =>
    intro is js he
    obtain ⟨rfl, rfl⟩ : is = [] ∧ js = [] := by simpa using he
    exact .ended
  | done h1 _ ih => exact shift _ _ _ _ fun is js he => .done h1 (ih is js he)
  | inner h1 h2 h3 _ ih => exact shift _ _ _ _ fun is js he => .inner h1 h2 h3 (ih _ _ (by simp [he]))
  | stop h1 h2 h3 h4 => exact shift _ _ _ _ fun is js he => .stop h1 h2 h3 h4
  | leaf h1 h2 h3 h4 _ ih => exact shift _ _ _ _ fun is js he => .leaf h1 h2 h3 h4 (ih _ _ (by simp [he]))

/-- A node fetched from the first iterator is as good as one known. -/
theorem runWl_known [SharedNode W N V I] {body : Body W (List V)} {as : List V} {i i' : I} {c : N}
    {q : List (List V × Started N I)} {w w1 : W} {e : Ending W} (hp : pollW i w = (some c, i', w1)) :
    RunWl body ((as, (none, i)) :: q) w e ↔ RunWl body ((as, (some (some c), i')) :: q) w1 e := by
  have fresh : ∀ {o : Option N} {s : Started N I} {w2 : W}, Ask (none, i) w o s w2 → o = some c ∧ s = (none, i') ∧ w2 = w1 := by
    intro o s w2 h
    cases h with
    | fresh h =>
      rw [hp] at h
      obtain ⟨rfl, rfl, rfl⟩ : some c = o ∧ i' = _ ∧ w1 = w2 := by simpa using h
      exact ⟨rfl, rfl, rfl⟩
  have known : ∀ {o : Option N} {s : Started N I} {w2 : W}, Ask (some (some c), i') w1 o s w2 →
      o = some c ∧ s = (none, i') ∧ w2 = w1 := by
    intro o s w2 h
    cases h
    exact ⟨rfl, rfl, rfl⟩
  constructor
  · intro h
    cases h with
    | done h1 h2 => cases (fresh h1).1
    | inner h1 h2 h3 h4 =>
      obtain ⟨e1, rfl, rfl⟩ := fresh h1
      cases e1
      exact .inner .known h2 h3 h4
    | stop h1 h2 h3 h4 =>
      obtain ⟨e1, rfl, rfl⟩ := fresh h1
      cases e1
      exact .stop .known h2 h3 h4
    | leaf h1 h2 h3 h4 h5 =>
      obtain ⟨e1, rfl, rfl⟩ := fresh h1
      cases e1
      exact .leaf .known h2 h3 h4 h5
  · intro h
    cases h with
    | done h1 h2 => cases (known h1).1
    | inner h1 h2 h3 h4 =>
      obtain ⟨e1, rfl, rfl⟩ := known h1
      cases e1
      exact .inner (.fresh hp) h2 h3 h4
    | stop h1 h2 h3 h4 =>
      obtain ⟨e1, rfl, rfl⟩ := known h1
      cases e1
      exact .stop (.fresh hp) h2 h3 h4
    | leaf h1 h2 h3 h4 h5 =>
      obtain ⟨e1, rfl, rfl⟩ := known h1
      cases e1
      exact .leaf (.fresh hp) h2 h3 h4 h5

/-! ## More rounds -/

theorem wlAncLoop_mono [SharedNode W N V I] (f : Nat) : ∀ (b : Bool) (queue : List (Peeked N I)) (cs : CacheState V) (w : W)
    (r : Except Panic (WlAnc N V I × W)), wlAncLoop f b queue cs w = some r → wlAncLoop (f + 1) b queue cs w = some r := by
  induction f with
  | zero => intro b queue cs w r h; simp [wlAncLoop] at h
  | succ f ih =>
    intro b queue cs w r h
    cases queue with
    | nil => simpa [wlAncLoop] using h
    | cons p q =>
      rw [wlAncLoop] at h ⊢
      cases hs : settle cs with
      | error x => simpa only [hs] using h
      | ok c1 =>
        simp only [hs] at h ⊢
        rcases hp : p.next w with ⟨_ | n, p1, w1⟩
        · simp only [hp] at h ⊢
          cases b with
          | true => simpa only [if_true] using h
          | false =>
            simp only [Bool.false_eq_true, if_false] at h ⊢
            cases hr : c1.retire with
            | error x => simpa only [hr] using h
            | ok c2 =>
              simp only [hr] at h ⊢
              exact ih _ _ _ _ _ h
        · simp only [hp] at h ⊢
          rcases hq : pollW (N := N) (splitW (I := I) n w1).2.1 (splitW (I := I) n w1).2.2 with ⟨_ | d, j, w2⟩
          · simpa only [hq, Option.isSome_none, Bool.false_eq_true, if_false] using h
          · simp only [hq, Option.isSome_some, if_true] at h ⊢
            exact ih _ _ _ _ _ h

theorem wlAncConclude_mono {again again' : WlAnc N V I → W → Option (Ending W)} {body : Body W (List V)}
    {o o' : Option (Except Panic (WlAnc N V I × W))} {e : Ending W}
    (ha : ∀ s w e, again s w = some e → again' s w = some e) (ho : ∀ r, o = some r → o' = some r)
    (h : wlAncConclude again body o = some e) : wlAncConclude again' body o' = some e := by
  cases o with
  | none => simp [wlAncConclude] at h
  | some r =>
    rw [ho r rfl]
    rcases r with x | ⟨s, w⟩
    · exact h
    · simp only [wlAncConclude] at h ⊢
      by_cases hs : s.cs.items.isEmpty
      · simpa only [hs, if_true] using h
      · simp only [hs, Bool.false_eq_true, if_false] at h ⊢
        rcases hb : body s.cs.items.reverse w with ⟨_ | _, w1⟩
        · simpa only [hb] using h
        · simp only [hb] at h ⊢
          exact ha _ _ _ h

theorem wlAncWhile_mono [SharedNode W N V I] {body : Body W (List V)} (f k : Nat) :
    ∀ (s : WlAnc N V I) (w : W) (e : Ending W), wlAncWhile f body k s w = some e → wlAncWhile (f + 1) body k s w = some e := by
  induction k with
  | zero => intro s w e h; simp [wlAncWhile] at h
  | succ k ih =>
    intro s w e h
    rw [wlAncWhile] at h ⊢
    exact wlAncConclude_mono ih (wlAncLoop_mono f _ _ _ _) h

/-! ## The invariant -/

/-- The cache stands for the ancestors of the iterators in the queue. -/
def WlInv (cs : CacheState V) (queue : List (Peeked N I)) (q : List (List V × Started N I)) : Prop :=
  queue = q.map (fun x => ⟨x.2.1, x.2.2⟩) ∧ (q = [] ∨ ∃ z : Zip V, settle cs = .ok z.enc ∧
    q.map Prod.fst = (z.cur :: z.others).map List.reverse ∧ Levels (z.cur :: z.others))

/-- One round of the loop. -/
theorem wlAncLoop_step [SharedNode W N V I] {cs : CacheState V} {queue : List (Peeked N I)} {as : List V} {s : Started N I}
    {q : List (List V × Started N I)} (h : WlInv cs queue ((as, s) :: q)) :
    (∃ cs' queue', WlInv cs' queue' q ∧ ∀ f (w : W) s' w1, Ask s w none s' w1 →
      wlAncLoop (f + 1) false queue cs w = wlAncLoop f false queue' cs' w1) ∧
    ∀ v s' o j', ∃ cs' queue', cs'.items.reverse = as ++ [v] ∧
      WlInv cs' queue' ((as, s') :: q ++ [(as ++ [v], (some o, j'))]) ∧
      ∀ f (w : W) (c : N) w1 j w2 w3, Ask s w (some c) s' w1 → splitW c w1 = (v, j, w2) → pollW (N := N) j w2 = (o, j', w3) →
        wlAncLoop (f + 1) false queue cs w =
          if o.isSome then wlAncLoop f false queue' cs' w3 else some (.ok (⟨false, cs', queue'⟩, w3)) := by
  obtain ⟨rfl, h⟩ := h
  obtain ⟨z, h1, h2, h3⟩ := h.resolve_left (by simp)
  simp only [List.map_cons, List.cons.injEq] at h2
  obtain ⟨rfl, h2⟩ := h2
  constructor
  · obtain ⟨r1, r2⟩ := retire_spec z h3.le
    by_cases ho : z.others = []
    · obtain rfl : q = [] := by simpa [ho] using h2
      obtain ⟨c, hc⟩ := r1 ho
      refine ⟨c, [], ⟨rfl, .inl rfl⟩, ?_⟩
      intro f w s' w1 ha
      rw [List.map_cons, wlAncLoop, h1]
      simp only [ask_iff.1 ha, Bool.false_eq_true, if_false, hc, List.map_nil]
    · obtain ⟨z', e1, e2⟩ := r2 ho
      refine ⟨z'.enc, _, ⟨rfl, .inr ⟨z', settle_enc z', by rw [e2, h2], by rw [e2]; exact h3.tail⟩⟩, ?_⟩
      intro f w s' w1 ha
      rw [List.map_cons, wlAncLoop, h1]
      simp only [ask_iff.1 ha, Bool.false_eq_true, if_false, e1]
  · intro v s' o j'
    refine ⟨{ z.enc with items := v :: z.enc.items }, _, by simp [Zip.items_enc], ⟨rfl, .inr ⟨z.push v, settle_push z v, ?_, ?_⟩⟩, ?_⟩
    · simp [Zip.cur_push, Zip.others_push, h2]
    · rw [Zip.cur_push, Zip.others_push]
      exact h3.push _
    · intro f w c w1 j w2 w3 ha hs hp
      rw [List.map_cons, wlAncLoop, h1]
      simp only [ask_iff.1 ha, hs, hp, List.cons_append, List.map_cons, List.map_append, List.map_nil]

theorem wlAnc_found {again : WlAnc N V I → W → Option (Ending W)} {body : Body W (List V)} {b : Bool} {cs : CacheState V}
    {queue : List (Peeked N I)} {as : List V} {v : V} {w : W} (h : cs.items.reverse = as ++ [v]) :
    wlAncConclude again body (some (.ok (⟨b, cs, queue⟩, w))) =
      match body (as ++ [v]) w with
      | (false, w) => some (.broke w)
      | (true, w) => again ⟨b, cs, queue⟩ w := by
  have hne : cs.items.isEmpty = false := by
    cases hi : cs.items with
    | nil => simp [hi] at h
    | cons => rfl
  simp only [wlAncConclude, hne, Bool.false_eq_true, if_false, h]
  rcases body (as ++ [v]) w with ⟨_ | _, _⟩ <;> rfl

theorem ask_total [SharedNode W N V I] (s : Started N I) (w : W) : ∃ o s' w1, Ask s w o s' w1 := by
  rcases hp : Peeked.next (⟨s.1, s.2⟩ : Peeked N I) w with ⟨o, p, w1⟩
  exact ⟨o, (p.ahead, p.iter), w1, ask_iff.2 hp⟩

theorem wlAnc_frames [SharedNode W N V I] (body : Body W (List V)) (fuel k : Nat)
    (ih : ∀ (q : List (List V × Started N I)) (cs : CacheState V) (queue : List (Peeked N I)) (w : W) (e : Ending W),
      WlInv cs queue q → wlAncWhile fuel body k ⟨false, cs, queue⟩ w = some e → RunWl body q w e) :
    ∀ (f : Nat) (q : List (List V × Started N I)) (cs : CacheState V) (queue : List (Peeked N I)) (w : W) (e : Ending W),
      WlInv cs queue q → wlAncConclude (wlAncWhile fuel body k) body (wlAncLoop f false queue cs w) = some e →
      RunWl body q w e := by
  intro f
  induction f with
  | zero => intro q cs queue w e _ h; simp [wlAncLoop, wlAncConclude] at h
  | succ f ihf =>
    intro q cs queue w e hI h
    rcases q with _ | ⟨⟨as, s⟩, q⟩
    · obtain ⟨rfl, _⟩ := hI
      simp only [List.map_nil, wlAncLoop, wlAncConclude, List.isEmpty_nil, if_true, Option.some.injEq] at h
      subst h
      exact .ended
    · obtain ⟨⟨cs1, queue1, hI1, hl1⟩, h2⟩ := wlAncLoop_step (W := W) hI
      obtain ⟨_ | c, s', w1, ha⟩ := ask_total s w
      · rw [hl1 f w s' w1 ha] at h
        exact .done ha (ihf q cs1 queue1 w1 e hI1 h)
      · rcases hs : splitW (I := I) c w1 with ⟨v, j, w2⟩
        rcases hp : pollW (N := N) j w2 with ⟨o, j', w3⟩
        obtain ⟨cs2, queue2, hr, hI2, hl2⟩ := h2 v s' o j'
        rw [hl2 f w c w1 j w2 w3 ha hs hp] at h
        cases o with
        | some d =>
          simp only [Option.isSome_some, if_true] at h
          exact .inner ha hs hp (ihf _ cs2 queue2 w3 e hI2 h)
        | none =>
          simp only [Option.isSome_none, Bool.false_eq_true, if_false] at h
          rw [wlAnc_found hr] at h
          rcases hb : body (as ++ [v]) w3 with ⟨_ | _, w4⟩
          · simp only [hb, Option.some.injEq] at h
            subst h
            exact .stop ha hs hp hb
          · simp only [hb] at h
            exact .leaf ha hs hp hb (ih _ cs2 queue2 w4 e hI2 h)

theorem wlAnc_frames_all [SharedNode W N V I] (body : Body W (List V)) (fuel k : Nat) :
    ∀ (q : List (List V × Started N I)) (cs : CacheState V) (queue : List (Peeked N I)) (w : W) (e : Ending W),
      WlInv cs queue q → wlAncWhile fuel body k ⟨false, cs, queue⟩ w = some e → RunWl body q w e := by
  induction k with
  | zero => intro q cs queue w e _ h; simp [wlAncWhile] at h
  | succ k ih =>
    intro q cs queue w e hI h
    exact wlAnc_frames body fuel k ih fuel q cs queue w e hI h

theorem wlAnc_loop [SharedNode W N V I] {body : Body W (List V)} {q : List (List V × Started N I)} {w : W} {e : Ending W}
    (h : RunWl body q w e) : ∀ (cs : CacheState V) (queue : List (Peeked N I)), WlInv cs queue q →
      ∃ fuel k, wlAncConclude (wlAncWhile fuel body k) body (wlAncLoop fuel false queue cs w) = some e := by
  induction h with
  | ended =>
    rintro cs queue ⟨rfl, _⟩
    exact ⟨1, 0, by simp [wlAncLoop, wlAncConclude]⟩
  | @done as i i' q w w1 e ha _ ih =>
    intro cs queue hI
    obtain ⟨⟨cs1, queue1, hI1, hl1⟩, -⟩ := wlAncLoop_step (W := W) hI
    obtain ⟨fuel, k, hk⟩ := ih cs1 queue1 hI1
    refine ⟨fuel + 1, k, ?_⟩
    rw [hl1 fuel w i' w1 ha]
    exact wlAncConclude_mono (wlAncWhile_mono fuel k) (fun _ h => h) hk
  | @inner as i i' q c d v j j' w w1 w2 w3 e ha hs hp _ ih =>
    intro cs queue hI
    obtain ⟨-, h2⟩ := wlAncLoop_step (W := W) hI
    obtain ⟨cs2, queue2, hr, hI2, hl2⟩ := h2 v i' (some d) j'
    obtain ⟨fuel, k, hk⟩ := ih cs2 queue2 hI2
    refine ⟨fuel + 1, k, ?_⟩
    rw [hl2 fuel w c w1 j w2 w3 ha hs hp]
    simp only [Option.isSome_some, if_true]
    exact wlAncConclude_mono (wlAncWhile_mono fuel k) (fun _ h => h) hk
  | @stop as i i' q c v j j' w w1 w2 w3 w4 ha hs hp hb =>
    intro cs queue hI
    obtain ⟨-, h2⟩ := wlAncLoop_step (W := W) hI
    obtain ⟨cs2, queue2, hr, hI2, hl2⟩ := h2 v i' none j'
    refine ⟨1, 0, ?_⟩
    rw [hl2 0 w c w1 j w2 w3 ha hs hp]
    simp only [Option.isSome_none, Bool.false_eq_true, if_false]
    rw [wlAnc_found hr]
    simp only [hb]
  | @leaf as i i' q c v j j' w w1 w2 w3 w4 e ha hs hp hb _ ih =>
    intro cs queue hI
    obtain ⟨-, h2⟩ := wlAncLoop_step (W := W) hI
    obtain ⟨cs2, queue2, hr, hI2, hl2⟩ := h2 v i' none j'
    obtain ⟨fuel, k, hk⟩ := ih cs2 queue2 hI2
    refine ⟨fuel + 1, k + 1, ?_⟩
    rw [hl2 fuel w c w1 j w2 w3 ha hs hp]
    simp only [Option.isSome_none, Bool.false_eq_true, if_false]
    rw [wlAnc_found hr]
    simp only [hb, wlAncWhile]
    exact wlAncConclude_mono (wlAncWhile_mono fuel k) (wlAncLoop_mono fuel _ _ _ _) hk

theorem wlInv_root (v : V) (i : I) :
    WlInv (N := N) (⟨[v], [], .mk none []⟩ : CacheState V) [⟨none, i⟩] [([v], (none, i))] :=
  ⟨rfl, .inr ⟨.root v [], settle_enc (.root v []), by simp [Zip.cur, Zip.others],
    ⟨by simp [Zip.cur, Zip.others], by simp [Zip.others]⟩⟩⟩

end Shared

end TreeIter
