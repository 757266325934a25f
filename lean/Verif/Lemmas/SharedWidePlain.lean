import Mathlib.Data.List.Forall2
import Verif.Spec.SharedWidePlain
import Verif.Lemmas.SharedWideLeaf
import Verif.Lemmas.SharedPlain
import Verif.Lemmas.PathBuf

/-!
# Breadth-first ancestors over nodes that share no state: helper lemmas
-/

universe u v w x y z

namespace TreeIter

namespace Shared

section Generic
variable {W : Type x} {S : Type u} {T : Type v} {O : Type y}

/-- A loop that does for every call what the body says goes through the list that the calls give. -/
theorem while_plain (R : T → S → Prop) (Run : S → W → Ending W → Prop) (pnext : T → Except Panic (Option O × T)) (body : Body W O)
    (hend : ∀ t t' s w, R t s → pnext t = .ok (none, t') → Run s w (.ended w))
    (hbrk : ∀ t t' s w o w1, R t s → pnext t = .ok (some o, t') → body o w = (false, w1) → Run s w (.broke w1))
    (hgo : ∀ t t' s w o w1 e, R t s → pnext t = .ok (some o, t') → body o w = (true, w1) →
      (∀ s', R t' s' → Run s' w1 e) → Run s w e) :
    ∀ (os : List O) (t : T) (s : S) (w : W), R t s → (∀ k, k ≤ os.length → nthCallE pnext k t = .ok os[k]?) →
      Run s w (endingOf (forList body os w)) := by
  intro os
  induction os with
  | nil =>
    intro t s w hR h
    have h0 := h 0 (Nat.le_refl _)
    rcases hp : pnext t with e | ⟨o, t'⟩
    · simp [nthCallE, stateAfterE, hp] at h0
    · rw [nthCallE_ok_zero hp] at h0
      obtain rfl : o = none := by simpa using h0
      exact hend t t' s w hR hp
  | cons o os ih =>
    intro t s w hR h
    have h0 := h 0 (Nat.zero_le _)
    rcases hp : pnext t with e | ⟨o', t'⟩
    · simp [nthCallE, stateAfterE, hp] at h0
    · rw [nthCallE_ok_zero hp] at h0
      obtain rfl : o' = some o := by simpa using h0
      rcases hb : body o w with ⟨_ | _, w1⟩
      · simp only [forList, hb, endingOf]
        exact hbrk t t' s w o w1 hR hp hb
      · simp only [forList, hb]
        refine hgo t t' s w o w1 _ hR hp hb fun s' hR' => ih t' s' w1 hR' fun k hk => ?_
        rw [← nthCallE_ok_succ hp, h (k + 1) (by simpa using hk)]
        simp

end Generic

variable {W : Type x} {N : Type u} {V : Type v} {I : Type w}

/-! ## More rounds -/

theorem wideAncConclude_again {again again' : WideAnc V I → W → Option (Ending W)} {body : Body W (List V)}
    {r : Except Panic (WideAnc V I × W)} {e : Ending W} (ha : ∀ s w e, again s w = some e → again' s w = some e)
    (h : wideAncConclude again body r = some e) : wideAncConclude again' body r = some e := by
  rcases r with x | ⟨s, w⟩
  · exact h
  · simp only [wideAncConclude] at h ⊢
    by_cases hs : s.cs.items.length = 0
    · simpa only [hs, if_true] using h
    · simp only [hs, if_false] at h ⊢
      rcases hb : body s.cs.items.reverse w with ⟨_ | _, w1⟩
      · simpa only [hb] using h
      · simp only [hb] at h ⊢
        exact ha _ _ _ h

theorem wideAncWhile_more [SharedNode W N V I] {body : Body W (List V)} (k : Nat) :
    ∀ (s : WideAnc V I) (w : W) (e : Ending W), wideAncWhile N body k s w = some e → wideAncWhile N body (k + 1) s w = some e := by
  induction k with
  | zero => intro s w e h; simp [wideAncWhile] at h
  | succ k ih =>
    intro s w e h
    rw [wideAncWhile] at h ⊢
    exact wideAncConclude_again ih h

theorem wideAncWhile_unique [SharedNode W N V I] {body : Body W (List V)} {k k' : Nat} {s : WideAnc V I} {w : W} {e e' : Ending W}
    (h : wideAncWhile N body k s w = some e) (h' : wideAncWhile N body k' s w = some e') : e = e' := by
  have more : ∀ (d k : Nat) (e : Ending W), wideAncWhile N body k s w = some e → wideAncWhile N body (k + d) s w = some e := by
    intro d
    induction d with
    | zero => intro k e h; exact h
    | succ d ih => intro k e h; exact wideAncWhile_more _ _ _ _ (ih k e h)
  have h1 := more k' k e h
  have h2 := more k k' e' h'
  rw [Nat.add_comm, h1] at h2
  exact Option.some.inj h2

theorem wlAncWhile_more [SharedNode W N V I] {body : Body W (List V)} (f k : Nat) :
    ∀ (s : WlAnc N V I) (w : W) (e : Ending W), wlAncWhile f body k s w = some e → wlAncWhile f body (k + 1) s w = some e := by
  induction k with
  | zero => intro s w e h; simp [wlAncWhile] at h
  | succ k ih =>
    intro s w e h
    rw [wlAncWhile] at h ⊢
    exact wlAncConclude_mono ih (fun _ h => h) h

theorem wlAncWhile_le [SharedNode W N V I] {body : Body W (List V)} {f k f' k' : Nat} (hf : f ≤ f') (hk : k ≤ k')
    {s : WlAnc N V I} {w : W} {e : Ending W} (h : wlAncWhile f body k s w = some e) : wlAncWhile f' body k' s w = some e := by
  obtain ⟨d, rfl⟩ := Nat.exists_eq_add_of_le hf
  obtain ⟨d', rfl⟩ := Nat.exists_eq_add_of_le hk
  clear hf hk
  have h1 : wlAncWhile (f + d) body k s w = some e := by
    induction d with
    | zero => exact h
    | succ d ih => exact wlAncWhile_mono _ _ _ _ _ ih
  induction d' with
  | zero => exact h1
  | succ d' ih => exact wlAncWhile_more _ _ _ _ _ ih

theorem wlAncWhile_unique [SharedNode W N V I] {body : Body W (List V)} {f k f' k' : Nat} {s : WlAnc N V I} {w : W} {e e' : Ending W}
    (h : wlAncWhile f body k s w = some e) (h' : wlAncWhile f' body k' s w = some e') : e = e' := by
  have h1 := wlAncWhile_le (Nat.le_max_left f f') (Nat.le_max_left k k') h
  have h2 := wlAncWhile_le (Nat.le_max_right f f') (Nat.le_max_right k k') h'
  rw [h1] at h2
  exact Option.some.inj h2

theorem wlAncLoop_le [SharedNode W N V I] {f f' : Nat} (hf : f ≤ f') {b : Bool} {queue : List (Peeked N I)} {cs : Bfs.CacheState V} {w : W}
    {r : Except Panic (WlAnc N V I × W)} (h : wlAncLoop f b queue cs w = some r) : wlAncLoop f' b queue cs w = some r := by
  obtain ⟨d, rfl⟩ := Nat.exists_eq_add_of_le hf
  clear hf
  induction d with
  | zero => exact h
  | succ d ih => exact wlAncLoop_mono _ _ _ _ _ _ ih

/-! ## Nodes that share no state -/

section General
variable [TreeNode N V]
attribute [local instance] plainNode

open Bfs (CacheState settle)

theorem wideAncLoop_plain (queue : List (List N)) (cs : CacheState V) (w : W) :
    wideAncLoop N queue cs w = (Bfs.ancLoop queue cs).map fun t => (⟨t.isRoot, t.cs, t.queue⟩, w) := by
  fun_induction Bfs.ancLoop queue cs with
  | case1 queue cs e h => rw [wideAncLoop, h]; rfl
  | case2 cs cs' h => rw [wideAncLoop, h]; rfl
  | case3 cs cs' h n ns q => rw [wideAncLoop, h]; rfl
  | case4 cs cs' h q e he => rw [wideAncLoop, h]; simp [pollW, he, Except.map]
  | case5 cs cs' h q cs'' he hq => rw [wideAncLoop, h]; simp [pollW, he, hq, Except.map]
  | case6 cs cs' h q cs'' he hq ih => rw [wideAncLoop, h]; simp [pollW, he, hq, ih]

theorem wideAncAdvance_plain (t : Bfs.AncState N V) (w : W) :
    wideAncAdvance N (⟨t.isRoot, t.cs, t.queue⟩ : WideAnc V (List N)) w =
      (Bfs.ancAdvance t).map fun t => (⟨t.isRoot, t.cs, t.queue⟩, w) := by
  unfold wideAncAdvance Bfs.ancAdvance
  split
  · rfl
  · exact wideAncLoop_plain _ _ _

/-- The iterator, which may have been peeked at, has these nodes left. -/
def Left (p : Peeked N (List N)) (l : List N) : Prop := p = ⟨none, l⟩ ∨ p = ⟨some l.head?, l.tail⟩

theorem Left.next {p : Peeked N (List N)} {l : List N} (h : Left p l) (w : W) : p.next w = (l.head?, ⟨none, l.tail⟩, w) := by
  rcases h with rfl | rfl <;> rfl

/-- The states of the two models. -/
def WlRel (t : Bfs.AncState N V) (s : WlAnc N V (List N)) : Prop :=
  s.isRoot = t.isRoot ∧ s.cs = t.cs ∧ List.Forall₂ Left s.queue t.queue

theorem wlAncLoop_plain (b : Bool) (queue : List (List N)) (cs : CacheState V) :
    ∀ (pq : List (Peeked N (List N))) (t : Bfs.AncState N V) (w : W), List.Forall₂ Left pq queue →
      Bfs.lvLoop b queue cs = .ok t → ∃ fuel s, wlAncLoop fuel b pq cs w = some (.ok (s, w)) ∧ WlRel t s := by
  fun_induction Bfs.lvLoop b queue cs with
  | case1 b cs =>
    intro pq t w hq h
    cases hq
    cases h
    exact ⟨1, _, rfl, rfl, rfl, .nil⟩
  | case2 b cs it q e hs => intro pq t w hq h; cases h
  | case3 b cs q cs' hs n ns hk =>
    intro pq t w hq h
    cases hq with
    | @cons p _ pq _ h1 h2 =>
      cases h
      have hk : kids n = [] := by simpa using hk
      have hl : Left (⟨some none, []⟩ : Peeked N (List N)) (kids n) := .inr (by rw [hk]; rfl)
      refine ⟨1, ⟨false, { cs' with items := val n :: cs'.items }, (⟨none, ns⟩ :: pq) ++ [⟨some none, []⟩]⟩, ?_,
        rfl, rfl, .cons (.inl rfl) (List.rel_append h2 (.cons hl .nil))⟩
      rw [wlAncLoop, hs]
      simp [h1.next, splitW, pollW, hk]
  | case4 b cs q cs' hs n ns hk ih =>
    intro pq t w hq h
    cases hq with
    | @cons p _ pq _ h1 h2 =>
      obtain ⟨c, cs0, hc⟩ : ∃ c l, kids n = c :: l := by
        cases hl : kids n with
        | nil => simp [hl] at hk
        | cons c l => exact ⟨c, l, rfl⟩
      obtain ⟨fuel, s, hf, hr⟩ := ih ((⟨none, ns⟩ :: pq) ++ [⟨some (kids n).head?, (kids n).tail⟩]) t w
        (.cons (.inl rfl) (List.rel_append h2 (.cons (.inr rfl) .nil))) h
      refine ⟨fuel + 1, s, ?_, hr⟩
      rw [wlAncLoop, hs]
      simp only [h1.next, List.head?_cons, List.tail_cons, splitW, pollW]
      rw [if_pos (by rw [hc]; rfl)]
      exact hf
  | case5 cs q cs' hs =>
    intro pq t w hq h
    cases hq with
    | @cons p _ pq _ h1 h2 =>
      cases h
      refine ⟨1, ⟨false, cs', ⟨none, []⟩ :: pq⟩, ?_, rfl, rfl, .cons (.inl rfl) h2⟩
      rw [wlAncLoop, hs]
      simp [h1.next]
  | case6 b cs q cs' hs hb e he => intro pq t w hq h; cases h
  | case7 b cs q cs' hs hb cs'' he ih =>
    intro pq t w hq h
    cases hq with
    | @cons p _ pq _ h1 h2 =>
      obtain ⟨fuel, s, hf, hr⟩ := ih pq t w h2 h
      refine ⟨fuel + 1, s, ?_, hr⟩
      have hb' : b = false := by simpa using hb
      rw [hb'] at hf
      rw [wlAncLoop, hs]
      simp only [h1.next, List.head?_nil, List.tail_nil, hb', Bool.false_eq_true, if_false, he]
      exact hf

end General

end Shared

end TreeIter
