import Verif.Model.LazyCollPipe
import Verif.Spec.LazyCollPipe
import Verif.Lemmas.LazyPipe
import Verif.Spec.Collection

/-!
# Pipelines on any source of trees run as on the trees it gives first
-/

universe u u' v w x y z t

namespace TreeIter

section Step
variable {S : Type u} {S' : Type u'} {V : Type v} {W : Type x} {σ : Type w}

/-- Whatever `B` does, `A` does, as long as `B` does not end; and when `B` ends, either `A` ends as well, or `B` is in a
state `D`, in which it stays. -/
structure Follows (fuel : Nat) (A : Source S V σ) (B : Pipe S' V σ) (G : S → S' → Prop) (D : S' → Prop) : Prop where
  next : ∀ {s s' w v t' w'}, G s s' → B.size s' < fuel → B.next s' w = .ok (v, t', w') →
    (∃ t, A.next s w = .ok (v, t, w') ∧ G t t' ∧ B.size t' ≤ B.size s') ∨ (v = none ∧ D t')
  path : ∀ {s s'}, G s s' → A.path s = B.path s'
  prune : ∀ {s s'}, G s s' → G (A.prune s) (B.prune s')
  stop : ∀ {s' : S'} (w : σ), D s' → ∃ t' w', B.next s' w = .ok (none, t', w') ∧ D t'

variable {fuel : Nat} {A : Source S V σ} {B : Pipe S' V σ} {G : S → S' → Prop} {D : S' → Prop}

theorem Follows.map (h : Follows fuel A B G D) (f : σ → V → σ × W) : Follows fuel (A.map f) (B.map f) G D where
  next {s s' w v t' w'} hg hf hn := by
    simp only [Source.map, Pipe.map] at hn ⊢
    split at hn
    · simp at hn
    · next h1 =>
      simp only [Except.ok.injEq, Prod.mk.injEq] at hn
      obtain ⟨rfl, rfl, rfl⟩ := hn
      rcases h.next hg hf h1 with ⟨t, h2, h3⟩ | h2
      · exact .inl ⟨t, by rw [h2], h3⟩
      · exact .inr ⟨rfl, h2.2⟩
    · next h1 =>
      simp only [Except.ok.injEq, Prod.mk.injEq] at hn
      obtain ⟨rfl, rfl, rfl⟩ := hn
      rcases h.next hg hf h1 with ⟨t, h2, h3⟩ | h2
      · exact .inl ⟨t, by rw [h2], h3⟩
      · simp at h2
  path := h.path
  prune := h.prune
  stop {s'} w hd := by
    obtain ⟨t', w', h1, h2⟩ := h.stop w hd
    exact ⟨t', w', by simp only [Pipe.map, h1], h2⟩

theorem Follows.pruneDepth (h : Follows fuel A B G D) (d : Nat) :
    Follows fuel (A.collPruneDepth d) (B.pruneDepth Pipe.collDepth d) G D where
  next {s s' w v t' w'} hg hf hn := by
    simp only [Source.collPruneDepth, Pipe.pruneDepth] at hn ⊢
    split at hn
    · simp at hn
    · next h1 =>
      simp only [Except.ok.injEq, Prod.mk.injEq] at hn
      obtain ⟨rfl, rfl, rfl⟩ := hn
      rcases h.next hg hf h1 with ⟨t, h2, h3⟩ | h2
      · exact .inl ⟨t, by rw [h2], h3⟩
      · exact .inr ⟨rfl, h2.2⟩
    · next h1 =>
      rcases h.next hg hf h1 with ⟨t, h2, h3⟩ | h2
      · split at hn
        · simp at hn
        · next m hm =>
          simp only [Except.ok.injEq, Prod.mk.injEq] at hn
          obtain ⟨rfl, rfl, rfl⟩ := hn
          simp only [h2, h.path h3.1, hm]
          refine .inl ⟨_, rfl, ?_⟩
          split
          · exact ⟨h.prune h3.1, Nat.le_trans (B.size_prune _) h3.2⟩
          · exact h3
      · simp at h2
  path := h.path
  prune := h.prune
  stop {s'} w hd := by
    obtain ⟨t', w', h1, h2⟩ := h.stop w hd
    exact ⟨t', w', by simp only [Pipe.pruneDepth, h1], h2⟩

/-- The states of a `prune` stage. -/
def FollowG (G : S → S' → Prop) (s : Pipe.PruneState S) (s' : Pipe.PruneState S') : Prop :=
  G s.inner s'.inner ∧ s.pruned = s'.pruned ∧ s.current = s'.current

theorem Follows.pruneNext (h : Follows fuel A B G D) (f : σ → List Nat → V → σ × Bool) {k : Nat} (hk : k ≤ fuel)
    {s : Pipe.PruneState S} {s' : Pipe.PruneState S'} {w : σ} {v : Option V} {t' : Pipe.PruneState S'} {w' : σ}
    (hg : FollowG G s s') (hf : B.size s'.inner < k) (hn : B.pruneNext f s' w = .ok (v, t', w')) :
    (∃ t, A.pruneNext f k s w = .ok (v, t, w') ∧ FollowG G t t' ∧ B.size t'.inner ≤ B.size s'.inner) ∨
      (v = none ∧ D t'.inner) := by
  induction k generalizing s s' w with
  | zero => omega
  | succ k ih =>
    obtain ⟨i, p, c⟩ := s
    obtain ⟨i', p', c'⟩ := s'
    obtain ⟨g1, g2, g3⟩ := hg
    simp only at g1 g2 g3 hf
    subst g2 g3
    rw [pruneNext_unfold] at hn
    rw [Source.pruneNext]
    simp only at hn ⊢
    cases hb : B.next i' w with
    | error e => simp [hb] at hn
    | ok r =>
      obtain ⟨_ | v1, t1, w1⟩ := r
      · simp only [hb, Except.ok.injEq, Prod.mk.injEq] at hn
        obtain ⟨rfl, rfl, rfl⟩ := hn
        rcases h.next g1 (Nat.lt_of_lt_of_le hf hk) hb with ⟨t, h2, h3⟩ | h2
        · exact .inl ⟨⟨t, [], []⟩, by simp only [h2], ⟨h3.1, rfl, rfl⟩, h3.2⟩
        · exact .inr h2
      · rcases h.next g1 (Nat.lt_of_lt_of_le hf hk) hb with ⟨t, h2, h3⟩ | h2
        · simp only [hb] at hn
          have hs := Nat.le_trans (B.size_prune _) h3.2
          simp only [h2, h.path h3.1]
          split at hn
          · next hc =>
            rw [if_pos hc]
            split at hn
            · simp at hn
            · next q hq =>
              simp only [hq]
              rcases ih (s := ⟨A.prune t, q, _⟩) (by omega) ⟨h.prune h3.1, rfl, rfl⟩
                (Nat.lt_of_le_of_lt (B.size_prune _) (by have := B.size_next hb; omega)) hn with ⟨t2, h4, h5, h6⟩ | h4
              · exact .inl ⟨t2, h4, h5, Nat.le_trans h6 hs⟩
              · exact .inr h4
          · next hc =>
            rw [if_neg hc]
            simp only [Except.ok.injEq, Prod.mk.injEq] at hn
            obtain ⟨rfl, rfl, rfl⟩ := hn
            exact .inl ⟨_, rfl, ⟨h3.1, rfl, rfl⟩, h3.2⟩
        · simp at h2

theorem Follows.prunePath (h : Follows fuel A B G D) (f : σ → List Nat → V → σ × Bool) :
    Follows fuel (A.prunePath fuel f) (B.prunePath f) (FollowG G) fun s => D s.inner where
  next hg hf hn := h.pruneNext f (Nat.le_refl _) hg hf hn
  path hg := hg.2.2
  prune hg := ⟨h.prune hg.1, hg.2⟩
  stop {s'} w hd := by
    obtain ⟨t', w', h1, h2⟩ := h.stop w hd
    refine ⟨⟨t', [], []⟩, w', ?_, h2⟩
    show B.pruneNext f s' w = _
    rw [pruneNext_unfold, h1]

theorem Follows.binPrunePath (h : Follows fuel A B G D) (f : σ → List Nat → V → σ × Bool) :
    Follows fuel (A.binPrunePath fuel f) (B.binPrunePath f) G D where
  next {s s' w v t' w'} hg hf hn := by
    simp only [Source.binPrunePath, Pipe.binPrunePath] at hn ⊢
    suffices ∀ k ≤ fuel, ∀ s s' w, G s s' → B.size s' < k → B.binPrunePathNext f s' w = .ok (v, t', w') →
      (∃ t, A.binPruneNext f k s w = .ok (v, t, w') ∧ G t t' ∧ B.size t' ≤ B.size s') ∨ (v = none ∧ D t') from
        this fuel (Nat.le_refl _) s s' w hg hf hn
    intro k
    induction k with
    | zero => intro _ _ _ _ _ hf; omega
    | succ k ih =>
      intro hk s s' w hg hf hn
      rw [binPrunePathNext_unfold] at hn
      rw [Source.binPruneNext]
      cases hb : B.next s' w with
      | error e => simp [hb] at hn
      | ok r =>
        obtain ⟨_ | v1, t1, w1⟩ := r
        · simp only [hb, Except.ok.injEq, Prod.mk.injEq] at hn
          obtain ⟨rfl, rfl, rfl⟩ := hn
          rcases h.next hg (Nat.lt_of_lt_of_le hf hk) hb with ⟨t, h2, h3⟩ | h2
          · exact .inl ⟨t, by simp only [h2], h3⟩
          · exact .inr h2
        · rcases h.next hg (Nat.lt_of_lt_of_le hf hk) hb with ⟨t, h2, h3⟩ | h2
          · simp only [hb] at hn
            have hs := Nat.le_trans (B.size_prune _) h3.2
            simp only [h2, h.path h3.1]
            split at hn
            · next hc =>
              rw [if_pos hc]
              rcases ih (by omega) _ _ _ (h.prune h3.1)
                (Nat.lt_of_le_of_lt (B.size_prune _) (by have := B.size_next hb; omega)) hn with ⟨t2, h4, h5, h6⟩ | h4
              · exact .inl ⟨t2, h4, h5, Nat.le_trans h6 hs⟩
              · exact .inr h4
            · next hc =>
              rw [if_neg hc]
              simp only [Except.ok.injEq, Prod.mk.injEq] at hn
              obtain ⟨rfl, rfl, rfl⟩ := hn
              exact .inl ⟨_, rfl, h3⟩
          · simp at h2
  path := h.path
  prune := h.prune
  stop {s'} w hd := by
    obtain ⟨t', w', h1, h2⟩ := h.stop w hd
    refine ⟨t', w', ?_, h2⟩
    show B.binPrunePathNext f s' w = _
    rw [binPrunePathNext_unfold, h1]

end Step

/-! ## Chains -/

section Chains
variable {S : Type u} {S' : Type u'} {V : Type v} {σ : Type w}
  {fuel : Nat} {A : Source S V σ} {B : Pipe S' V σ} {G : S → S' → Prop} {D : S' → Prop}

theorem Follows.chain (h : Follows fuel A B G D) {W : Type v} (c : Chain σ V W) :
    ∃ (Gc : c.St S → c.St S' → Prop) (Dc : c.St S' → Prop), Follows fuel (c.collLazyPipe A fuel) (c.collPipe B) Gc Dc ∧
      (∀ {s s'}, Gc s s' → G (c.base s) (c.base s')) ∧ (∀ {s s'}, G s s' → Gc (c.collInit s) (c.collInit s')) ∧
      (∀ s', (c.collPipe B).size (c.collInit s') = B.size s') ∧ ∀ {s'}, Dc s' → D (c.base s') := by
  induction c with
  | source => exact ⟨G, D, h, fun h => h, fun h => h, fun _ => rfl, fun h => h⟩
  | map c f ih =>
    obtain ⟨Gc, Dc, h1, h2, h3, h4, h5⟩ := ih
    exact ⟨Gc, Dc, h1.map f, h2, h3, h4, h5⟩
  | prune c f ih =>
    obtain ⟨Gc, Dc, h1, h2, h3, h4, h5⟩ := ih
    exact ⟨FollowG Gc, _, h1.prunePath _, fun h => h2 h.1, fun h => ⟨h3 h, rfl, rfl⟩, h4, h5⟩
  | prunePath c f ih =>
    obtain ⟨Gc, Dc, h1, h2, h3, h4, h5⟩ := ih
    exact ⟨FollowG Gc, _, h1.prunePath _, fun h => h2 h.1, fun h => ⟨h3 h, rfl, rfl⟩, h4, h5⟩
  | pruneDepth c d ih =>
    obtain ⟨Gc, Dc, h1, h2, h3, h4, h5⟩ := ih
    exact ⟨Gc, Dc, h1.pruneDepth d, h2, h3, h4, h5⟩

theorem Follows.binChain (h : Follows fuel A B G D) {W : Type v} (c : Chain σ V W) :
    Follows fuel (c.binCollLazyPipe A fuel) (c.binCollPipe B) G D ∧ ∀ s', (c.binCollPipe B).size s' = B.size s' := by
  induction c with
  | source => exact ⟨h, fun _ => rfl⟩
  | map c f ih => exact ⟨ih.1.map f, ih.2⟩
  | prune c f ih =>
    refine ⟨?_, ih.2⟩
    show Follows fuel ((c.binCollLazyPipe A fuel).binPrunePath fuel _) ((c.binCollPipe B).binPrune f) G D
    rw [binPrune_eq]
    exact ih.1.binPrunePath _
  | prunePath c f ih => exact ⟨ih.1.binPrunePath f, ih.2⟩
  | pruneDepth c d ih => exact ⟨ih.1.pruneDepth d, ih.2⟩

end Chains

/-! ## Ends -/

section Ends
variable {S : Type u} {S' : Type u'} {V : Type v} {σ : Type w} {Q : Type x} {O : Type y} {τ : Type z}
  {fuel : Nat} {A : Source S V σ} {B : Pipe S' V σ} {G : S → S' → Prop} {D : S' → Prop}

theorem CollEnd.loop_unfold (E : CollEnd Q V O τ) (M : Pipe S' V σ) (s : S') (w : σ) (q : Q) (t : τ) :
    E.loop M s w q t =
      match M.next s w with
      | .error e => .error e
      | .ok (none, s', w') =>
        match E.drain q t with
        | .error e => .error e
        | .ok (o, t') => .ok (o, (s', none), w', t')
      | .ok (some v, s', w') =>
        match E.step q (M.path s') v t with
        | .error e => .error e
        | .ok (.inl o, t') => .ok (some o, (s', some v), w', t')
        | .ok (.inr q', t') => E.loop M s' w' q' t' := by
  rw [CollEnd.loop]
  split
  · simp only [*]
  · simp only [*]
    rcases E.drain q t with _ | ⟨_, _⟩ <;> rfl
  · simp only [*]
    rcases E.step q _ _ t with _ | ⟨_ | _, _⟩ <;> rfl

theorem Follows.loop (h : Follows fuel A B G D) (E : CollEnd Q V O τ) {k : Nat} (hk : k ≤ fuel) {s : S} {s' : S'}
    {w : σ} {q : Q} {t : τ} {o : Option O} {st' : S' × Option V} {w' : σ} {t' : τ} (hg : G s s') (hf : B.size s' < k)
    (hn : E.loop B s' w q t = .ok (o, st', w', t')) :
    (∃ s1, E.lazyLoop A k s w q t = .ok (o, (s1, st'.2), w', t') ∧ G s1 st'.1 ∧ B.size st'.1 ≤ B.size s') ∨
      (D st'.1 ∧ st'.2 = none) := by
  induction k generalizing s s' w q t with
  | zero => omega
  | succ k ih =>
    rw [CollEnd.loop_unfold] at hn
    rw [CollEnd.lazyLoop]
    cases hb : B.next s' w with
    | error e => simp [hb] at hn
    | ok r =>
      obtain ⟨_ | v1, t1, w1⟩ := r
      · simp only [hb] at hn
        cases hd : E.drain q t with
        | error e => simp [hd] at hn
        | ok r =>
          simp only [hd, Except.ok.injEq, Prod.mk.injEq] at hn
          obtain ⟨rfl, rfl, rfl, rfl⟩ := hn
          rcases h.next hg (Nat.lt_of_lt_of_le hf hk) hb with ⟨t2, h2, h3⟩ | h2
          · exact .inl ⟨t2, by simp only [h2], h3⟩
          · exact .inr ⟨h2.2, rfl⟩
      · rcases h.next hg (Nat.lt_of_lt_of_le hf hk) hb with ⟨t2, h2, h3⟩ | h2
        · simp only [hb] at hn
          simp only [h2, h.path h3.1]
          cases hs : E.step q (B.path t1) v1 t with
          | error e => simp [hs] at hn
          | ok r =>
            obtain ⟨o1 | q1, t3⟩ := r
            · simp only [hs, Except.ok.injEq, Prod.mk.injEq] at hn
              obtain ⟨rfl, rfl, rfl, rfl⟩ := hn
              exact .inl ⟨t2, rfl, h3⟩
            · simp only [hs] at hn
              rcases ih (by omega) h3.1 (by have := B.size_next hb; omega) hn with ⟨s1, h4, h5, h6⟩ | h4
              · exact .inl ⟨s1, h4, h5, Nat.le_trans h6 h3.2⟩
              · exact .inr h4
        · simp at h2

theorem Follows.lazyNext (h : Follows fuel A B G D) (E : CollEnd Q V O τ) {s : S} {s' : S'} {pk : Option V}
    {w : σ} {t : τ} {o : Option O} {st' : S' × Option V} {w' : σ} {t' : τ} (hg : G s s') (hf : B.size s' < fuel)
    (hn : E.next B (s', pk) w t = .ok (o, st', w', t')) :
    (∃ s1, E.lazyNext A fuel (s, pk) w t = .ok (o, (s1, st'.2), w', t') ∧ G s1 st'.1 ∧ B.size st'.1 ≤ B.size s') ∨
      (D st'.1 ∧ st'.2 = none) := by
  cases pk with
  | none => exact h.loop E (Nat.le_refl _) hg hf hn
  | some v =>
    simp only [CollEnd.next] at hn
    simp only [CollEnd.lazyNext, h.path hg]
    cases hs : E.step E.empty (B.path s') v t with
    | error e => simp [hs] at hn
    | ok r =>
      obtain ⟨o1 | q1, t3⟩ := r
      · simp only [hs, Except.ok.injEq, Prod.mk.injEq] at hn
        obtain ⟨rfl, rfl, rfl, rfl⟩ := hn
        exact .inl ⟨s, rfl, hg, Nat.le_refl _⟩
      · simp only [hs] at hn
        exact h.loop E (Nat.le_refl _) hg hf hn

/-- If the pipeline on the list of the first trees has a result for one more call, then the calls before give the same on
the source. -/
theorem Follows.calls (h : Follows fuel A B G D) (E : CollEnd Q V O τ) (hE : ∀ t, E.drain E.empty t = .ok (none, t))
    {k : Nat} {s : S} {s' : S'} {pk : Option V} {w : σ} {t : τ} {os : List (Option O)} {r : σ × τ} (hg : G s s')
    (hf : B.size s' < fuel) (hn : E.calls B (k + 1) (s', pk) w t = .ok (os, r)) (hos : none ∉ os) :
    ∃ s1 s1' pk1 r1, E.lazyCalls A fuel k (s, pk) w t = .ok (os.take k, (s1, pk1), r1) ∧ G s1 s1' := by
  induction k generalizing s s' pk w t os with
  | zero => exact ⟨s, s', pk, (w, t), by simp [CollEnd.lazyCalls], hg⟩
  | succ k ih =>
    rw [CollEnd.calls] at hn
    cases h1 : E.next B (s', pk) w t with
    | error e => simp [h1] at hn
    | ok x =>
      obtain ⟨o, st', w', t'⟩ := x
      simp only [h1] at hn
      cases h2 : E.calls B (k + 1) st' w' t' with
      | error e => simp [h2] at hn
      | ok y =>
        obtain ⟨l, r2⟩ := y
        simp only [h2, Except.ok.injEq, Prod.mk.injEq] at hn
        obtain ⟨rfl, rfl⟩ := hn
        rcases h.lazyNext E hg hf h1 with ⟨s1, h3, h4, h5⟩ | ⟨h3, h4⟩
        · obtain ⟨s2, s2', pk2, r3, h6, h7⟩ := ih h4 (by omega) (show E.calls B (k + 1) (st'.1, st'.2) w' t' = _ from h2)
            (fun hm => hos (List.mem_cons_of_mem _ hm))
          exact ⟨s2, s2', pk2, r3, by simp only [CollEnd.lazyCalls, h3, h6, List.take_succ_cons], h7⟩
        · exfalso
          obtain ⟨s1, pk1⟩ := st'
          simp only at h3 h4
          subst h4
          obtain ⟨s2, w2, h5, -⟩ := h.stop w' h3
          have h6 : E.next B (s1, none) w' t' = .ok (none, (s2, none), w2, t') := by
            simp only [CollEnd.next]
            rw [CollEnd.loop_unfold]
            simp only [h5, hE]
          rw [CollEnd.calls, h6] at h2
          simp only at h2
          cases h7 : E.calls B k (s2, none) w2 t' with
          | error e => simp [h7] at h2
          | ok z =>
            simp only [h7, Except.ok.injEq, Prod.mk.injEq] at h2
            rw [← h2.1] at hos
            simp at hos

/-- If the source ends where the list does, all calls give the same. -/
theorem Follows.allCalls (h : Follows fuel A B G D) (hD : ∀ s', ¬ D s') (E : CollEnd Q V O τ)
    {k : Nat} {s : S} {s' : S'} {pk : Option V} {w : σ} {t : τ} {os : List (Option O)} {r : σ × τ} (hg : G s s')
    (hf : B.size s' < fuel) (hn : E.calls B k (s', pk) w t = .ok (os, r)) :
    ∃ s1 s1' pk1, E.lazyCalls A fuel k (s, pk) w t = .ok (os, (s1, pk1), r) ∧ G s1 s1' := by
  induction k generalizing s s' pk w t os with
  | zero =>
    simp only [CollEnd.calls, Except.ok.injEq, Prod.mk.injEq] at hn
    obtain ⟨rfl, rfl⟩ := hn
    exact ⟨s, s', pk, by simp [CollEnd.lazyCalls], hg⟩
  | succ k ih =>
    rw [CollEnd.calls] at hn
    cases h1 : E.next B (s', pk) w t with
    | error e => simp [h1] at hn
    | ok x =>
      obtain ⟨o, st', w', t'⟩ := x
      simp only [h1] at hn
      cases h2 : E.calls B k st' w' t' with
      | error e => simp [h2] at hn
      | ok y =>
        obtain ⟨l, r2⟩ := y
        simp only [h2, Except.ok.injEq, Prod.mk.injEq] at hn
        obtain ⟨rfl, rfl⟩ := hn
        rcases h.lazyNext E hg hf h1 with ⟨s1, h3, h4, h5⟩ | h3
        · obtain ⟨s2, s2', pk2, h6, h7⟩ := ih h4 (by omega) (show E.calls B k (st'.1, st'.2) w' t' = _ from h2)
          exact ⟨s2, s2', pk2, by simp only [CollEnd.lazyCalls, h3, h6], h7⟩
        · exact (hD _ h3.1).elim

end Ends

/-! ## The source -/

section Base
variable {C : Type u} {N : Type t} {S : Type v} {V : Type x} {σ : Type w}

/-- A pipeline that has ended stays so, and has nothing left. -/
structure Stops (P : Pipe S V σ) (D : S → Prop) : Prop where
  ended : ∀ {s w s' w'}, P.next s w = .ok (none, s', w') → D s'
  stays : ∀ {s} (w : σ), D s → ∃ s', P.next s w = .ok (none, s', w) ∧ D s'
  size : ∀ {s}, D s → P.size s = 0

/-- The source has given the first trees of the list `ns`, or (only if `fin`) all of them and then `None`. -/
def BaseG (poll : C → Option N × C) (c : C) (ns : List N) (fin : Prop) (s : LazyCollPipe.State C S)
    (s' : CollPipe.State N S) : Prop :=
  s.index = s'.index ∧ s.current = s'.current ∧ s'.rest = ns.drop s'.index ∧ s'.index ≤ ns.length ∧
    ((s.ended = false ∧ s.source = polled poll s'.index c) ∨
      (fin ∧ s.ended = true ∧ s'.index = ns.length ∧ s.source = polled poll (ns.length + 1) c))

/-- The pipeline on the list has ended. -/
def BaseD (D : S → Prop) (fin : Prop) (s' : CollPipe.State N S) : Prop :=
  ¬ fin ∧ s'.rest = [] ∧ ∀ c, s'.current = some c → D c

theorem polled_step (poll : C → Option N × C) (i : Nat) (c : C) : polled poll (i + 1) c = (poll (polled poll i c)).2 := by
  induction i generalizing c with
  | zero => rfl
  | succ i ih => rw [polled, ih]; rfl

theorem drop_cons_get {ns : List N} {i : Nat} {n : N} {rest : List N} (h : n :: rest = ns.drop i) :
    ∃ hi : i < ns.length, ns[i] = n ∧ rest = ns.drop (i + 1) := by
  have hi : i < ns.length := by
    rcases Nat.lt_or_ge i ns.length with h1 | h1
    · exact h1
    · rw [List.drop_eq_nil_of_le h1] at h
      simp at h
  rw [List.drop_eq_getElem_cons hi] at h
  simp only [List.cons.injEq] at h
  exact ⟨hi, h.1.symm, h.2⟩

/-- One more tree. -/
theorem ask_more (poll : C → Option N × C) (c : C) (ns : List N) (hb : Begins poll c ns) {i : Nat} (hi : i < ns.length)
    (cur : Option S) :
    LazyCollPipe.ask poll (⟨polled poll i c, false, i, cur⟩ : LazyCollPipe.State C S) =
      (some ns[i], ⟨polled poll (i + 1) c, false, i + 1, cur⟩) := by
  have h1 := hb i hi
  rw [asked] at h1
  rw [polled_step]
  rcases h2 : poll (polled poll i c) with ⟨o, c1⟩
  rw [h2] at h1
  simp only at h1
  subst h1
  simp [LazyCollPipe.ask, h2]

/-- The end of the source. -/
theorem ask_last (poll : C → Option N × C) (c : C) (ns : List N) (hb : asked poll ns.length c = none) (cur : Option S) :
    LazyCollPipe.ask poll (⟨polled poll ns.length c, false, ns.length, cur⟩ : LazyCollPipe.State C S) =
      (none, ⟨polled poll (ns.length + 1) c, true, ns.length, cur⟩) := by
  rw [asked] at hb
  rw [polled_step]
  rcases h2 : poll (polled poll ns.length c) with ⟨o, c1⟩
  rw [h2] at hb
  simp only at hb
  subst hb
  simp [LazyCollPipe.ask, h2]

/-- The rest of the loop of `next` once the tree at hand has ended. -/
def more (P : Pipe S V σ) (start : N → List Nat → S) (poll : C → Option N × C) (k : Nat) (s : LazyCollPipe.State C S)
    (w : σ) : Except Panic (Option V × LazyCollPipe.State C S × σ) :=
  match LazyCollPipe.ask poll s with
  | (none, s') => .ok (none, s', w)
  | (some n, s') => LazyCollPipe.next P start poll k { s' with current := some (start n [s.index]) } w

theorem next_none (P : Pipe S V σ) (start : N → List Nat → S) (poll : C → Option N × C) (k : Nat)
    (s : LazyCollPipe.State C S) (w : σ) (hs : s.current = none) :
    LazyCollPipe.next P start poll (k + 1) s w = more P start poll k s w := by
  obtain ⟨a, b, i, cur⟩ := s
  simp only at hs
  subst hs
  rw [LazyCollPipe.next, more]
  simp only [LazyCollPipe.tryCurrent]
  rcases LazyCollPipe.ask poll _ with ⟨_ | n, s'⟩ <;> rfl

theorem next_some (P : Pipe S V σ) (start : N → List Nat → S) (poll : C → Option N × C) (k : Nat)
    (s : LazyCollPipe.State C S) (w : σ) {d : S} (hs : s.current = some d) {v : Option V} {d' : S} {w' : σ}
    (hd : P.next d w = .ok (v, d', w')) :
    LazyCollPipe.next P start poll (k + 1) s w =
      match v with
      | some v => .ok (some v, { s with current := some d' }, w')
      | none => more P start poll k { s with current := some d' } w' := by
  obtain ⟨a, b, i, cur⟩ := s
  simp only at hs
  subst hs
  rw [LazyCollPipe.next]
  cases v with
  | some v => simp [LazyCollPipe.tryCurrent, hd]
  | none =>
    simp only [LazyCollPipe.tryCurrent, hd, more]
    rcases LazyCollPipe.ask poll _ with ⟨_ | n, s'⟩ <;> rfl

theorem more_follows {P : Pipe S V σ} {D : S → Prop} (hP : Stops P D) (start : N → List Nat → S)
    (poll : C → Option N × C) (c : C) (ns : List N) (hb : Begins poll c ns) (fin : Prop)
    (hfin : fin → asked poll ns.length c = none) {rest : List N} {k : Nat} :
    ∀ {i : Nat} {cur : Option S} {w : σ} {v : Option V} {t' : CollPipe.State N S} {w' : σ},
    rest = ns.drop i → i ≤ ns.length → rest.length ≤ k → (∀ d, cur = some d → D d) →
    CollPipe.advance P start rest i cur w = .ok (v, t', w') →
    ((∃ t, more P start poll k ⟨polled poll i c, false, i, cur⟩ w = .ok (v, t, w') ∧ BaseG poll c ns fin t t') ∨
      (v = none ∧ BaseD D fin t')) ∧
    (v = none → CollPipe.size P start t' = 0) := by
  induction rest generalizing k with
  | nil =>
    intro i cur w v t' w' hr hi hk hc hn
    simp only [CollPipe.advance, Except.ok.injEq, Prod.mk.injEq] at hn
    obtain ⟨rfl, rfl, rfl⟩ := hn
    have hl : i = ns.length := by
      have := congrArg List.length hr
      simp only [List.length_nil, List.length_drop] at this
      omega
    constructor
    · by_cases hf : fin
      · subst hl
        refine .inl ⟨⟨polled poll (ns.length + 1) c, true, ns.length, cur⟩, ?_, rfl, rfl, hr, Nat.le_refl _,
          .inr ⟨hf, rfl, rfl, rfl⟩⟩
        rw [more, ask_last poll c ns (hfin hf)]
      · exact .inr ⟨rfl, hf, rfl, hc⟩
    · intro _
      cases cur with
      | none => rfl
      | some d =>
        simp only [CollPipe.size, Option.map_some, Option.getD_some, CollPipe.sizes, hP.size (hc d rfl)]
  | cons n rest ih =>
    intro i cur w v t' w' hr hi hk hc hn
    obtain ⟨hi', hn1, hr'⟩ := drop_cons_get hr
    rw [CollPipe.advance] at hn
    have hm : more P start poll k ⟨polled poll i c, false, i, cur⟩ w =
        LazyCollPipe.next P start poll k ⟨polled poll (i + 1) c, false, i + 1, some (start n [i])⟩ w := by
      rw [more, ask_more poll c ns hb hi', hn1]
    rw [hm]
    cases k with
    | zero => simp at hk
    | succ k =>
      cases hx : P.next (start n [i]) w with
      | error e => simp [hx] at hn
      | ok r =>
        obtain ⟨_ | v1, d1, w1⟩ := r
        · simp only [hx] at hn
          rw [next_some P start poll k _ w rfl hx]
          simp only
          refine ih hr' hi' (by simpa using hk) (fun d hd => ?_) hn
          simp only [Option.some.injEq] at hd
          rw [← hd]
          exact hP.ended hx
        · simp only [hx, Except.ok.injEq, Prod.mk.injEq] at hn
          obtain ⟨rfl, rfl, rfl⟩ := hn
          rw [next_some P start poll k _ w rfl hx]
          exact ⟨.inl ⟨_, rfl, rfl, rfl, hr', hi', .inl ⟨rfl, rfl⟩⟩, fun h => by simp at h⟩

theorem base_follows {P : Pipe S V σ} {D : S → Prop} (hP : Stops P D) (start : N → List Nat → S)
    (poll : C → Option N × C) (c : C) (ns : List N) (hb : Begins poll c ns) (fin : Prop)
    (hfin : fin → asked poll ns.length c = none) (fuel : Nat) (hfuel : ns.length + 1 < fuel) :
    Follows fuel (LazyCollPipe.pipe P start poll fuel) (CollPipe.pipe P start) (BaseG poll c ns fin) (BaseD D fin) where
  next {s s' w v t' w'} hg _ hn := by
    obtain ⟨fuel, rfl⟩ : ∃ m, fuel = m + 1 := ⟨fuel - 1, by omega⟩
    have key : ((∃ t, LazyCollPipe.next P start poll (fuel + 1) s w = .ok (v, t, w') ∧ BaseG poll c ns fin t t') ∨
        (v = none ∧ BaseD D fin t')) ∧ (v = none → CollPipe.size P start t' = 0) := by
      obtain ⟨a, b, i, cur⟩ := s
      obtain ⟨rest, i', cur'⟩ := s'
      obtain ⟨g1, g2, g3, g4, g5⟩ := hg
      simp only at g1 g2 g3 g4 g5
      subst g1 g2
      replace hn : CollPipe.next P start rest i cur w = .ok (v, t', w') := hn
      have hl : rest.length ≤ fuel := by rw [g3, List.length_drop]; omega
      have go : ∀ cur w, (∀ d, cur = some d → D d) → CollPipe.advance P start rest i cur w = .ok (v, t', w') →
          ((∃ t, more P start poll fuel ⟨a, b, i, cur⟩ w = .ok (v, t, w') ∧ BaseG poll c ns fin t t') ∨
            (v = none ∧ BaseD D fin t')) ∧ (v = none → CollPipe.size P start t' = 0) := by
        intro cur w hc hn
        rcases g5 with ⟨rfl, rfl⟩ | ⟨hf, rfl, rfl, rfl⟩
        · exact more_follows hP start poll c ns hb fin hfin g3 g4 hl hc hn
        · have g6 := g3
          rw [List.drop_length] at g6
          subst g6
          simp only [CollPipe.advance, Except.ok.injEq, Prod.mk.injEq] at hn
          obtain ⟨rfl, rfl, rfl⟩ := hn
          refine ⟨.inl ⟨_, rfl, rfl, rfl, g3, Nat.le_refl _, .inr ⟨hf, rfl, rfl, rfl⟩⟩, fun _ => ?_⟩
          cases cur with
          | none => rfl
          | some d =>
            simp only [CollPipe.size, Option.map_some, Option.getD_some, CollPipe.sizes, hP.size (hc d rfl)]
      cases cur with
      | none =>
        rw [next_none P start poll fuel _ w rfl]
        exact go none w (fun d hd => by simp at hd) hn
      | some d =>
        simp only [CollPipe.next] at hn
        cases hx : P.next d w with
        | error e => simp [hx] at hn
        | ok r =>
          obtain ⟨_ | v1, d1, w1⟩ := r
          · simp only [hx] at hn
            rw [next_some P start poll fuel _ w rfl hx]
            refine go (some d1) w1 (fun d hd => ?_) hn
            simp only [Option.some.injEq] at hd
            rw [← hd]
            exact hP.ended hx
          · simp only [hx, Except.ok.injEq, Prod.mk.injEq] at hn
            obtain ⟨rfl, rfl, rfl⟩ := hn
            rw [next_some P start poll fuel _ w rfl hx]
            exact ⟨.inl ⟨_, rfl, rfl, rfl, g3, g4, g5⟩, fun h => by simp at h⟩
    rcases key with ⟨⟨t, h1, h2⟩ | h1, h3⟩
    · refine .inl ⟨t, h1, h2, ?_⟩
      cases v with
      | none =>
        show CollPipe.size P start t' ≤ _
        rw [h3 rfl]
        exact Nat.zero_le _
      | some v => exact Nat.le_of_lt ((CollPipe.pipe P start).size_next hn)
    · exact .inr h1
  path {s s'} hg := by
    show (match s.current with | none => [] | some c => P.path c) = match s'.current with | none => [] | some c => P.path c
    rw [hg.2.1]
  prune {s s'} hg := by
    obtain ⟨h1, h2, h3⟩ := hg
    refine ⟨h1, ?_, h3⟩
    show s.current.map P.prune = s'.current.map P.prune
    rw [h2]
  stop {s'} w hd := by
    obtain ⟨rest, index, current⟩ := s'
    obtain ⟨h1, h2, h3⟩ := hd
    simp only at h2 h3
    subst h2
    cases current with
    | none => exact ⟨⟨[], index, none⟩, w, rfl, h1, rfl, fun c hc => by simp at hc⟩
    | some c =>
      obtain ⟨c', h4, h5⟩ := hP.stays w (h3 c rfl)
      refine ⟨⟨[], index, some c'⟩, w, ?_, h1, rfl, fun c hc => ?_⟩
      · simp [CollPipe.pipe, CollPipe.next, h4, CollPipe.advance]
      · simp only [Option.some.injEq] at hc
        rw [← hc]
        exact h5

end Base

section Tracks
variable {N : Type u} {V : Type v} {σ : Type w}

theorem track_stops [TreeNode N V] :
    Stops (Track.pipe (N := N) (V := V) σ) fun s => s.root = none ∧ s.onDeck = none ∧ s.stack = [] where
  ended {s w s' w'} h := by
    have hl : ∀ (st : List (List N)) (p : List Nat), Track.loop (V := V) st p = .ok (none, s') →
        s'.root = none ∧ s'.onDeck = none ∧ s'.stack = [] := by
      intro st p h
      fun_induction Track.loop (V := V) st p with
      | case1 =>
        simp only [Except.ok.injEq, Prod.mk.injEq] at h
        rw [← h.2]
        exact ⟨rfl, rfl, rfl⟩
      | case2 => simp at h
      | case3 => simp at h
      | case4 _ _ ih => exact ih h
    obtain ⟨root, path, onDeck, stack⟩ := s
    have h1 : Track.next ⟨root, path, onDeck, stack⟩ = .ok ((none : Option V), s') := by
      simp only [Track.pipe] at h
      split at h
      · simp at h
      · next h2 =>
        simp only [Except.ok.injEq, Prod.mk.injEq] at h
        rw [h2, h.1, h.2.1]
    rw [Track.next] at h1
    cases root with
    | some r => simp at h1
    | none =>
      cases onDeck with
      | none => exact hl _ _ h1
      | some cs => exact hl _ _ h1
  stays {s} w h := by
    obtain ⟨root, path, onDeck, stack⟩ := s
    simp only at h
    obtain ⟨rfl, rfl, rfl⟩ := h
    exact ⟨⟨none, path, none, []⟩, rfl, rfl, rfl, rfl⟩
  size {s} h := by
    obtain ⟨root, path, onDeck, stack⟩ := s
    simp only at h
    obtain ⟨rfl, rfl, rfl⟩ := h
    rfl

theorem binTrack_stops [BinNode N V] :
    Stops (Track.binPipe (N := N) (V := V) σ) fun s => s.root = none ∧ s.onDeck = none ∧ s.stack = [] where
  ended {s w s' w'} h := by
    have hl : ∀ (st : List (List (Option N))) (p : List Nat), Track.binLoop (V := V) st p = .ok (none, s') →
        s'.root = none ∧ s'.onDeck = none ∧ s'.stack = [] := by
      intro st p h
      fun_induction Track.binLoop (V := V) st p with
      | case1 =>
        simp only [Except.ok.injEq, Prod.mk.injEq] at h
        rw [← h.2]
        exact ⟨rfl, rfl, rfl⟩
      | case2 => simp at h
      | case3 => simp at h
      | case4 _ _ _ _ ih => exact ih h
      | case5 _ _ ih => exact ih h
    obtain ⟨root, path, onDeck, stack⟩ := s
    have h1 : Track.binNext ⟨root, path, onDeck, stack⟩ = .ok ((none : Option V), s') := by
      simp only [Track.binPipe] at h
      split at h
      · simp at h
      · next h2 =>
        simp only [Except.ok.injEq, Prod.mk.injEq] at h
        rw [h2, h.1, h.2.1]
    rw [Track.binNext] at h1
    cases root with
    | some r => simp at h1
    | none =>
      cases onDeck with
      | none => exact hl _ _ h1
      | some cs => exact hl _ _ h1
  stays {s} w h := by
    obtain ⟨root, path, onDeck, stack⟩ := s
    simp only at h
    obtain ⟨rfl, rfl, rfl⟩ := h
    refine ⟨⟨none, path, none, []⟩, ?_, rfl, rfl, rfl⟩
    simp [Track.binPipe, Track.binNext, Track.binLoop]
  size {s} h := by
    obtain ⟨root, path, onDeck, stack⟩ := s
    simp only at h
    obtain ⟨rfl, rfl, rfl⟩ := h
    rfl

end Tracks

/-! ## Together -/

section Whole
variable {C : Type u} {N : Type t} {V W : Type v} {σ : Type w} {Q : Type x} {O : Type y} {τ : Type z}

/-- The source at the bottom of a chain was asked for no more than the trees `ns`. -/
theorem BaseG.asked_le {S : Type u'} {poll : C → Option N × C} {c : C} {ns : List N} {s : LazyCollPipe.State C S}
    {s' : CollPipe.State N S} (h : BaseG poll c ns False s s') : ∃ m ≤ ns.length, s.source = polled poll m c := by
  obtain ⟨-, -, -, h4, ⟨-, h5⟩ | ⟨h5, -⟩⟩ := h
  · exact ⟨s'.index, h4, h5⟩
  · exact h5.elim

/-- The source at the bottom of a chain was asked for the trees `ns` and at most once more. -/
theorem BaseG.asked_le_succ {S : Type u'} {poll : C → Option N × C} {c : C} {ns : List N} {fin : Prop}
    {s : LazyCollPipe.State C S} {s' : CollPipe.State N S} (h : BaseG poll c ns fin s s') :
    ∃ m ≤ ns.length + 1, s.source = polled poll m c := by
  obtain ⟨-, -, -, h4, ⟨-, h5⟩ | ⟨-, -, -, h5⟩⟩ := h
  · exact ⟨s'.index, by omega, h5⟩
  · exact ⟨ns.length + 1, Nat.le_refl _, h5⟩

theorem BaseG.new {S : Type u'} (poll : C → Option N × C) (c : C) (ns : List N) (fin : Prop) :
    BaseG poll c ns fin (.new c : LazyCollPipe.State C S) (.new ns) :=
  ⟨rfl, rfl, rfl, Nat.zero_le _, .inl ⟨rfl, rfl⟩⟩

theorem seen_full {A : Type u} {k : Nat} {l : List A} (h : k ≤ l.length) : seen k l = (l.take k).map some := by
  apply List.ext_getElem
  · simp only [seen, List.length_map, List.length_range, List.length_take]
    omega
  · intro i h1 h2
    simp only [seen, List.length_map, List.length_range] at h1
    simp only [seen, List.getElem_map, List.getElem_range, List.getElem_take]
    rw [List.getElem?_eq_getElem]

theorem none_notMem_seen {A : Type u} {k : Nat} {l : List A} (h : k ≤ l.length) : none ∉ seen k l := by
  rw [seen_full h]
  intro hm
  obtain ⟨a, -, ha⟩ := List.mem_map.mp hm
  simp at ha

theorem seen_prefix {A : Type u} (k : Nat) (l : List A) : (seen (k + 1) l).take k = seen k l := by
  simp only [seen, ← List.map_take, List.take_range, Nat.min_eq_left (Nat.le_succ k)]

/-- A chain on a source that first gives `ns`: if it has more than `k` results on the list `ns`, the first `k` calls on the
source give these. -/
theorem Chain.coll_begins [TreeNode N V] (c : Chain σ V W) (E : CollEnd Q W O τ)
    (hE : ∀ t, E.drain E.empty t = .ok (none, t)) (poll : C → Option N × C) (s : C) (ns : List N)
    (hb : Begins poll s ns) (k : Nat) (w : σ) (t : τ) (l : List O) (hl : k < l.length) (r : σ × τ)
    (h : E.calls (c.collPipe (Api.collPipe N σ)) (k + 1) (c.collInit (.new ns), none) w t = .ok (seen (k + 1) l, r)) :
    ∃ F, ∀ fuel ≥ F, ∃ st r1, E.lazyCalls (c.collLazyPipe (Api.lazyCollPipe σ poll fuel) fuel) fuel k
        (c.collInit (.new s), none) w t = .ok ((l.take k).map some, st, r1) ∧
      ∃ m ≤ ns.length, (c.base st.1).source = polled poll m s := by
  refine ⟨(Api.collPipe N σ).size (.new ns) + ns.length + 2, fun fuel hf => ?_⟩
  obtain ⟨Gc, Dc, h1, h2, h3, h4, hd⟩ :=
    (base_follows (σ := σ) track_stops Api.startAt poll s ns hb False False.elim fuel (by omega)).chain c
  have h5 : (Api.collPipe N σ).size (.new ns) < fuel := by omega
  replace h5 := Nat.lt_of_le_of_lt (Nat.le_of_eq (h4 (.new ns))) h5
  obtain ⟨s1, s1', pk1, r1, h6, h7⟩ := h1.calls E hE (h3 (BaseG.new poll s ns False)) h5 h (none_notMem_seen hl)
  rw [seen_prefix, seen_full (Nat.le_of_lt hl)] at h6
  exact ⟨(s1, pk1), r1, h6, (h2 h7).asked_le⟩

/-- A chain on a source that gives `ns` and then `None`. -/
theorem Chain.coll_gives [TreeNode N V] (c : Chain σ V W) (E : CollEnd Q W O τ) (poll : C → Option N × C) (s : C)
    (ns : List N) (hb : GivesOnly poll s ns) (w : σ) (t : τ) (l : List O) (R : Nat → σ × τ → Prop)
    (h : ∀ k, ∃ r, E.calls (c.collPipe (Api.collPipe N σ)) k (c.collInit (.new ns), none) w t = .ok (seen k l, r) ∧ R k r) :
    ∃ F, ∀ fuel ≥ F, ∀ k, ∃ st r, E.lazyCalls (c.collLazyPipe (Api.lazyCollPipe σ poll fuel) fuel) fuel k
        (c.collInit (.new s), none) w t = .ok (seen k l, st, r) ∧ R k r ∧
      ∃ m ≤ ns.length + 1, (c.base st.1).source = polled poll m s := by
  refine ⟨(Api.collPipe N σ).size (.new ns) + ns.length + 2, fun fuel hf k => ?_⟩
  obtain ⟨Gc, Dc, h1, h2, h3, h4, hd⟩ :=
    (base_follows (σ := σ) track_stops Api.startAt poll s ns hb.1 True (fun _ => hb.2) fuel (by omega)).chain c
  have h5 : (Api.collPipe N σ).size (.new ns) < fuel := by omega
  replace h5 := Nat.lt_of_le_of_lt (Nat.le_of_eq (h4 (.new ns))) h5
  obtain ⟨r, h6, h7⟩ := h k
  obtain ⟨s1, s1', pk1, h8, h9⟩ := h1.allCalls (fun _ h => (hd h).1 trivial) E (h3 (BaseG.new poll s ns True)) h5 h6
  exact ⟨(s1, pk1), r, h8, h7, (h2 h9).asked_le_succ⟩

/-- The same for binary trees. -/
theorem Chain.binColl_begins [BinNode N V] (c : Chain σ V W) (E : CollEnd Q W O τ)
    (hE : ∀ t, E.drain E.empty t = .ok (none, t)) (poll : C → Option N × C) (s : C) (ns : List N)
    (hb : Begins poll s ns) (k : Nat) (w : σ) (t : τ) (l : List O) (hl : k < l.length) (r : σ × τ)
    (h : E.calls (c.binCollPipe (Api.binCollPipe N σ)) (k + 1) (.new ns, none) w t = .ok (seen (k + 1) l, r)) :
    ∃ F, ∀ fuel ≥ F, ∃ st r1, E.lazyCalls (c.binCollLazyPipe (Api.binLazyCollPipe σ poll fuel) fuel) fuel k
        (.new s, none) w t = .ok ((l.take k).map some, st, r1) ∧
      ∃ m ≤ ns.length, st.1.source = polled poll m s := by
  refine ⟨(Api.binCollPipe N σ).size (.new ns) + ns.length + 2, fun fuel hf => ?_⟩
  obtain ⟨h1, h4⟩ :=
    (base_follows (σ := σ) binTrack_stops Api.binStartAt poll s ns hb False False.elim fuel (by omega)).binChain c
  have h5 : (Api.binCollPipe N σ).size (.new ns) < fuel := by omega
  obtain ⟨s1, s1', pk1, r1, h6, h7⟩ := h1.calls E hE (BaseG.new poll s ns False) (by rw [h4]; exact h5) h
    (none_notMem_seen hl)
  rw [seen_prefix, seen_full (Nat.le_of_lt hl)] at h6
  exact ⟨(s1, pk1), r1, h6, h7.asked_le⟩

theorem Chain.binColl_gives [BinNode N V] (c : Chain σ V W) (E : CollEnd Q W O τ) (poll : C → Option N × C) (s : C)
    (ns : List N) (hb : GivesOnly poll s ns) (w : σ) (t : τ) (l : List O) (R : Nat → σ × τ → Prop)
    (h : ∀ k, ∃ r, E.calls (c.binCollPipe (Api.binCollPipe N σ)) k (.new ns, none) w t = .ok (seen k l, r) ∧ R k r) :
    ∃ F, ∀ fuel ≥ F, ∀ k, ∃ st r, E.lazyCalls (c.binCollLazyPipe (Api.binLazyCollPipe σ poll fuel) fuel) fuel k
        (.new s, none) w t = .ok (seen k l, st, r) ∧ R k r ∧
      ∃ m ≤ ns.length + 1, st.1.source = polled poll m s := by
  refine ⟨(Api.binCollPipe N σ).size (.new ns) + ns.length + 2, fun fuel hf k => ?_⟩
  obtain ⟨h1, h4⟩ :=
    (base_follows (σ := σ) binTrack_stops Api.binStartAt poll s ns hb.1 True (fun _ => hb.2) fuel (by omega)).binChain c
  have h5 : (Api.binCollPipe N σ).size (.new ns) < fuel := by omega
  obtain ⟨r, h6, h7⟩ := h k
  obtain ⟨s1, s1', pk1, h8, h9⟩ := h1.allCalls (fun _ h => h.1 trivial) E (BaseG.new poll s ns True) (by rw [h4]; exact h5) h6
  exact ⟨(s1, pk1), r, h8, h7, h9.asked_le_succ⟩

/-- Not ended, and with nothing left of the tree at hand. -/
def Dry (s : LazyCollPipe.State C (Track.State N (Option N × Option N) (Option N))) : Prop :=
  s.ended = false ∧ ∀ d, s.current = some d → d.root = none ∧ d.onDeck = none ∧ d.stack = []

theorem next_dry [BinNode N V] (poll : C → Option N × C) (hp : ∀ c, (poll c).1 ≠ none) (fuel : Nat)
    (s : LazyCollPipe.State C (Track.State N (Option N × Option N) (Option N))) (w : σ) (hs : Dry s) :
    (Api.binLazyCollPipe σ poll (fuel + 1)).next s w = .error .outOfFuel ∨
      ∃ v s', (Api.binLazyCollPipe σ poll (fuel + 1)).next s w = .ok (some v, s', w) ∧
        Dry ((Api.binLazyCollPipe σ poll (fuel + 1)).prune s') := by
  have hm : ∀ cur, more (Track.binPipe (V := V) σ) Api.binStartAt poll fuel { s with current := cur } w =
        .error .outOfFuel ∨
      ∃ v s', more (Track.binPipe (V := V) σ) Api.binStartAt poll fuel { s with current := cur } w = .ok (some v, s', w) ∧
        Dry ((Api.binLazyCollPipe (V := V) σ poll (fuel + 1)).prune s') := by
    intro cur
    obtain ⟨a, b, i, cur0⟩ := s
    obtain ⟨rfl, -⟩ := hs
    have h1 := hp a
    rcases h2 : poll a with ⟨_ | n, c1⟩
    · simp [h2] at h1
    · have h3 : LazyCollPipe.ask poll (⟨a, false, i, cur⟩ : LazyCollPipe.State C
          (Track.State N (Option N × Option N) (Option N))) = (some n, ⟨c1, false, i + 1, cur⟩) := by
        simp [LazyCollPipe.ask, h2]
      simp only [more, h3]
      cases fuel with
      | zero => exact .inl rfl
      | succ fuel =>
        refine .inr ⟨val2 n, ⟨c1, false, i + 1, some ⟨none, [i], some (split2 n).2, []⟩⟩, ?_, rfl, fun d hd => ?_⟩
        · exact next_some (Track.binPipe (V := V) σ) Api.binStartAt poll fuel
            ⟨c1, false, i + 1, some (Api.binStartAt n [i])⟩ w rfl (v := some (val2 n)) (w' := w)
            (d' := ⟨none, [i], some (split2 n).2, []⟩) rfl
        · simp only [Api.binLazyCollPipe, LazyCollPipe.pipe, Option.map_some, Option.some.injEq] at hd
          subst hd
          exact ⟨rfl, rfl, rfl⟩
  have hn : ∀ s, (Api.binLazyCollPipe (V := V) σ poll (fuel + 1)).next s w =
      LazyCollPipe.next (Track.binPipe σ) Api.binStartAt poll (fuel + 1) s w := fun _ => rfl
  rw [hn]
  obtain ⟨a, b, i, cur⟩ := s
  cases cur with
  | none =>
    rw [next_none _ _ poll fuel _ w rfl]
    exact hm none
  | some d =>
    obtain ⟨d', h1, -⟩ := (binTrack_stops (N := N) (V := V) (σ := σ)).stays w (hs.2 d rfl)
    rw [next_some _ _ poll fuel _ w rfl h1]
    exact hm (some d')

theorem binPruneNext_starves [BinNode N V] (poll : C → Option N × C) (hp : ∀ c, (poll c).1 ≠ none) (fuel k : Nat)
    (s : LazyCollPipe.State C (Track.State N (Option N × Option N) (Option N))) (w : σ) (hs : Dry s) :
    (Api.binLazyCollPipe (V := V) σ poll (fuel + 1)).binPruneNext (fun w _ _ => (w, true)) k s w = .error .outOfFuel := by
  induction k generalizing s with
  | zero => rfl
  | succ k ih =>
    rw [Source.binPruneNext]
    rcases next_dry (V := V) poll hp fuel s w hs with h | ⟨v, s', h1, h2⟩
    · simp only [h]
    · simp only [h1, if_true]
      exact ih _ h2

end Whole

end TreeIter
