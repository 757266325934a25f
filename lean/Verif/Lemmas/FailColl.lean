import Verif.Model.FailColl
import Verif.Spec.FailColl
import Verif.Lemmas.FailPipe
import Verif.Lemmas.Advance

/-! # Collection pipelines whose closures may panic -/

universe u v w x y z

namespace TreeIter

/-! ## The source -/

namespace Fail

variable {N : Type u} {L : Type y} {S : Type v} {V : Type w} {σ : Type x}

/-- The trees to come, the first of them with number `i`. -/
def forestFrom (tree : N → Nat → Tree L) : Nat → List N → List (Nat × Tree L)
  | _, [] => []
  | i, n :: ns => (0, tree n i) :: forestFrom tree (i + 1) ns

theorem forestFrom_const (tree : N → Tree L) (ns : List N) : ∀ i,
    forestFrom (fun n _ => tree n) i ns = ns.map fun n => (0, tree n) := by
  induction ns with
  | nil => intro i; rfl
  | cons n ns ih => intro i; rw [forestFrom, ih, List.map_cons]

/-- The pending trees of the source: those of the tree at hand, and the trees to come. -/
def CollPend (ok : N → Prop) (RP : S → List (Nat × Tree L) → Prop) (tree : N → Nat → Tree L) (s : CollPipe.State N S)
    (l : List (Nat × Tree L)) : Prop :=
  ∃ l1, l = l1 ++ forestFrom tree s.index s.rest ∧ (∀ n ∈ s.rest, ok n) ∧
    match s.current with
    | none => l1 = []
    | some c => RP c l1

/-- Some tree is at hand. -/
theorem collNext_turn {P : FPipe S V σ} {start : N → List Nat → S} {A : Nat → L → Bool → List Nat → Prop}
    {r : σ → Nat → L → σ × Option (Option V × Bool)} {ok : N → Prop}
    {RP : S → List (Nat × Tree L) → Prop} {tree : N → Nat → Tree L} (hP : P.Walks A r RP)
    (hs : ∀ n i, ok n → RP (start n [i]) [(0, tree n i)]) {s : CollPipe.State N S} {x : Nat × Tree L} {l : List (Nat × Tree L)}
    (h : CollPend ok RP tree s (x :: l)) (w : σ) :
    ∃ rest index c l1, collNext P start s.rest s.index s.current w = collNext P start rest index (some c) w ∧
      (∀ n ∈ rest, ok n) ∧ RP c (x :: l1) ∧ l = l1 ++ forestFrom tree index rest := by
  obtain ⟨rest, index, current⟩ := s
  obtain ⟨l1, h1, hok, h2⟩ := h
  cases l1 with
  | cons y l1 =>
    simp only [List.cons_append, List.cons.injEq] at h1
    obtain ⟨rfl, h1⟩ := h1
    cases current with
    | none => simp at h2
    | some c => exact ⟨rest, index, c, l1, rfl, hok, h2, h1⟩
  | nil =>
    cases rest with
    | nil => simp [forestFrom] at h1
    | cons n rest =>
      simp only [List.nil_append, forestFrom, List.cons.injEq] at h1
      obtain ⟨rfl, rfl⟩ := h1
      refine ⟨rest, index + 1, start n [index], [], ?_, fun m hm => hok m (by simp [hm]), hs n index (hok n (by simp)), rfl⟩
      have e : ∀ o, collAdvance P start (n :: rest) index o w = collNext P start rest (index + 1) (some (start n [index])) w := by
        intro o
        rw [collAdvance, collNext]
      cases current with
      | none => exact e none
      | some c =>
        obtain ⟨c', k1, -⟩ := hP.done h2 w
        rw [← e (some c'), collNext]
        simp only [k1]

theorem collPipe_walks {P : FPipe S V σ} {start : N → List Nat → S} {A : Nat → L → Bool → List Nat → Prop}
    {r : σ → Nat → L → σ × Option (Option V × Bool)} {ok : N → Prop}
    {RP : S → List (Nat × Tree L) → Prop} {tree : N → Nat → Tree L} (hP : P.Walks A r RP)
    (hs : ∀ n i, ok n → RP (start n [i]) [(0, tree n i)]) : (collPipe P start).Walks A r (CollPend ok RP tree) where
  weak := hP.weak
  done {s} h w := by
    obtain ⟨rest, index, current⟩ := s
    obtain ⟨l1, h1, hok, h2⟩ := h
    have h1 := List.append_eq_nil_iff.1 h1.symm
    obtain ⟨rfl, h1⟩ := h1
    cases rest with
    | cons n rest => simp [forestFrom] at h1
    | nil =>
      cases current with
      | none => exact ⟨⟨[], index, none⟩, rfl, [], rfl, by simp, rfl⟩
      | some c =>
        obtain ⟨c', k1, k2⟩ := hP.done h2 w
        refine ⟨⟨[], index, some c'⟩, ?_, [], rfl, by simp, k2⟩
        simp only [collPipe, collNext, k1, collAdvance]
  drop {s d n cs l} h w e := by
    obtain ⟨rest, index, c, l1, h1, hok, h2, h3⟩ := collNext_turn hP hs h w
    obtain ⟨c', k1, k2⟩ := hP.drop h2 w e
    refine ⟨⟨rest, index, some c'⟩, ?_, l1, h3, hok, k2⟩
    refine h1.trans ?_
    simp only [collPipe, collNext, k1]
  ans {s d n cs l} h w o b e := by
    obtain ⟨rest, index, c, l1, h1, hok, h2, h3⟩ := collNext_turn hP hs h w
    obtain ⟨c', k1, k2, k3, k4⟩ := hP.ans h2 w o b e
    refine ⟨⟨rest, index, some c'⟩, ?_, ⟨_, ?_, hok, k2⟩, ⟨l1, h3, hok, k3⟩, k4⟩
    · refine h1.trans ?_
      simp only [collNext, k1]
    · rw [h3, List.append_assoc]

end Fail

/-! ## Replies with depths -/

namespace FPipe

variable {S : Type u} {N : Type v} {W : Type x} {σ : Type w}

/-- A value is given with the depth of its node. -/
def lev (r : σ → Nat → N → σ × Option (Option W × Bool)) (w : σ) (d : Nat) (n : N) : σ × Option (Option (Nat × W) × Bool) :=
  ((r w d n).1, (r w d n).2.map fun x => (x.1.map (Prod.mk d), x.2))

/-- One call. -/
theorem Walks.callLev {M : FPipe S W σ} {b₀ : Nat} {r : σ → Nat → N → σ × Option (Option W × Bool)}
    {R : S → List (Nat × Tree N) → Prop} (hM : Walks M (lenAt b₀) r R) (l : List (Nat × Tree N)) :
    ∀ {s : S} {w : σ}, R s l → ∃ s' w' l',
      M.next s w = .ok ((repliesP (lev r) w l).1.head?.map (Option.map Prod.snd), s', w') ∧ R s' l' ∧
      repliesP (lev r) w' l' = ((repliesP (lev r) w l).1.tail, (repliesP (lev r) w l).2) ∧
      ((repliesP (lev r) w l).1 = [] → l' = []) ∧
      ∀ d v, (repliesP (lev r) w l).1.head? = some (some (d, v)) → (M.path s').length = d + b₀ := by
  induction l with
  | nil =>
    intro s w h
    obtain ⟨s', h1, h2⟩ := hM.done h w
    exact ⟨s', w, [], h1, h2, rfl, fun _ => rfl, by simp [repliesP]⟩
  | cons t l ih =>
    intro s w h
    obtain ⟨d, n, cs⟩ := t
    cases e : (r w d n).2 with
    | none =>
      obtain ⟨s1, h1, h2⟩ := hM.drop h w e
      obtain ⟨s', w', l', i1, i2, i3⟩ := ih (w := (r w d n).1) h2
      rw [repliesP_drop (by simp [lev, e])]
      exact ⟨s', w', l', h1.trans i1, i2, i3⟩
    | some a =>
      obtain ⟨o, b⟩ := a
      obtain ⟨s', h1, h2, _, h4⟩ := hM.ans h w o b e
      rw [repliesP_ans (o := o.map (Prod.mk d)) (b := b) (by simp [lev, e])]
      refine ⟨s', _, _, ?_, h2, rfl, by simp, ?_⟩
      · rw [h1]
        cases o <;> rfl
      · intro d' v hv
        cases o with
        | none => simp at hv
        | some y =>
          simp only [List.head?_cons, Option.map_some, Option.some.injEq, Prod.mk.injEq] at hv
          rw [h4 rfl, hv.1]

/-- Some calls. -/
theorem Walks.afterLev {M : FPipe S W σ} {b₀ : Nat} {r : σ → Nat → N → σ × Option (Option W × Bool)}
    {R : S → List (Nat × Tree N) → Prop} (hM : Walks M (lenAt b₀) r R) (k : Nat) : ∀ {l : List (Nat × Tree N)} {s : S} {w : σ}, R s l →
    ∃ s' w' l', stateAfterE M.call k (s, w) = .ok (s', w') ∧ R s' l' ∧
      (repliesP (lev r) w' l').1 = (repliesP (lev r) w l).1.drop k := by
  induction k with
  | zero => intro l s w h; exact ⟨s, w, l, rfl, h, rfl⟩
  | succ k ih =>
    intro l s w h
    obtain ⟨s1, w1, l1, h1, h2, h3, -⟩ := hM.callLev l (w := w) h
    obtain ⟨s', w', l', i1, i2, i3⟩ := ih (w := w1) h2
    refine ⟨s', w', l', ?_, i2, ?_⟩
    · rw [stateAfterE]
      simp only [FPipe.call, h1]
      exact i1
    · rw [i3, h3, List.drop_tail]

end FPipe

/-! ## The ends -/

namespace CollEnd

variable {S : Type u} {N : Type v} {W : Type x} {σ : Type w} {Q : Type y} {O : Type z}

/-- What an end holds on its stack is told by the values it has taken. -/
structure Holds (E : CollEnd Q W O Unit) (res : List (Nat × W) → Option O) (K : List (Nat × W) → Q → Prop) : Prop where
  empty : K [] E.empty
  close : ∀ {g q}, K g q → g ≠ [] → ∀ p v, p.length = 1 → ∃ o, res g = some o ∧ E.step q p v () = .ok (.inl o, ())
  push : ∀ {g q}, K g q → ∀ p v d, p.length = d + 1 → (d = 0 → g = []) →
    ∃ q', E.step q p v () = .ok (.inr q', ()) ∧ K (g ++ [(d, v)]) q'
  drain : ∀ {g q}, K g q → E.drain q () = .ok (res g, ())
  nil : res [] = none

theorem loopF_eq (E : CollEnd Q W O Unit) (M : FPipe S W σ) (s : S) (w : σ) (q : Q) :
    E.loopF M s w q () =
      match M.next s w with
      | .error e => .error e
      | .ok (none, s', w') =>
        match E.drain q () with
        | .error e => .error e
        | .ok (o, t') => .ok (o.map some, (s', none), w', t')
      | .ok (some none, s', w') => .ok (some none, (s', none), w', ())
      | .ok (some (some v), s', w') =>
        match E.step q (M.path s') v () with
        | .error e => .error e
        | .ok (.inl o, t') => .ok (some (some o), (s', some v), w', t')
        | .ok (.inr q', t') => loopF E M s' w' q' t' := by
  rw [loopF.eq_def]
  split
  · next h => rw [h]
  · next h =>
    rw [h]
    dsimp only
    generalize E.drain q () = a
    cases a <;> rfl
  · next h => rw [h]
  · next h =>
    rw [h]
    dsimp only
    split
    · next h1 => rw [h1]
    · next h1 => rw [h1]
    · next h1 => rw [h1]

/-- The batches to come: the item put aside is the first of the next batch. -/
def pendBatches (r : σ → Nat → N → σ × Option (Option W × Bool)) (w : σ) (l : List (Nat × Tree N)) (peeked : Option W) :
    List (Option (List (Nat × W))) :=
  batches (peeked.toList.map (Prod.mk 0)) (FPipe.repliesP (FPipe.lev r) w l).1

/-- A state of an end between two calls. -/
def Rest (M : FPipe S W σ) (R : S → List (Nat × Tree N) → Prop) (l : List (Nat × Tree N)) (x : S × Option W) : Prop :=
  R x.1 l ∧ (x.2 ≠ none → (M.path x.1).length = 1)

theorem batches_cons {g : List (Nat × W)} {d : Nat} {v : W} {l : List (Option (Nat × W))} (h : d = 0 → g = []) :
    batches g (some (d, v) :: l) = batches (g ++ [(d, v)]) l := by
  cases g with
  | nil => rfl
  | cons y g =>
    rw [batches, if_neg (fun e => by simpa using h e)]

theorem loopF_batches {E : CollEnd Q W O Unit} {res : List (Nat × W) → Option O} {K : List (Nat × W) → Q → Prop}
    (hE : E.Holds res K) {M : FPipe S W σ} {r : σ → Nat → N → σ × Option (Option W × Bool)}
    {R : S → List (Nat × Tree N) → Prop} (hM : M.Walks (FPipe.lenAt 1) r R) (k : Nat) :
    ∀ {l : List (Nat × Tree N)} {s : S} {w : σ} {g : List (Nat × W)} {q : Q}, (FPipe.repliesP (FPipe.lev r) w l).1.length = k →
      R s l → K g q → ∃ x' w' l',
      E.loopF M s w q () = .ok (((batches g (FPipe.repliesP (FPipe.lev r) w l).1).map (·.bind res)).head?, x', w', ()) ∧
      Rest M R l' x' ∧
      pendBatches r w' l' x'.2 = (batches g (FPipe.repliesP (FPipe.lev r) w l).1).tail := by
  induction k with
  | zero =>
    intro l s w g q hk hR hK
    obtain ⟨s', w', l', h1, h2, h3, h4, -⟩ := hM.callLev l (w := w) hR
    have hk := List.length_eq_zero_iff.1 hk
    rw [hk] at h1 h3 ⊢
    refine ⟨(s', none), w', l', ?_, ⟨h2, by simp⟩, ?_⟩
    · rw [loopF_eq, h1]
      simp only [List.head?_nil, Option.map_none, hE.drain hK]
      cases g with
      | nil => simp [hE.nil, batches]
      | cons y g =>
        obtain ⟨o, ho, -⟩ := hE.close hK (by simp) [0] y.2 rfl
        simp [batches, ho]
    · have : l' = [] := h4 hk
      subst this
      cases g <;> rfl
  | succ k ih =>
    intro l s w g q hk hR hK
    obtain ⟨s', w', l', h1, h2, h3, -, h5⟩ := hM.callLev l (w := w) hR
    cases hL : (FPipe.repliesP (FPipe.lev r) w l).1 with
    | nil => simp [hL] at hk
    | cons a L =>
      rw [hL] at h1 h3 h5
      simp only [List.tail_cons] at h3
      cases a with
      | none =>
        refine ⟨(s', none), w', l', ?_, ⟨h2, by simp⟩, ?_⟩
        · rw [loopF_eq, h1]
          cases g <;> rfl
        · rw [pendBatches, h3]
          cases g <;> rfl
      | some x =>
        obtain ⟨d, v⟩ := x
        have h5 := h5 d v rfl
        by_cases hd : d = 0 → g = []
        · obtain ⟨q', k1, k2⟩ := hE.push hK (M.path s') v d h5 hd
          obtain ⟨x', w'', l'', i1, i2, i3⟩ := ih (l := l') (w := w') (by
            rw [h3]; simp only [hL, List.length_cons] at hk; simp only; omega) h2 k2
          rw [h3] at i1 i3
          rw [batches_cons hd]
          refine ⟨x', w'', l'', ?_, i2, i3⟩
          rw [loopF_eq, h1]
          simp only [List.head?_cons, Option.map_some, k1]
          exact i1
        · have hd : d = 0 ∧ g ≠ [] := by
            constructor
            · exact Classical.byContradiction fun h => hd fun e => absurd e h
            · exact fun h => hd fun _ => h
          obtain ⟨rfl, hg⟩ := hd
          obtain ⟨o, k1, k2⟩ := hE.close hK hg (M.path s') v (by simpa using h5)
          refine ⟨(s', some v), w', l', ?_, ⟨h2, fun _ => by simpa using h5⟩, ?_⟩
          · rw [loopF_eq, h1]
            simp only [List.head?_cons, Option.map_some, k2]
            cases g with
            | nil => exact absurd rfl hg
            | cons y g => simp [batches, k1]
          · rw [pendBatches, h3]
            cases g with
            | nil => exact absurd rfl hg
            | cons y g => simp [batches]

/-- All calls. -/
theorem calls_batches {E : CollEnd Q W O Unit} {res : List (Nat × W) → Option O} {K : List (Nat × W) → Q → Prop}
    (hE : E.Holds res K) {M : FPipe S W σ} {r : σ → Nat → N → σ × Option (Option W × Bool)}
    {R : S → List (Nat × Tree N) → Prop} (hM : M.Walks (FPipe.lenAt 1) r R) (k : Nat) :
    ∀ {l : List (Nat × Tree N)} {x : S × Option W} {w : σ}, Rest M R l x →
      nthCallE (E.callF M) k (x, w, ()) = .ok ((pendBatches r w l x.2).map (·.bind res))[k]? := by
  have one : ∀ {l : List (Nat × Tree N)} {x : S × Option W} {w : σ}, Rest M R l x → ∃ x' w' l',
      E.callF M (x, w, ()) = .ok (((pendBatches r w l x.2).map (·.bind res)).head?, x', w', ()) ∧
      Rest M R l' x' ∧ pendBatches r w' l' x'.2 = (pendBatches r w l x.2).tail := by
    intro l x w h
    obtain ⟨s, o⟩ := x
    cases o with
    | none => exact loopF_batches hE hM _ rfl h.1 hE.empty
    | some v =>
      obtain ⟨q', k1, k2⟩ := hE.push hE.empty (M.path s) v 0 (h.2 (by simp)) (fun _ => rfl)
      obtain ⟨x', w', l', h1, h2⟩ := loopF_batches hE hM _ rfl h.1 k2 (w := w)
      refine ⟨x', w', l', ?_, h2⟩
      rw [callF, nextF]
      simp only [k1]
      exact h1
  induction k with
  | zero =>
    intro l x w h
    obtain ⟨x', w', l', h1, -⟩ := one (w := w) h
    rw [nthCallE, stateAfterE]
    simp only [h1, List.head?_eq_getElem?]
  | succ k ih =>
    intro l x w h
    obtain ⟨x', w', l', h1, h2, h3⟩ := one (w := w) h
    have := ih (w := w') h2
    rw [nthCallE, stateAfterE]
    simp only [h1]
    rw [nthCallE] at this
    rw [this, h3, List.map_tail, List.getElem?_tail]

end CollEnd

/-! ## `trees()` -/

section
variable {W : Type u}

theorem treesClose_pos {d : Nat} (hd : 1 ≤ d) (keep : List (Tree W)) :
    ∀ {keep'}, Pipe.collapse d keep = .ok keep' → treesClose (d + 1) keep = .ok (.inr keep') := by
  fun_induction Pipe.collapse d keep with
  | case1 =>
    intro keep' h
    cases h
    rw [treesClose, if_neg (by omega)]
  | case2 => intro keep' h; cases h
  | case3 b h0 =>
    intro keep' h
    cases h
    rw [treesClose, if_neg (by omega)]
  | case4 b a cs rest h0 ih =>
    intro keep' h
    rw [treesClose, if_pos (by omega)]
    exact ih h
  | case5 b a cs rest h0 =>
    intro keep' h
    cases h
    rw [treesClose, if_neg (by omega)]

theorem plugged_append (t : Tree W) (r : List (Tree W)) (a : W) (cs : List (Tree W)) :
    plugged t (r ++ [.node a cs]) = plugged (.node a (cs ++ [t])) r := by
  cases r with
  | nil => rfl
  | cons b r =>
    obtain ⟨b, bs⟩ := b
    simp only [List.cons_append, plugged, plug_append]

theorem treesClose_root (rest : List (Tree W)) : ∀ t, treesClose 1 (t :: rest) = .ok (.inl (plugged t rest.reverse)) := by
  induction rest with
  | nil => intro t; rw [treesClose, if_pos (Nat.le_refl 1)]; rfl
  | cons u rest ih =>
    intro t
    obtain ⟨a, cs⟩ := u
    rw [treesClose, if_pos (by omega), ih, List.reverse_cons, plugged_append]

theorem treesDrain_plugged (rest : List (Tree W)) : ∀ t, treesDrain (t :: rest) = some (plugged t rest.reverse) := by
  induction rest with
  | nil => intro t; rw [treesDrain]; rfl
  | cons u rest ih =>
    intro t
    obtain ⟨a, cs⟩ := u
    rw [treesDrain, ih, List.reverse_cons, plugged_append]

theorem plugged_eq_plug (t : Tree W) (r : List (Tree W)) : plugged t r = plug r t := by
  cases r with
  | nil => rfl
  | cons b r => obtain ⟨b, bs⟩ := b; rfl

/-- The stack of `trees()` after some values. -/
def TreesKeep (g : List (Nat × W)) (keep : List (Tree W)) : Prop :=
  (g = [] ∧ keep = []) ∨ ∃ y rest, keep = .node y [] :: rest ∧ regroup g = some (plug rest.reverse (.node y []))

theorem regroup_append {g : List (Nat × W)} {t : Tree W} (h : regroup g = some t) (x : Nat × W) :
    regroup (g ++ [x]) = some (t.attach x.1 x.2) := by
  cases g with
  | nil => simp [regroup] at h
  | cons a g =>
    obtain ⟨d, v⟩ := a
    simp only [regroup, Option.some.injEq] at h
    simp [regroup, h]

theorem TreesKeep.push {g : List (Nat × W)} {keep : List (Tree W)} (h : TreesKeep g keep) (v : W) (d : Nat)
    (hd : d = 0 → g = []) :
    ∃ keep', treesClose (d + 1) keep = .ok (.inr keep') ∧ TreesKeep (g ++ [(d, v)]) (.node v [] :: keep') := by
  rcases h with ⟨rfl, rfl⟩ | ⟨y, rest, rfl, h⟩
  · exact ⟨[], by rw [treesClose, if_neg (by omega)], .inr ⟨v, [], rfl, rfl⟩⟩
  · have hg : g ≠ [] := by rintro rfl; simp [regroup] at h
    have hd : 1 ≤ d := by
      rcases Nat.eq_zero_or_pos d with e | e
      · exact absurd (hd e) hg
      · exact e
    refine ⟨_, treesClose_pos hd _ (collapse_plug d hd rest _), .inr ⟨v, _, rfl, ?_⟩⟩
    rw [regroup_append h, attach_plug _ _ _ _ hd, List.reverse_cons, List.reverse_reverse]
    simp only
    rcases plugged (.node y []) (rest.reverse.drop (d - 1)) with ⟨b, cs⟩
    rw [plug_append]

theorem treesEnd_holds : (treesEnd (V := W)).Holds regroup TreesKeep where
  empty := .inl ⟨rfl, rfl⟩
  close {g q} h hg p v hp := by
    rcases h with ⟨rfl, -⟩ | ⟨y, rest, rfl, h⟩
    · exact absurd rfl hg
    · refine ⟨_, h, ?_⟩
      simp only [treesEnd, hp, treesClose_root, plugged_eq_plug]
  push {g q} h p v d hp hd := by
    obtain ⟨keep', h1, h2⟩ := h.push v d hd
    exact ⟨_, by simp only [treesEnd, hp, h1], h2⟩
  drain {g q} h := by
    rcases h with ⟨rfl, rfl⟩ | ⟨y, rest, rfl, h⟩
    · simp [treesEnd, treesDrain, regroup]
    · simp only [treesEnd, treesDrain_plugged, plugged_eq_plug, h]
  nil := rfl

end

/-! ## `fold_trees` -/

section
variable {W : Type u} {O : Type v}

theorem foldClose_stack {τ : Type w} (f : τ → List O → W → τ × O) (r : τ) (d : Nat) (keep : List (Tree W)) :
    ∀ {q}, treesClose (d + 1) keep = .ok q →
    foldClose f d (foldStack f r keep).1 (foldStack f r keep).2.1 (foldStack f r keep).2.2 =
      .ok (match q with
        | .inl t => (.inl (t.foldS f r).2, (t.foldS f r).1)
        | .inr keep' => (.inr ((foldStack f r keep').1, (foldStack f r keep').2.1), (foldStack f r keep').2.2)) := by
  fun_induction treesClose (d + 1) keep with
  | case1 h => omega
  | case2 h =>
    intro q hq
    cases hq
    simp [foldStack, foldClose]
  | case3 t h =>
    intro q hq
    cases hq
    obtain ⟨a, cs⟩ := t
    simp only [foldStack, foldClose, List.length_nil]
    rw [if_pos (by omega)]
    rfl
  | case4 t h =>
    intro q hq
    cases hq
    obtain ⟨a, cs⟩ := t
    simp only [foldStack, foldClose, List.length_nil]
    rw [if_neg (by omega)]
  | case5 t a cs rest h ih =>
    intro q hq
    obtain ⟨b, bs⟩ := t
    rw [← ih hq]
    simp only [foldStack, foldClose, List.length_cons, foldStack_length]
    rw [if_pos (by omega), foldSL_append]
    rfl
  | case6 t a cs rest h =>
    intro q hq
    cases hq
    obtain ⟨b, bs⟩ := t
    simp only [foldStack, foldClose, List.length_cons, foldStack_length]
    rw [if_neg (by omega)]

theorem foldDrain_stack {τ : Type w} (f : τ → List O → W → τ × O) (r : τ) (keep : List (Tree W)) :
    foldDrain f (foldStack f r keep).1 (foldStack f r keep).2.1 (foldStack f r keep).2.2 =
      .ok (match treesDrain keep with
        | none => (none, r)
        | some t => (some (t.foldS f r).2, (t.foldS f r).1)) := by
  fun_induction treesDrain keep with
  | case1 => simp [foldStack, foldDrain]
  | case2 t =>
    obtain ⟨a, cs⟩ := t
    simp only [foldStack, foldDrain]
    rfl
  | case3 t a cs rest ih =>
    obtain ⟨b, bs⟩ := t
    rw [← ih]
    simp only [foldStack, foldDrain]
    rw [foldSL_append]
    rfl

theorem collDepth_length {p : List Nat} {d : Nat} (h : p.length = d + 1) : Pipe.collDepth p = .ok d := by
  cases p with
  | nil => simp at h
  | cons i p =>
    simp only [List.length_cons, Nat.add_right_cancel_iff] at h
    rw [← h]
    rfl

/-- The stacks of `fold_trees` after some values. -/
def FoldKeep (f : Unit → List O → W → Unit × O) (g : List (Nat × W)) (q : List W × List (List O)) : Prop :=
  ∃ keep, TreesKeep g keep ∧ q = ((foldStack f () keep).1, (foldStack f () keep).2.1)

theorem foldEnd_holds (f : Unit → List O → W → Unit × O) :
    (foldEnd f).Holds (fun g => (regroup g).map fun t => (t.foldS f ()).2) (FoldKeep f) where
  empty := ⟨[], .inl ⟨rfl, rfl⟩, rfl⟩
  close {g q} h hg p v hp := by
    obtain ⟨keep, h, rfl⟩ := h
    rcases h with ⟨rfl, -⟩ | ⟨y, rest, rfl, h⟩
    · exact absurd rfl hg
    · refine ⟨_, by rw [h]; rfl, ?_⟩
      have := foldClose_stack f () 0 _ (treesClose_root rest (.node y []))
      have hd : Pipe.collDepth p = .ok 0 := collDepth_length hp
      simp only [foldEnd, hd, this, plugged_eq_plug]
  push {g q} h p v d hp hd := by
    obtain ⟨keep, h, rfl⟩ := h
    obtain ⟨keep', h1, h2⟩ := h.push v d hd
    have := foldClose_stack f () d _ h1
    refine ⟨(v :: (foldStack f () keep').1, [] :: (foldStack f () keep').2.1),
      by simp only [foldEnd, collDepth_length hp, this], _, h2, ?_⟩
    simp [foldStack, Tree.foldSL]
  drain {g q} h := by
    obtain ⟨keep, h, rfl⟩ := h
    have := foldDrain_stack f () keep
    simp only [foldEnd, this]
    rcases h with ⟨rfl, rfl⟩ | ⟨y, rest, rfl, h⟩
    · simp [treesDrain, regroup]
    · simp [treesDrain_plugged, plugged_eq_plug, h]
  nil := rfl

end

/-! ## Whole trees -/

section
variable {W : Type u}

theorem attach_below {l : List (Nat × W)} (hl : ∀ x ∈ l, 1 ≤ x.1) : ∀ (a : W) (pre : List (Tree W)) (t : Tree W),
    (l.map fun x => (x.1 + 1, x.2)).foldl (fun (t : Tree W) x => t.attach x.1 x.2) (Tree.node a (pre ++ [t])) =
      .node a (pre ++ [l.foldl (fun (t : Tree W) x => t.attach x.1 x.2) t]) := by
  induction l with
  | nil => intro a pre t; rfl
  | cons x l ih =>
    intro a pre t
    have h1 : 1 ≤ x.1 := hl x (by simp)
    rw [List.map_cons, List.foldl_cons, List.foldl_cons, ← ih (fun y hy => hl y (by simp [hy]))]
    congr 1
    simp only
    rw [Tree.attach, if_neg (by omega), attachL_append]
    rfl

theorem levels_succ (t : Tree W) : ∀ d, t.levels (d + 1) = (t.levels d).map fun x => (x.1 + 1, x.2) := by
  induction t using Tree.ind with
  | h a cs ih =>
    intro d
    have : ∀ ts : List (Tree W), (∀ t ∈ ts, ∀ d, t.levels (d + 1) = (t.levels d).map fun x => (x.1 + 1, x.2)) →
        ∀ d, Tree.levelsL (d + 1) ts = (Tree.levelsL d ts).map fun x => (x.1 + 1, x.2) := by
      intro ts
      induction ts with
      | nil => intro _ d; rfl
      | cons t ts ih2 =>
        intro h d
        rw [Tree.levelsL, Tree.levelsL, List.map_append, h t (by simp), ih2 fun t ht => h t (by simp [ht])]
    rw [Tree.levels, Tree.levels, List.map_cons, this cs ih]

theorem levelsL_succ (ts : List (Tree W)) (d : Nat) :
    Tree.levelsL (d + 1) ts = (Tree.levelsL d ts).map fun x => (x.1 + 1, x.2) := by
  induction ts with
  | nil => rfl
  | cons t ts ih => rw [Tree.levelsL, Tree.levelsL, List.map_append, levels_succ, ih]

theorem levels_ge (t : Tree W) (d : Nat) : ∀ x ∈ t.levels (d + 1), 1 ≤ x.1 := by
  intro x hx
  rw [levels_succ, List.mem_map] at hx
  obtain ⟨y, -, rfl⟩ := hx
  simp

theorem levelsL_ge (ts : List (Tree W)) (d : Nat) : ∀ x ∈ Tree.levelsL (d + 1) ts, 1 ≤ x.1 := by
  intro x hx
  rw [levelsL_succ, List.mem_map] at hx
  obtain ⟨y, -, rfl⟩ := hx
  simp

theorem foldl_levels (t : Tree W) : ∀ (a : W) (pre : List (Tree W)),
    (t.levels 1).foldl (fun (t : Tree W) x => t.attach x.1 x.2) (Tree.node a pre) = .node a (pre ++ [t]) := by
  induction t using Tree.ind with
  | h b cs ih =>
    intro a pre
    rw [Tree.levels, List.foldl_cons]
    simp only
    rw [Tree.attach, if_pos (Nat.le_refl 1), levelsL_succ, attach_below (levelsL_ge cs 0)]
    have : ∀ ts : List (Tree W), (∀ t ∈ ts, ∀ (a : W) (pre : List (Tree W)),
        (t.levels 1).foldl (fun (t : Tree W) x => t.attach x.1 x.2) (Tree.node a pre) = .node a (pre ++ [t])) →
        ∀ pre, (Tree.levelsL 1 ts).foldl (fun (t : Tree W) x => t.attach x.1 x.2) (Tree.node b pre) = .node b (pre ++ ts) := by
      intro ts
      induction ts with
      | nil => intro _ pre; simp [Tree.levelsL]
      | cons t ts ih2 =>
        intro h pre
        rw [Tree.levelsL, List.foldl_append, h t (by simp), ih2 fun t ht => h t (by simp [ht])]
        simp
    rw [this cs ih]
    simp

theorem regroup_levels (t : Tree W) : regroup (t.levels 0) = some t := by
  obtain ⟨a, cs⟩ := t
  rw [Tree.levels, regroup]
  have : ∀ (ts pre : List (Tree W)), (Tree.levelsL 1 ts).foldl (fun (t : Tree W) x => t.attach x.1 x.2) (Tree.node a pre) = .node a (pre ++ ts) := by
    intro ts
    induction ts with
    | nil => intro pre; simp [Tree.levelsL]
    | cons t ts ih =>
      intro pre
      rw [Tree.levelsL, List.foldl_append, foldl_levels, ih]
      simp
  rw [this]
  rfl

end

namespace CollEnd

variable {N : Type v} {W : Type x} {σ : Type w}

theorem batches_split (L : List (Option (Nat × W))) (v : W) (L' : List (Option (Nat × W))) : ∀ g : List (Nat × W),
    ∃ A, batches g (L ++ some (0, v) :: L') = A ++ batches [(0, v)] L' := by
  induction L with
  | nil =>
    intro g
    cases g with
    | nil => exact ⟨[], rfl⟩
    | cons y g => exact ⟨[some (y :: g)], by simp [batches]⟩
  | cons a L ih =>
    intro g
    cases a with
    | none =>
      obtain ⟨A, h⟩ := ih []
      exact ⟨none :: A, by cases g <;> simp [batches, h]⟩
    | some x =>
      cases g with
      | nil =>
        obtain ⟨A, h⟩ := ih [x]
        exact ⟨A, by rw [List.cons_append, batches, h]⟩
      | cons y g =>
        by_cases hx : x.1 = 0
        · obtain ⟨A, h⟩ := ih [x]
          exact ⟨some (y :: g) :: A, by rw [List.cons_append, batches, if_pos hx, h]; rfl⟩
        · obtain ⟨A, h⟩ := ih (y :: g ++ [x])
          exact ⟨A, by rw [List.cons_append, batches, if_neg hx, h]⟩

theorem batches_take (l : List (Nat × W)) (L : List (Option (Nat × W))) (hl : ∀ x ∈ l, 1 ≤ x.1) : ∀ g : List (Nat × W),
    g ≠ [] → batches g (l.map some ++ L) = batches (g ++ l) L := by
  induction l with
  | nil => intro g _; simp
  | cons x l ih =>
    intro g hg
    cases g with
    | nil => exact absurd rfl hg
    | cons y g =>
      have : ¬ x.1 = 0 := by have := hl x (by simp); omega
      rw [List.map_cons, List.cons_append, batches, if_neg this, ih (fun z hz => hl z (by simp [hz])) _ (by simp)]
      simp

/-- Values up to the next root, or the end, are a batch. -/
theorem batches_close (g : List (Nat × W)) (hg : g ≠ []) (L : List (Option (Nat × W)))
    (hL : L = [] ∨ ∃ v L', L = some (0, v) :: L') : ∃ A, batches g L = some g :: A := by
  cases g with
  | nil => exact absurd rfl hg
  | cons y g =>
    rcases hL with rfl | ⟨v, L', rfl⟩
    · exact ⟨[], rfl⟩
    · exact ⟨batches [(0, v)] L', by simp [batches]⟩

/-- A whole tree between others. -/
theorem batches_tree (L : List (Option (Nat × W))) (t : Tree W) (L' : List (Option (Nat × W)))
    (hL : L' = [] ∨ ∃ v L'', L' = some (0, v) :: L'') :
    ∃ k : Nat, (batches [] (L ++ ((t.levels 0).map some ++ L')))[k]? = some (some (t.levels 0)) := by
  obtain ⟨a, cs⟩ := t
  rw [Tree.levels, List.map_cons, List.cons_append]
  obtain ⟨A, h⟩ := batches_split L a ((Tree.levelsL 1 cs).map some ++ L') []
  rw [h, batches_take _ _ (levelsL_ge cs 0) _ (by simp)]
  obtain ⟨B, h⟩ := batches_close ([(0, a)] ++ Tree.levelsL 1 cs) (by simp) L' hL
  rw [h]
  exact ⟨A.length, by simp⟩

/-- What comes first for a forest at depth 0, if it is not a panic. -/
theorem repliesL_head (r : σ → Nat → N → σ × Option (Option W × Bool)) (ts : List (Tree N)) : ∀ w : σ,
    (Tree.repliesL (FPipe.lev r) 0 w ts).1.head? ≠ some none →
    (Tree.repliesL (FPipe.lev r) 0 w ts).1 = [] ∨ ∃ v L, (Tree.repliesL (FPipe.lev r) 0 w ts).1 = some (0, v) :: L := by
  induction ts with
  | nil => intro w _; exact .inl rfl
  | cons t ts ih =>
    intro w
    obtain ⟨n, cs⟩ := t
    rw [Tree.repliesL, Tree.replies]
    rcases e : (r w 0 n).2 with _ | ⟨_ | y, b⟩
    · have : FPipe.lev r w 0 n = ((r w 0 n).1, none) := by simp [FPipe.lev, e]
      rw [this]
      simp only [List.nil_append]
      exact ih _
    · have : FPipe.lev r w 0 n = ((r w 0 n).1, some (none, b)) := by simp [FPipe.lev, e]
      rw [this]
      cases b <;> simp
    · have : FPipe.lev r w 0 n = ((r w 0 n).1, some (some (0, y), b)) := by simp [FPipe.lev, e]
      rw [this]
      cases b <;> simp

/-- A tree without a panic. -/
theorem replies_whole (r : σ → Nat → N → σ × Option (Option W × Bool)) (t : Tree N) : ∀ (d : Nat) (w : σ),
    none ∉ (t.replies (FPipe.lev r) d w).1 →
    (t.replies (FPipe.lev r) d w).1 = [] ∨ ∃ t' : Tree W, (t.replies (FPipe.lev r) d w).1 = (t'.levels d).map some := by
  induction t using Tree.ind with
  | h n cs ih =>
    intro d w
    have hL : ∀ ts : List (Tree N), (∀ t ∈ ts, ∀ (d : Nat) (w : σ), none ∉ (t.replies (FPipe.lev r) d w).1 →
          (t.replies (FPipe.lev r) d w).1 = [] ∨ ∃ t' : Tree W, (t.replies (FPipe.lev r) d w).1 = (t'.levels d).map some) →
        ∀ (d : Nat) (w : σ), none ∉ (Tree.repliesL (FPipe.lev r) d w ts).1 →
          ∃ ts' : List (Tree W), (Tree.repliesL (FPipe.lev r) d w ts).1 = (Tree.levelsL d ts').map some := by
      intro ts
      induction ts with
      | nil => intro _ d w _; exact ⟨[], rfl⟩
      | cons t ts ih2 =>
        intro h d w hn
        rw [Tree.repliesL] at hn ⊢
        simp only [List.mem_append, not_or] at hn
        obtain ⟨ts', k⟩ := ih2 (fun t ht => h t (by simp [ht])) d _ hn.2
        simp only [k]
        rcases h t (by simp) d w hn.1 with k1 | ⟨t', k1⟩
        · exact ⟨ts', by rw [k1]; rfl⟩
        · exact ⟨t' :: ts', by rw [k1, Tree.levelsL, List.map_append]⟩
    rw [Tree.replies]
    rcases e : (r w d n).2 with _ | ⟨_ | y, b⟩
    · have : FPipe.lev r w d n = ((r w d n).1, none) := by simp [FPipe.lev, e]
      rw [this]
      exact fun _ => .inl rfl
    · have : FPipe.lev r w d n = ((r w d n).1, some (none, b)) := by simp [FPipe.lev, e]
      rw [this]
      cases b <;> simp
    · have : FPipe.lev r w d n = ((r w d n).1, some (some (d, y), b)) := by simp [FPipe.lev, e]
      rw [this]
      cases b with
      | false => exact fun _ => .inr ⟨.node y [], rfl⟩
      | true =>
        intro hn
        simp only [List.mem_cons, not_or] at hn
        obtain ⟨ts', k⟩ := hL cs ih (d + 1) _ hn.2
        exact .inr ⟨.node y ts', by simp only [k, Tree.levels, List.map_cons]⟩

theorem repliesL_append (r : σ → Nat → N → σ × Option (Option W × Bool)) (d : Nat) (ts ts' : List (Tree N)) : ∀ w : σ,
    Tree.repliesL r d w (ts ++ ts') =
      ((Tree.repliesL r d w ts).1 ++ (Tree.repliesL r d (Tree.repliesL r d w ts).2 ts').1,
        (Tree.repliesL r d (Tree.repliesL r d w ts).2 ts').2) := by
  induction ts with
  | nil => intro w; simp [Tree.repliesL]
  | cons t ts ih => intro w; simp [Tree.repliesL, ih]

theorem repliesP_forest (r : σ → Nat → N → σ × Option (Option W × Bool)) (ts : List (Tree N)) : ∀ w : σ,
    FPipe.repliesP r w (ts.map fun t => (0, t)) = Tree.repliesL r 0 w ts := by
  induction ts with
  | nil => intro w; rfl
  | cons t ts ih => intro w; simp [FPipe.repliesP, Tree.repliesL, ih]

end CollEnd

section
variable {N : Type u} {V W : Type v} {σ : Type w}

theorem FChain.collPipeF_walks [TreeNode N V] (bad : N → Bool) (c : FChain σ V W) :
    (c.collPipeF bad).Walks (FPipe.lenAt 1) (c.stepAt bad) (c.Pend (Fail.CollPend (fun _ => True) (Fail.TrackPend 1) fun n _ => unfold n)) :=
  FChain.pipe_walks (Fail.collPipe_walks (start := Track.State.new) (tree := fun n _ => unfold n) (ok := fun _ => True)
      (Fail.trackPipe_walks 1 bad σ) fun _ _ _ => ⟨rfl, rfl, rfl, rfl⟩)
    (fun _ _ h => collDepth_length h) c

theorem FChain.collInitF_rest [TreeNode N V] (bad : N → Bool) (c : FChain σ V W) (ns : List N) :
    CollEnd.Rest (c.collPipeF bad) (c.Pend (Fail.CollPend (fun _ => True) (Fail.TrackPend 1) fun n _ => unfold n)) ((ns.map unfold).map fun t => (0, t))
      (c.collInitF ns, none) :=
  ⟨c.pend_init ⟨[], by simp [CollPipe.State.new, Fail.forestFrom_const], by simp, rfl⟩, by simp⟩

end

end TreeIter
