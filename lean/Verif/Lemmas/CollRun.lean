import Verif.Lemmas.CollEval
import Verif.Lemmas.CollSource

/-! # The results of collection pipelines whose stages decide node by node -/

universe u v w x y z z' q

namespace TreeIter

/-! ## Any number of calls -/

theorem seen_eq {B : Type v} {n : Nat} {os : List B} (h : os.length ≤ n) :
    seen n os = os.map some ++ List.replicate (n - os.length) none := by
  refine List.ext_getElem? fun k => ?_
  simp only [seen, List.getElem?_map]
  by_cases hk : k < n
  · rw [List.getElem?_range hk]
    by_cases ho : k < os.length
    · rw [List.getElem?_append_left (by simpa using ho)]
      simp [ho]
    · rw [List.getElem?_append_right (by simpa using Nat.le_of_not_lt ho)]
      simp only [List.length_map, List.getElem?_replicate]
      rw [if_pos (by omega), Option.map_some, List.getElem?_eq_none (by omega)]
  · rw [List.getElem?_eq_none (by simpa using Nat.le_of_not_lt hk), List.getElem?_eq_none]
    · rfl
    · simp only [List.length_append, List.length_map, List.length_replicate]
      omega

theorem seen_take {B : Type v} {n m : Nat} {os : List B} (h : n ≤ m) : (seen m os).take n = seen n os := by
  rw [seen, ← List.map_take, List.take_range, Nat.min_eq_left h, seen]

namespace CollEnd
variable {S : Type u} {Q : Type v} {V : Type w} {O : Type x} {σ : Type y} {τ : Type z}

theorem calls_take {E : CollEnd Q V O τ} {M : Pipe S V σ} (m : Nat) : ∀ {n : Nat} {st : S × Option V} {w w' : σ} {t t' : τ}
    {l : List (Option O)}, E.calls M m st w t = .ok (l, w', t') → n ≤ m → ∃ r, E.calls M n st w t = .ok (l.take n, r) := by
  induction m with
  | zero =>
    intro n st w w' t t' l h hn
    obtain rfl := Nat.le_zero.1 hn
    exact ⟨(w, t), by simp [calls]⟩
  | succ m ih =>
    intro n st w w' t t' l h hn
    cases n with
    | zero => exact ⟨(w, t), by simp [calls]⟩
    | succ n =>
      rw [calls] at h ⊢
      rcases h0 : E.next M st w t with e | ⟨o, st1, w1, t1⟩
      · rw [h0] at h
        simp at h
      · simp only [h0] at h ⊢
        rcases h1 : E.calls M m st1 w1 t1 with e | ⟨l1, w2, t2⟩
        · rw [h1] at h
          simp at h
        · rw [h1] at h
          simp only [Except.ok.injEq, Prod.mk.injEq] at h
          obtain ⟨rfl, -, -⟩ := h
          obtain ⟨r, h2⟩ := ih h1 (Nat.le_of_succ_le_succ hn)
          exact ⟨r, by rw [h2]; rfl⟩

/-- What a client sees that calls `next()` any number of times, given what the pipeline emits. -/
theorem calls_of_list {E : CollEnd Q V O τ} {M : Pipe S V σ} (hE : ∀ t, E.drain E.empty t = .ok (none, t)) (n : Nat)
    {s : S} {w w' : σ} {t t' : τ} {items : List (V × List Nat)} {os : List O} (hr : Runs M s w items w')
    (ha : E.allList items E.empty t = .ok (os, t')) :
    ∃ r, E.calls M n (s, none) w t = .ok (seen n os, r) ∧ (os.length < n → r = (w', t')) := by
  by_cases hn : os.length < n
  · refine ⟨(w', t'), ?_, fun _ => rfl⟩
    rw [calls_of_runs hE hr ha hn, seen_eq (Nat.le_of_lt hn)]
  · have h := calls_of_runs hE (n := os.length + 1) hr ha (Nat.lt_succ_self _)
    rw [← seen_eq (Nat.le_succ _)] at h
    obtain ⟨r, h1⟩ := calls_take _ h (n := n) (by omega)
    rw [seen_take (by omega)] at h1
    exact ⟨r, h1, fun h => absurd h hn⟩

end CollEnd

/-! ## What is emitted from a forest -/

section
variable {A : Type u} {σ : Type w} {U : Type v} {W : Type x}

theorem visitL_indep {v : Visitor A σ U W} {dec : Dec σ U W} (hl : LenOk v) (hi : Indep v dec) (ts : List (Lab U)) {d : Nat} :
    ∀ (a : A) (w : σ), (∀ t ∈ ts, LabDepth d t) →
    (visitL v a w ts).2.2 = (dec.forest w ts).1 ∧
      (visitL v a w ts).1.map (Tree.map Prod.fst) = (dec.forest w ts).2.map (Tree.map Prod.fst) ∧
      ∀ t' ∈ (visitL v a w ts).1, DepthOk d t' := by
  induction ts with
  | nil => intro a w _; simp [visitL, Dec.forest]
  | cons c ds ihd =>
    intro a w hd
    obtain ⟨o, h1, h2, h3, h4⟩ := visitT_indep hl hi c a w (hd c (by simp))
    obtain ⟨i1, i2, i3⟩ := ihd (visitT v a w c).2.1 (visitT v a w c).2.2 fun c hc => hd c (by simp [hc])
    simp only [visitL, Dec.forest, h1]
    refine ⟨by rw [i1, h2], ?_, ?_⟩
    · rw [List.map_append, List.map_append, i2, h2]
      congr 1
      rw [← Option.toList_map, ← Option.toList_map, h3]
    · intro t' ht'
      rcases List.mem_append.1 ht' with ht' | ht'
      · exact h4 t' (by simpa using ht')
      · exact i3 t' ht'

theorem visitL_through {v : Visitor A σ U W} {dec : Dec σ U W} (hl : Through v) (hi : Indep v dec) (ts : List (Lab U)) :
    ∀ (a : A) (w : σ), (visitL v a w ts).2.2 = (dec.forest w ts).1 ∧ (visitL v a w ts).1 = (dec.forest w ts).2 := by
  induction ts with
  | nil => intro a w; simp [visitL, Dec.forest]
  | cons c ds ihd =>
    intro a w
    obtain ⟨h1, h2⟩ := visitT_through hl hi c a w
    obtain ⟨i1, i2⟩ := ihd (visitT v a w c).2.1 (visitT v a w c).2.2
    simp only [visitL, Dec.forest]
    exact ⟨by rw [i1, h2], by rw [h1, i2, h2]⟩

theorem Dec.forest_pathOk {dec : Dec σ U W} {w : σ} {ts : List (Lab U)} (h : ∀ t ∈ ts, ∃ i, LabPath [i] t) :
    ∀ t' ∈ (dec.forest w ts).2, ∃ i, PathOk [i] t' := by
  induction ts generalizing w with
  | nil => simp [Dec.forest]
  | cons c ds ih =>
    intro t' ht'
    rw [Dec.forest] at ht'
    rcases List.mem_append.1 ht' with ht' | ht'
    · obtain ⟨i, hi⟩ := h c (by simp)
      exact ⟨i, Dec.tree_pathOk hi t' (by simpa using ht')⟩
    · exact ih (fun c hc => h c (by simp [hc])) t' ht'

theorem depthOk_paths {t : Tree (W × List Nat)} : ∀ {d : Nat}, 0 < d → DepthOk d t → ∀ i ∈ t.preorder, i.2 ≠ [] := by
  induction t using Tree.ind with
  | h a cs ih =>
    obtain ⟨y, p⟩ := a
    intro d hd h
    simp only [DepthOk] at h
    intro i hi
    rw [Tree.preorder_node] at hi
    rcases List.mem_cons.1 hi with rfl | hi
    · intro he
      simp only at he
      rw [he] at h
      simp only [List.length_nil] at h
      omega
    · obtain ⟨c, hc, hi⟩ := List.mem_flatMap.1 hi
      exact ih c hc (Nat.succ_pos d) (h.2 c hc) i hi

theorem depthOk_pathsL {ts : List (Tree (W × List Nat))} (h : ∀ t ∈ ts, DepthOk 1 t) : ∀ i ∈ Tree.preorderL ts, i.2 ≠ [] := by
  intro i hi
  rw [Tree.preorderL_eq] at hi
  obtain ⟨c, hc, hi⟩ := List.mem_flatMap.1 hi
  exact depthOk_paths Nat.one_pos (h c hc) i hi

end

/-! ## The ends -/

section
variable {S : Type u} {A : Type v} {σ : Type w} {U : Type x} {W : Type y} {τ : Type z} {X O : Type z'} {Q : Type q}
variable {M : Pipe S W σ} {v : Visitor A σ U W} {R : S → A → List (Lab U) → Prop} {dec : Dec σ U W} {s : S} {a : A}
  {ts : List (Lab U)}

theorem Sim.calls {E : CollEnd Q W O τ} {F : Shape X W O τ} {ρ : List (W × X × Nat) → Q} (hs : Sim E F.frameEnd ρ)
    (hM : Enum M v R) (hR : R s a ts) {w : σ} {t t' : τ} {os : List O} (hd : ∀ c ∈ (visitL v a w ts).1, DepthOk 1 c)
    (hf : F.forest t (visitL v a w ts).1 = .ok (os, t')) (n : Nat) :
    ∃ r, E.calls M n (s, none) w t = .ok (seen n os, r) ∧ (os.length < n → r = ((visitL v a w ts).2.2, t')) := by
  refine CollEnd.calls_of_list ?_ n (hM.runs w hR) ?_
  · intro t
    rw [← hs.empty, hs.drain, Shape.drain_empty]
  · rw [← hs.empty, hs.allList _ (depthOk_pathsL hd)]
    exact Shape.allList_forest _ hd hf

end

section
variable {S : Type u} {A : Type v} {σ : Type w} {U : Type x} {W : Type y} {τ : Type z} {O : Type z'}
variable {M : Pipe S W σ} {v : Visitor A σ U W} {R : S → A → List (Lab U) → Prop} {dec : Dec σ U W} {s : S} {a : A}
  {ts : List (Lab U)}

theorem Enum.trees (hM : Enum M v R) (hl : LenOk v) (hi : Indep v dec) (hR : R s a ts) (ht : ∀ t ∈ ts, LabDepth 1 t) (w : σ)
    (n : Nat) : ∃ r, treesEnd.calls M n (s, none) w () = .ok (seen n ((dec.forest w ts).2.map (Tree.map Prod.fst)), r) ∧
      ((dec.forest w ts).2.length < n → r = ((dec.forest w ts).1, ())) := by
  obtain ⟨h1, h2, h3⟩ := visitL_indep hl hi ts a w ht
  have h := treesSim.calls hM hR h3 (treesShape_forest _ ()) n
  rw [h1, h2] at h
  simpa using h

theorem Enum.foldTrees (hM : Enum M v R) (hl : LenOk v) (hi : Indep v dec) (hR : R s a ts) (ht : ∀ t ∈ ts, LabDepth 1 t)
    (f : τ → List O → W → τ × O) (w : σ) (t : τ) (n : Nat) :
    ∃ r, (foldEnd f).calls M n (s, none) w t =
        .ok (seen n (Tree.foldSL f t ((dec.forest w ts).2.map (Tree.map Prod.fst))).2, r) ∧
      ((Tree.foldSL f t ((dec.forest w ts).2.map (Tree.map Prod.fst))).2.length < n →
        r = ((dec.forest w ts).1, (Tree.foldSL f t ((dec.forest w ts).2.map (Tree.map Prod.fst))).1)) := by
  obtain ⟨h1, h2, h3⟩ := visitL_indep hl hi ts a w ht
  have h := (foldSim f).calls hM hR h3 (foldShape_forest f _ t) n
  rw [h1, h2] at h
  exact h

theorem Enum.foldPathTrees (hM : Enum M v R) (hl : Through v) (hi : Indep v dec) (hR : R s a ts)
    (ht : ∀ t ∈ ts, ∃ i, LabPath [i] t) (f : τ → List O → List Nat → W → τ × O) (w : σ) (t : τ) (n : Nat) :
    ∃ r, (foldPathEnd f).calls M n (s, none) w t =
        .ok (seen n (Tree.foldSL (Pipe.onPaths f) t (dec.forest w ts).2).2, r) ∧
      ((Tree.foldSL (Pipe.onPaths f) t (dec.forest w ts).2).2.length < n →
        r = ((dec.forest w ts).1, (Tree.foldSL (Pipe.onPaths f) t (dec.forest w ts).2).1)) := by
  obtain ⟨h1, h2⟩ := visitL_through hl hi ts a w
  have hp : ∀ c ∈ (visitL v a w ts).1, ∃ i, PathOk [i] c := by rw [h2]; exact Dec.forest_pathOk ht
  have h := (foldPathSim f).calls hM hR (fun c hc => by obtain ⟨i, hi⟩ := hp c hc; exact hi.depthOk)
    (foldPathShape_forest f _ t hp) n
  rw [h1, h2] at h
  exact h

end

/-! ## Binary trees -/

section
variable {A : Type u} {σ : Type w} {U : Type v} {W : Type x} {N : Type y}

theorem emitted_depthOk (t : BinTree W) : ∀ p : List Nat, DepthOk p.length (t.emitted p) := by
  induction t using BinTree.ind with
  | h x l r ihl ihr =>
    intro p
    rw [BinTree.emitted, DepthOk]
    refine ⟨rfl, fun c hc => ?_⟩
    rcases List.mem_append.1 hc with hc | hc
    · cases l with
      | none => simp [BinTree.emittedO] at hc
      | some l =>
        simp only [BinTree.emittedO, List.mem_singleton] at hc
        subst hc
        have := ihl l rfl (p ++ [0])
        rwa [List.length_append] at this
    · cases r with
      | none => simp [BinTree.emittedO] at hc
      | some r =>
        simp only [BinTree.emittedO, List.mem_singleton] at hc
        subst hc
        have := ihr r rfl (p ++ [1])
        rwa [List.length_append] at this

/-- What is kept of the trees of a collection, next to their numbers. -/
def Dec.bins (dec : Dec σ U W) (w : σ) (i : Nat) (ts : List (BinTree U)) : σ × List (Nat × BinTree W) :=
  eachS (fun w i t => ((dec.bin w [i] t).1, (dec.bin w [i] t).2.map fun t => (i, t))) w i ts

theorem Dec.forest_bins (dec : Dec σ U W) (tree : N → BinTree U) (ns : List N) : ∀ (w : σ) (i : Nat),
    dec.forest w (CollPipe.labs (fun n p => (tree n).paths p) i ns) =
      ((dec.bins w i (ns.map tree)).1, (dec.bins w i (ns.map tree)).2.map fun ic => ic.2.emitted [ic.1]) := by
  induction ns with
  | nil => intro w i; simp [CollPipe.labs, Dec.forest, Dec.bins, eachS]
  | cons n ns ih =>
    intro w i
    simp only [CollPipe.labs, Dec.forest, Dec.tree_paths, ih, Dec.bins, List.map_cons, eachS]
    congr 1
    rw [List.map_append]
    congr 1
    cases (dec.bin w [i] (tree n)).2 <;> rfl

end

section
variable {S : Type u} {A : Type v} {σ : Type w} {U : Type x} {W : Type y} {τ : Type z} {O : Type z'} {N : Type q}
variable {M : Pipe S W σ} {v : Visitor A σ U W} {R : S → A → List (Lab U) → Prop} {dec : Dec σ U W} {s : S} {a : A}
  {ns : List N} {tree : N → BinTree U}

theorem visitL_bins (hl : Through v) (hi : Indep v dec) (w : σ) (a : A) (ns : List N) :
    (visitL v a w (CollPipe.labs (fun n p => (tree n).paths p) 0 ns)).2.2 = (dec.bins w 0 (ns.map tree)).1 ∧
      (visitL v a w (CollPipe.labs (fun n p => (tree n).paths p) 0 ns)).1 =
        (dec.bins w 0 (ns.map tree)).2.map (fun ic => ic.2.emitted [ic.1]) ∧
      ∀ c ∈ (visitL v a w (CollPipe.labs (fun n p => (tree n).paths p) 0 ns)).1, DepthOk 1 c := by
  obtain ⟨h1, h2⟩ := visitL_through hl hi (CollPipe.labs (fun n p => (tree n).paths p) 0 ns) a w
  rw [Dec.forest_bins] at h1 h2
  refine ⟨h1, h2, fun c hc => ?_⟩
  rw [h2] at hc
  obtain ⟨⟨i, c⟩, -, rfl⟩ := List.mem_map.1 hc
  exact emitted_depthOk c [i]

theorem Enum.binTrees (hM : Enum M v R) (hl : Through v) (hi : Indep v dec)
    (hR : R s a (CollPipe.labs (fun n p => (tree n).paths p) 0 ns)) (w : σ) (n : Nat) :
    ∃ r, binTreesEnd.calls M n (s, none) w () = .ok (seen n ((dec.bins w 0 (ns.map tree)).2.map Prod.snd), r) ∧
      ((dec.bins w 0 (ns.map tree)).2.length < n → r = ((dec.bins w 0 (ns.map tree)).1, ())) := by
  obtain ⟨h1, h2, h3⟩ := visitL_bins (tree := tree) hl hi w a ns
  have h := binTreesSim.calls hM hR h3 (h2 ▸ binTreesShape_forest _ ()) n
  rw [h1] at h
  simpa using h

theorem Enum.binFoldPathTrees (hM : Enum M v R) (hl : Through v) (hi : Indep v dec)
    (hR : R s a (CollPipe.labs (fun n p => (tree n).paths p) 0 ns)) (f : τ → Option O × Option O → List Nat → W → τ × O) (w : σ)
    (t : τ) (n : Nat) :
    ∃ r, (binFoldPathEnd f).calls M n (s, none) w t =
        .ok (seen n (foldNumbered f t (dec.bins w 0 (ns.map tree)).2).2, r) ∧
      ((foldNumbered f t (dec.bins w 0 (ns.map tree)).2).2.length < n →
        r = ((dec.bins w 0 (ns.map tree)).1, (foldNumbered f t (dec.bins w 0 (ns.map tree)).2).1)) := by
  obtain ⟨h1, h2, h3⟩ := visitL_bins (tree := tree) hl hi w a ns
  have h := (binFoldPathSim f).calls hM hR h3 (h2 ▸ binFoldShape_forest f _ t) n
  rw [h1] at h
  exact h

theorem Enum.binFoldTrees (hM : Enum M v R) (hl : Through v) (hi : Indep v dec)
    (hR : R s a (CollPipe.labs (fun n p => (tree n).paths p) 0 ns)) (f : τ → Option O × Option O → W → τ × O) (w : σ)
    (t : τ) (n : Nat) :
    ∃ r, (binFoldEnd f).calls M n (s, none) w t =
        .ok (seen n (foldNumbered (fun t x _ v => f t x v) t (dec.bins w 0 (ns.map tree)).2).2, r) ∧
      ((foldNumbered (fun t x _ v => f t x v) t (dec.bins w 0 (ns.map tree)).2).2.length < n →
        r = ((dec.bins w 0 (ns.map tree)).1, (foldNumbered (fun t x _ v => f t x v) t (dec.bins w 0 (ns.map tree)).2).1)) := by
  obtain ⟨h1, h2, h3⟩ := visitL_bins (tree := tree) hl hi w a ns
  have h := (binFoldSim f).calls hM hR h3 (h2 ▸ binFoldShape_forest (fun t x _ v => f t x v) _ t) n
  rw [h1] at h
  exact h

end

end TreeIter
