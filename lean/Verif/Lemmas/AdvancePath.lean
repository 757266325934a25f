import Verif.Spec.AdvancePath
import Verif.Lemmas.AdvanceBin

/-! # `fold_path` on advanced pipelines -/

universe u v w x y

namespace TreeIter

section
variable {V : Type u} {O : Type v} {τ : Type w}

/-- The `k` trees on top of the stack are labelled with what `paths` says when they are closed. -/
def Agree : Nat → List (Tree (List Nat × V)) → List Nat → Prop
  | 0, _, _ => True
  | _ + 1, [], _ => False
  | _ + 1, _ :: _, [] => False
  | k + 1, t :: keep, i :: paths => t.value.1 = (i :: paths).reverse ∧ Agree k keep paths

theorem Agree.of_values {k : Nat} {keep keep' : List (Tree (List Nat × V))} {paths : List Nat}
    (h : Agree k keep paths) (hv : keep.map Tree.value = keep'.map Tree.value) : Agree k keep' paths := by
  induction k generalizing keep keep' paths with
  | zero => trivial
  | succ k ih =>
    match keep, paths, h with
    | t :: keep, i :: paths, h =>
      match keep', hv with
      | t' :: keep', hv =>
        simp only [List.map_cons, List.cons.injEq] at hv
        exact ⟨by rw [← hv.1]; exact h.1, ih h.2 hv.2⟩

theorem collapse_values {V : Type u} {d : Nat} {keep keep' : List (Tree V)} (h : Pipe.collapse d keep = .ok keep') :
    keep'.map Tree.value = (keep.map Tree.value).drop (keep.length - d) := by
  fun_induction Pipe.collapse d keep with
  | case1 => cases h; simp
  | case2 => cases h
  | case3 b h0 =>
    cases h
    simp only [List.length_cons, List.length_nil]
    rw [show 0 + 1 - d = 0 by omega, List.drop_zero]
  | case4 b a cs rest h0 ih =>
    rw [ih h]
    simp only [List.length_cons, List.map_cons]
    rw [show rest.length + 1 + 1 - d = (rest.length + 1 - d) + 1 by omega, List.drop_succ_cons]
    rfl
  | case5 b a cs rest h0 =>
    cases h
    simp only [List.length_cons]
    rw [show rest.length + 1 + 1 - d = 0 by omega, List.drop_zero]

theorem foldStack_inv {V : Type u} (f : τ → List O → V → τ × O) (r : τ) (keep : List (Tree V)) :
    (foldStack f r keep).1 = keep.map Tree.value := by
  induction keep with
  | nil => rfl
  | cons t keep ih =>
    obtain ⟨a, cs⟩ := t
    rw [foldStack, ih]
    rfl

theorem toldCollapse (f : τ → List O → List Nat → V → τ × O) (r : τ) (d : Nat) (keep : List (Tree (List Nat × V))) :
    ∀ (paths : List Nat) (keep' : List (Tree (List Nat × V))), Agree (keep.length - d) keep paths →
      Pipe.collapse d keep = .ok keep' →
      Pipe.foldPathCollapse f d ((foldStack (toldClosure f) r keep).1.map Prod.snd) (foldStack (toldClosure f) r keep).2.1
        paths (foldStack (toldClosure f) r keep).2.2 =
      .ok ((foldStack (toldClosure f) r keep').1.map Prod.snd, (foldStack (toldClosure f) r keep').2.1,
        paths.drop (keep.length - d), (foldStack (toldClosure f) r keep').2.2) := by
  fun_induction Pipe.collapse d keep with
  | case1 =>
    intro paths keep' hA h
    cases h
    rw [Pipe.foldPathCollapse_le (by simp [foldStack])]
    simp
  | case2 => intro paths keep' hA h; cases h
  | case3 b h0 =>
    intro paths keep' hA h
    cases h
    rw [Pipe.foldPathCollapse_le (by rw [foldStack_length]; simp only [List.length_cons, List.length_nil]; omega)]
    simp only [List.length_cons, List.length_nil]
    rw [show 0 + 1 - d = 0 by omega, List.drop_zero]
  | case4 b a cs rest h0 ih =>
    intro paths keep' hA h
    simp only [List.length_cons] at hA ih ⊢
    rw [show rest.length + 1 + 1 - d = (rest.length + 1 - d) + 1 by omega] at hA ⊢
    match paths, hA with
    | i :: paths, hA =>
      rw [List.drop_succ_cons, ← ih paths keep' (hA.2.of_values (by simp [Tree.value])) h]
      obtain ⟨b, bs⟩ := b
      have hb : b.1 = (i :: paths).reverse := hA.1
      simp only [foldStack, List.map_cons]
      rw [Pipe.foldPathCollapse, if_pos (by simp [foldStack_length]; omega)]
      simp [foldSL_append, Tree.foldSL, Tree.foldS, toldClosure, hb]
  | case5 b a cs rest h0 =>
    intro paths keep' hA h
    cases h
    rw [Pipe.foldPathCollapse_le (by rw [foldStack_length]; simp; omega)]
    simp only [List.length_cons]
    rw [show rest.length + 1 + 1 - d = 0 by omega, List.drop_zero]

/-- The results of the children of the open nodes, as a binary fold holds them. -/
def slotPairs (l : List (List (Nat × O))) : List (Option O × Option O) := l.map fun os => (lastOf 0 os, lastOf 1 os)

theorem setSlot_last {i : Nat} (hi : i ≤ 1) (o : O) (os : List (Nat × O)) :
    Pipe.setSlot i o (lastOf 0 os, lastOf 1 os) = .ok (lastOf 0 (os ++ [(i, o)]), lastOf 1 (os ++ [(i, o)])) := by
  match i, hi with
  | 0, _ => simp [Pipe.setSlot, lastOf, List.filter_append]
  | 1, _ => simp [Pipe.setSlot, lastOf, List.filter_append]

theorem toldBinCollapse (f : τ → Option O × Option O → List Nat → V → τ × O) (r : τ) (d : Nat)
    (keep : List (Tree (List Nat × V))) :
    ∀ (paths : List Nat) (keep' : List (Tree (List Nat × V))), Agree (keep.length - d) keep paths → (∀ i ∈ paths, i ≤ 1) →
      Pipe.collapse d keep = .ok keep' →
      Pipe.binFoldCollapse f d ((foldStack (toldSlots f) r keep).1.map Prod.snd) (slotPairs (foldStack (toldSlots f) r keep).2.1)
        paths (foldStack (toldSlots f) r keep).2.2 =
      .ok ((foldStack (toldSlots f) r keep').1.map Prod.snd, slotPairs (foldStack (toldSlots f) r keep').2.1,
        paths.drop (keep.length - d), (foldStack (toldSlots f) r keep').2.2) := by
  fun_induction Pipe.collapse d keep with
  | case1 =>
    intro paths keep' hA hs h
    cases h
    rw [Pipe.binFoldCollapse_le (by simp [foldStack, slotPairs])]
    simp
  | case2 => intro paths keep' hA hs h; cases h
  | case3 b h0 =>
    intro paths keep' hA hs h
    cases h
    rw [Pipe.binFoldCollapse_le (by
      rw [slotPairs, List.length_map, foldStack_length]; simp only [List.length_cons, List.length_nil]; omega)]
    simp only [List.length_cons, List.length_nil]
    rw [show 0 + 1 - d = 0 by omega, List.drop_zero]
  | case4 b a cs rest h0 ih =>
    intro paths keep' hA hs h
    simp only [List.length_cons] at hA ih ⊢
    rw [show rest.length + 1 + 1 - d = (rest.length + 1 - d) + 1 by omega] at hA ⊢
    match paths, hA with
    | i :: paths, hA =>
      rw [List.drop_succ_cons, ← ih paths keep' (hA.2.of_values (by simp [Tree.value])) (fun i hi => hs i (by simp [hi])) h]
      obtain ⟨b, bs⟩ := b
      have hb : b.1 = (i :: paths).reverse := hA.1
      simp only [foldStack, List.map_cons, slotPairs]
      rw [Pipe.binFoldCollapse_step (by simp [foldStack_length]; omega) (setSlot_last (hs i (by simp)) _ _)]
      simp [foldSL_append, Tree.foldSL, Tree.foldS, toldSlots, hb]
  | case5 b a cs rest h0 =>
    intro paths keep' hA hs h
    cases h
    rw [Pipe.binFoldCollapse_le (by rw [slotPairs, List.length_map, foldStack_length]; simp; omega)]
    simp only [List.length_cons]
    rw [show rest.length + 1 + 1 - d = 0 by omega, List.drop_zero]

/-- A run of the loop of `fold_path`, as far as the stack of `collect_tree` and the segments go. -/
inductive ToldRun : List ((List Nat × V) × List Nat) → List (Tree (List Nat × V)) → List Nat →
    List (Tree (List Nat × V)) → List Nat → Prop
  | nil (keep : List (Tree (List Nat × V))) (paths : List Nat) : ToldRun [] keep paths keep paths
  | cons {x : List Nat × V} {p : List Nat} {l : List ((List Nat × V) × List Nat)} {keep k keep' : List (Tree (List Nat × V))}
      {paths paths2 paths' : List Nat} (hA : Agree (keep.length - p.length) keep paths)
      (hc : Pipe.collapse p.length keep = .ok k) (hp : Pipe.pushPath p (paths.drop (keep.length - p.length)) = .ok paths2)
      (h : ToldRun l (.node x [] :: k) paths2 keep' paths') : ToldRun ((x, p) :: l) keep paths keep' paths'

theorem ToldRun.append {l l' : List ((List Nat × V) × List Nat)} {keep k keep' : List (Tree (List Nat × V))}
    {paths q paths' : List Nat} (h : ToldRun l keep paths k q) (h' : ToldRun l' k q keep' paths') :
    ToldRun (l ++ l') keep paths keep' paths' := by
  induction h with
  | nil => exact h'
  | cons hA hc hp _ ih => exact .cons hA hc hp (ih h')

theorem ToldRun.collect {l : List ((List Nat × V) × List Nat)} {keep keep' : List (Tree (List Nat × V))} {paths paths' : List Nat}
    (h : ToldRun l keep paths keep' paths') : Pipe.collectList l keep = .ok keep' := by
  induction h with
  | nil => rfl
  | cons hA hc hp _ ih => rw [Pipe.collectList, hc]; exact ih

/-- The items as the pipeline emits them. -/
def untold (l : List ((List Nat × V) × List Nat)) : List (V × List Nat) := l.map fun x => (x.1.2, x.2)

theorem ToldRun.fold (f : τ → List O → List Nat → V → τ × O) (r : τ) {l : List ((List Nat × V) × List Nat)}
    {keep keep' : List (Tree (List Nat × V))} {paths paths' : List Nat} (h : ToldRun l keep paths keep' paths') :
    Pipe.foldPathList f (untold l) ((foldStack (toldClosure f) r keep).1.map Prod.snd) (foldStack (toldClosure f) r keep).2.1
        paths (foldStack (toldClosure f) r keep).2.2 =
      .ok ((foldStack (toldClosure f) r keep').1.map Prod.snd, (foldStack (toldClosure f) r keep').2.1,
        paths', (foldStack (toldClosure f) r keep').2.2) := by
  induction h with
  | nil => rfl
  | cons hA hc hp _ ih =>
    rw [untold, List.map_cons, Pipe.foldPathList, toldCollapse f r _ _ _ _ hA hc]
    simp only [hp]
    exact ih

theorem pushPath_le {p paths paths2 : List Nat} (h : Pipe.pushPath p paths = .ok paths2) (hp : p.getLast?.getD 0 ≤ 1)
    (hs : ∀ i ∈ paths, i ≤ 1) : ∀ i ∈ paths2, i ≤ 1 := by
  rw [Pipe.pushPath] at h
  split at h
  · cases hl : p.getLast? with
    | none => rw [hl] at h; cases h
    | some j =>
      rw [hl] at h hp
      cases h
      intro i hi
      rcases List.mem_cons.1 hi with rfl | hi
      · exact hp
      · exact hs i hi
  · cases h
    exact hs

theorem ToldRun.binFold (f : τ → Option O × Option O → List Nat → V → τ × O) (r : τ) {l : List ((List Nat × V) × List Nat)}
    {keep keep' : List (Tree (List Nat × V))} {paths paths' : List Nat} (h : ToldRun l keep paths keep' paths')
    (hl : ∀ x ∈ l, x.2.getLast?.getD 0 ≤ 1) (hs : ∀ i ∈ paths, i ≤ 1) :
    Pipe.binFoldList f (untold l) ((foldStack (toldSlots f) r keep).1.map Prod.snd)
        (slotPairs (foldStack (toldSlots f) r keep).2.1) paths (foldStack (toldSlots f) r keep).2.2 =
      .ok ((foldStack (toldSlots f) r keep').1.map Prod.snd, slotPairs (foldStack (toldSlots f) r keep').2.1,
        paths', (foldStack (toldSlots f) r keep').2.2) ∧ ∀ i ∈ paths', i ≤ 1 := by
  induction h with
  | nil => exact ⟨rfl, hs⟩
  | cons hA hc hp _ ih =>
    rw [untold, List.map_cons, Pipe.binFoldList, toldBinCollapse f r _ _ _ _ hA hs hc]
    simp only [hp]
    exact ih (fun x hx => hl x (by simp [hx]))
      (pushPath_le hp (hl _ List.mem_cons_self) fun i hi => hs i (List.mem_of_mem_drop hi))

/-! ## The run of the values that are left -/

/-- All ends of a list, the whole list first. -/
def endsOf : List Nat → List (List Nat)
  | [] => [[]]
  | i :: l => (i :: l) :: endsOf l

theorem endsOf_length (l : List Nat) : (endsOf l).length = l.length + 1 := by
  induction l with
  | nil => rfl
  | cons i l ih => rw [endsOf, List.length_cons, ih, List.length_cons]

/-- Stack and segments after the two have come together. -/
def Level (keep : List (Tree (List Nat × V))) (paths : List Nat) : Prop :=
  keep.map (fun t => t.value.1) = (endsOf paths).map List.reverse

theorem Level.length {keep : List (Tree (List Nat × V))} {paths : List Nat} (h : Level keep paths) :
    keep.length = paths.length + 1 := by
  have := congrArg List.length h
  simpa [endsOf_length] using this

theorem Level.agree {keep : List (Tree (List Nat × V))} {paths : List Nat} (h : Level keep paths) :
    ∀ k, k < keep.length → Agree k keep paths := by
  induction paths generalizing keep with
  | nil =>
    intro k hk
    have := h.length
    obtain rfl : k = 0 := by simp at this; omega
    trivial
  | cons i paths ih =>
    match keep, h with
    | [], h => cases h
    | t :: keep, h =>
      intro k hk
      simp only [Level, List.map_cons, endsOf, List.cons.injEq] at h
      cases k with
      | zero => trivial
      | succ k => exact ⟨h.1, ih h.2 k (by simpa using hk)⟩

theorem endsOf_drop (l : List Nat) : ∀ k, k ≤ l.length → (endsOf l).drop k = endsOf (l.drop k) := by
  induction l with
  | nil => intro k hk; obtain rfl : k = 0 := by simpa using hk
           rfl
  | cons i l ih =>
    intro k hk
    cases k with
    | zero => rfl
    | succ k => rw [endsOf, List.drop_succ_cons, List.drop_succ_cons, ih k (by simpa using hk)]

theorem collapse_ok {V : Type u} (d : Nat) (keep : List (Tree V)) (hd : 1 ≤ d ∨ keep = []) :
    ∃ k, Pipe.collapse d keep = .ok k := by
  cases keep with
  | nil => exact ⟨[], by rw [Pipe.collapse]⟩
  | cons t rest =>
    rcases hd with hd | hd
    · exact ⟨_, collapse_plug d hd rest t⟩
    · cases hd

theorem pushPath_cons {p paths : List Nat} (h : paths.length < p.length) :
    Pipe.pushPath p paths = .ok (p.getLast?.getD 0 :: paths) := by
  rw [Pipe.pushPath, if_pos h]
  cases hp : p.getLast? with
  | none => rw [List.getLast?_eq_none_iff] at hp; rw [hp] at h; simp at h
  | some i => rfl

theorem pushPath_same {p paths : List Nat} (h : ¬ paths.length < p.length) : Pipe.pushPath p paths = .ok paths := by
  rw [Pipe.pushPath, if_neg h]

theorem toldRun_next (l : List (V × List Nat)) (hl : ∀ x ∈ l, x.2 ≠ []) : ∀ (keep : List (Tree (List Nat × V))) (paths : List Nat),
    Level keep paths → ∃ keep' paths', ToldRun (toldNext paths.reverse l) keep paths keep' paths' ∧ Level keep' paths' := by
  induction l with
  | nil => intro keep paths h; exact ⟨keep, paths, .nil _ _, h⟩
  | cons z l ih =>
    obtain ⟨v, p⟩ := z
    intro keep paths h
    have hp : 1 ≤ p.length := List.length_pos_iff.2 (hl (v, p) (by simp))
    have hlen := h.length
    obtain ⟨k, hk⟩ := collapse_ok p.length keep (.inl hp)
    have e : paths.reverse.take (p.length - 1) ++ [p.getLast?.getD 0] =
        (p.getLast?.getD 0 :: paths.drop (keep.length - p.length)).reverse := by
      rw [List.reverse_cons, List.take_reverse, hlen]
      by_cases hc : paths.length ≤ p.length - 1
      · rw [show paths.length - (p.length - 1) = 0 by omega, show paths.length + 1 - p.length = 0 by omega]
      · rw [show paths.length - (p.length - 1) = paths.length + 1 - p.length by omega]
    obtain ⟨keep', paths', h1, h2⟩ := ih (fun x hx => hl x (by simp [hx]))
      (.node (paths.reverse.take (p.length - 1) ++ [p.getLast?.getD 0], v) [] :: k)
      (p.getLast?.getD 0 :: paths.drop (keep.length - p.length)) (by
        rw [Level, List.map_cons, endsOf, List.map_cons, e]
        refine List.cons_eq_cons.2 ⟨rfl, ?_⟩
        have hv := congrArg (List.map Prod.fst) (collapse_values hk)
        rw [List.map_map, List.map_drop, List.map_map] at hv
        refine Eq.trans hv ?_
        rw [← endsOf_drop _ _ (by omega), List.map_drop]
        exact congrArg (List.drop _) h)
    refine ⟨keep', paths', .cons (h.agree _ (by omega)) hk (pushPath_cons ?_) ?_, h2⟩
    · rw [List.length_drop]; omega
    · rw [← e] at h1
      exact h1

theorem Agree.of_get : ∀ {k : Nat} {keep : List (Tree (List Nat × V))} {paths : List Nat},
    (∀ i, i < k → i < paths.length ∧ (keep.map fun t => t.value.1)[i]? = some (paths.drop i).reverse) → Agree k keep paths
  | 0, _, _, _ => trivial
  | k + 1, [], paths, h => by have := (h 0 (by omega)).2; simp at this
  | k + 1, t :: keep, [], h => by have := (h 0 (by omega)).1; simp at this
  | k + 1, t :: keep, i :: paths, h => by
    refine ⟨by have := (h 0 (by omega)).2; simpa using this, Agree.of_get fun j hj => ?_⟩
    have := h (j + 1) (by omega)
    simpa using this

theorem endsOf_get (l : List Nat) : ∀ i, i ≤ l.length → (endsOf l)[i]? = some (l.drop i) := by
  induction l with
  | nil => intro i hi; obtain rfl : i = 0 := by simpa using hi
           rfl
  | cons a l ih =>
    intro i hi
    cases i with
    | zero => rfl
    | succ i => rw [endsOf, List.getElem?_cons_succ, ih i (by simpa using hi), List.drop_succ_cons]

theorem Level.of_get {keep : List (Tree (List Nat × V))} {paths : List Nat} (hl : keep.length = paths.length + 1)
    (h : ∀ i, i ≤ paths.length → (keep.map fun t => t.value.1)[i]? = some (paths.drop i).reverse) : Level keep paths := by
  refine List.ext_getElem? fun i => ?_
  by_cases hi : i ≤ paths.length
  · rw [h i hi, List.getElem?_map, endsOf_get _ _ hi]
    rfl
  · rw [List.getElem?_eq_none (by rw [List.length_map]; omega), List.getElem?_eq_none (by rw [List.length_map, endsOf_length]; omega)]

/-- A leaf for every item. -/
def leavesOf (l : List ((List Nat × V) × List Nat)) : List (Tree (List Nat × V)) := l.map fun x => .node x.1 []

theorem toldFirst_length (segs : List Nat) (d : Nat) (c : List (V × List Nat)) : ∀ j, (toldFirst segs d j c).length = c.length := by
  induction c with
  | nil => intro j; rfl
  | cons x c ih => intro j; rw [toldFirst, List.length_cons, ih, List.length_cons]

theorem toldFirst_get (segs : List Nat) (d : Nat) (c : List (V × List Nat)) : ∀ j i, (toldFirst segs d j c)[i]? =
    (c[i]?).map fun x => ((segs.take (if j + i < d then j + i else j + i + 1), x.1), x.2) := by
  induction c with
  | nil => intro j i; simp [toldFirst]
  | cons x c ih =>
    intro j i
    cases i with
    | zero => rfl
    | succ i =>
      rw [toldFirst, List.getElem?_cons_succ, ih (j + 1) i, List.getElem?_cons_succ]
      rw [show j + 1 + i = j + (i + 1) by omega]

theorem toldRun_first (segs : List Nat) (d : Nat) (c : List (V × List Nat)) : ∀ (j : Nat) (keep : List (Tree (List Nat × V)))
    (paths : List Nat), plunge j c = c.length → keep.length = j → paths.length = j →
    ToldRun (toldFirst segs d j c) keep paths ((leavesOf (toldFirst segs d j c)).reverse ++ keep)
      ((c.map fun x => x.2.getLast?.getD 0).reverse ++ paths) := by
  induction c with
  | nil => intro j keep paths _ _ _; exact .nil _ _
  | cons x c ih =>
    obtain ⟨v, p⟩ := x
    intro j keep paths hc hk hp
    rw [plunge] at hc
    by_cases hj : j < p.length
    · rw [if_pos hj, List.length_cons, Nat.add_right_cancel_iff] at hc
      have hz : keep.length - p.length = 0 := by omega
      have := ih (j + 1) (.node (segs.take (if j < d then j else j + 1), v) [] :: keep) (p.getLast?.getD 0 :: paths) hc
        (by simp [hk]) (by simp [hp])
      rw [toldFirst, leavesOf, List.map_cons, List.map_cons, List.reverse_cons, List.reverse_cons, List.append_assoc,
        List.append_assoc]
      refine .cons (by rw [hz]; trivial) (Pipe.collapse_le (by omega)) ?_ this
      rw [hz, List.drop_zero]
      exact pushPath_cons (by omega)
    · rw [if_neg hj] at hc
      simp at hc

theorem plunge_take (l : List (V × List Nat)) : ∀ j, plunge j (l.take (plunge j l)) = (l.take (plunge j l)).length ∧
    plunge j l ≤ l.length ∧ ∀ v p l', l.drop (plunge j l) = (v, p) :: l' → p.length ≤ j + plunge j l := by
  induction l with
  | nil => intro j; simp [plunge]
  | cons x l ih =>
    obtain ⟨v, p⟩ := x
    intro j
    by_cases hj : j < p.length
    · obtain ⟨h1, h2, h3⟩ := ih (j + 1)
      simp only [plunge, hj, if_true, List.take_succ_cons, List.length_cons, List.drop_succ_cons]
      refine ⟨by rw [h1], by omega, fun v p l' h => ?_⟩
      have := h3 v p l' h
      omega
    · simp only [plunge, hj, if_false, List.take_zero, List.drop_zero, Nat.zero_le, true_and]
      refine ⟨rfl, fun v' p' l' h => ?_⟩
      obtain ⟨h, -⟩ := List.cons.inj h
      cases h
      omega

theorem first_label (segs : List Nat) (d : Nat) (c : List (V × List Nat)) (i : Nat) (hi : i < c.length) :
    (((leavesOf (toldFirst segs d 0 c)).reverse ++ []).map fun (t : Tree (List Nat × V)) => t.value.1)[i]? =
      some (segs.take (if c.length - 1 - i < d then c.length - 1 - i else c.length - 1 - i + 1)) := by
  have hl := toldFirst_length segs d c 0
  rw [List.append_nil, leavesOf, List.getElem?_map, List.getElem?_reverse (by simpa [hl] using hi), List.length_map,
    List.getElem?_map, toldFirst_get, hl, List.getElem?_eq_getElem (by omega)]
  simp [Tree.value]

theorem untold_first (segs : List Nat) (d : Nat) (c : List (V × List Nat)) : ∀ j, untold (toldFirst segs d j c) = c := by
  induction c with
  | nil => intro j; rfl
  | cons x c ih => intro j; rw [toldFirst, untold, List.map_cons]; exact congrArg (List.cons _) (ih (j + 1))

theorem untold_next (l : List (V × List Nat)) : ∀ q, untold (toldNext q l) = l := by
  induction l with
  | nil => intro q; rfl
  | cons x l ih => intro q; rw [toldNext, untold, List.map_cons]; exact congrArg (List.cons _) (ih _)

theorem untold_told (l : List (V × List Nat)) : untold (toldPaths l) = l := by
  rw [toldPaths]
  split
  · next h =>
    rw [untold_first]
    have := List.take_append_drop (plunge 0 l) l
    rw [h, List.append_nil] at this
    exact this
  · next v p l' h =>
    have := List.take_append_drop (plunge 0 l) l
    rw [h] at this
    refine Eq.trans ?_ this
    rw [untold, List.map_append, List.map_cons]
    have e1 := untold_first ((l.take (plunge 0 l)).map fun x => x.2.getLast?.getD 0) p.length (l.take (plunge 0 l)) 0
    have e2 := untold_next l' (((l.take (plunge 0 l)).map fun x => x.2.getLast?.getD 0).take p.length)
    rw [untold] at e1 e2
    rw [e1, e2]

theorem toldRun_all (l : List (V × List Nat)) (hl : ∀ x ∈ l.tail, x.2 ≠ []) :
    ∃ keep paths, ToldRun (toldPaths l) [] [] keep paths ∧ Agree (keep.length - 1) keep paths ∧
      ∀ q ∈ (keep.map fun t => t.value.1).getLast?, q = [] := by
  obtain ⟨h1, h2, h3⟩ := plunge_take l 0
  have hlen : (l.take (plunge 0 l)).length = plunge 0 l := by rw [List.length_take]; omega
  have hrun := fun segs d => toldRun_first segs d (l.take (plunge 0 l)) 0 [] [] h1 rfl rfl
  rw [toldPaths]
  generalize hc : l.take (plunge 0 l) = c at *
  generalize hsegs : (c.map fun x => x.2.getLast?.getD 0) = segs at *
  have hsl : segs.length = c.length := by rw [← hsegs, List.length_map]
  split
  · refine ⟨_, _, hrun segs 1, ?_, ?_⟩
    · refine .of_get fun i hi => ?_
      simp only [List.append_nil, List.length_reverse, leavesOf, List.length_map, toldFirst_length] at hi
      refine ⟨by rw [List.append_nil, List.length_reverse]; omega, ?_⟩
      rw [first_label _ _ _ i (by omega), if_neg (by omega), List.append_nil, List.reverse_drop, List.reverse_reverse,
        List.length_reverse, hsl, show c.length - 1 - i + 1 = c.length - i by omega]
    · intro q hq
      rw [List.getLast?_eq_getElem?] at hq
      simp only [List.length_map, List.append_nil, List.length_reverse, leavesOf, toldFirst_length] at hq
      cases hn : c.length with
      | zero =>
        rw [List.length_eq_zero_iff] at hn
        subst hn
        simp [toldFirst] at hq
      | succ n =>
        have := first_label segs 1 c n (by omega)
        rw [List.append_nil, leavesOf] at this
        rw [hn, Nat.add_sub_cancel, this, hn] at hq
        simpa using hq.symm
  · next v p l' h =>
    have hd := h3 v p l' h
    rw [Nat.zero_add] at hd
    obtain ⟨k, hk⟩ := collapse_ok p.length ((leavesOf (toldFirst segs p.length 0 c)).reverse ++ []) (by
      cases hn : c.length with
      | zero =>
        right
        rw [List.length_eq_zero_iff] at hn
        subst hn
        rfl
      | succ n =>
        left
        refine List.length_pos_iff.2 (hl (v, p) ?_)
        have e := List.take_append_drop (plunge 0 l) l
        rw [hc, h] at e
        rw [← e]
        cases c with
        | nil => simp at hn
        | cons x c => simp)
    have hkl : ((leavesOf (toldFirst segs p.length 0 c)).reverse ++ []).length = c.length := by
      simp [leavesOf, toldFirst_length]
    have hkv := congrArg (List.map Prod.fst) (collapse_values hk)
    rw [List.map_map, List.map_drop, List.map_map, hkl] at hkv
    have hlev : Level (.node (segs.take p.length, v) [] :: k) (segs.reverse.drop (c.length - p.length)) := by
      have hklen : k.length = p.length := by
        have := congrArg List.length hkv
        simp only [List.length_map, List.length_drop, hkl] at this
        omega
      refine .of_get (by rw [List.length_cons, hklen, List.length_drop, List.length_reverse]; omega) fun i hi => ?_
      rw [List.length_drop, List.length_reverse] at hi
      cases i with
      | zero =>
        simp only [List.map_cons, List.getElem?_cons_zero, Tree.value, List.drop_zero]
        rw [List.reverse_drop, List.reverse_reverse, List.length_reverse, hsl,
          show c.length - (c.length - p.length) = p.length by omega]
      | succ i =>
        rw [List.map_cons, List.getElem?_cons_succ]
        have e : (k.map fun t => t.value.1) = List.drop (c.length - p.length)
          (((leavesOf (toldFirst segs p.length 0 c)).reverse ++ []).map fun (t : Tree (List Nat × V)) => t.value.1) := hkv
        rw [e, List.getElem?_drop, first_label _ _ _ _ (by omega), if_pos (by omega), List.drop_drop, List.reverse_drop,
          List.reverse_reverse, List.length_reverse, hsl]
        congr 2
        omega
    obtain ⟨keep', paths', g1, g2⟩ := toldRun_next l' (fun x hx => hl x (by
      have e := List.take_append_drop (plunge 0 l) l
      rw [hc, h] at e
      rw [← e]
      cases c with
      | nil => simpa using hx
      | cons y c => simp [hx])) _ _ hlev
    refine ⟨keep', paths', (hrun segs p.length).append (.cons (paths2 := segs.reverse.drop (c.length - p.length)) ?_ hk ?_ ?_), ?_, ?_⟩
    · refine .of_get fun i hi => ?_
      rw [hkl] at hi
      refine ⟨by rw [List.append_nil, List.length_reverse]; omega, ?_⟩
      rw [first_label _ _ _ i (by omega), if_neg (by omega), List.append_nil, List.reverse_drop, List.reverse_reverse,
        List.length_reverse, hsl, show c.length - 1 - i + 1 = c.length - i by omega]
    · rw [hkl, List.append_nil]
      exact pushPath_same (by rw [List.length_drop, List.length_reverse]; omega)
    · rw [List.reverse_drop, List.reverse_reverse, List.length_reverse, hsl,
          show c.length - (c.length - p.length) = p.length by omega] at g1
      exact g1
    · exact g2.agree _ (by have := g2.length; omega)
    · intro q hq
      have hl2 := g2.length
      rw [Level] at g2
      rw [g2, List.getLast?_eq_getElem?, List.length_map, endsOf_length, Nat.add_sub_cancel, List.getElem?_map,
        endsOf_get _ _ (Nat.le_refl _)] at hq
      simpa using hq.symm

end

section
variable {S : Type u} {V : Type v} {O : Type x} {σ : Type w} {τ : Type y}

theorem regroup_label {keep : List (Tree (List Nat × V))} {t : Tree (List Nat × V)}
    (hc : Pipe.collapse 1 keep = .ok [t]) (hq : ∀ q ∈ (keep.map fun t => t.value.1).getLast?, q = []) : t.value.1 = [] := by
  have hv := congrArg (List.map Prod.fst) (collapse_values hc)
  rw [List.map_map, List.map_drop, List.map_map] at hv
  refine hq _ ?_
  have e : [t.value.1] = List.drop (keep.length - 1) (keep.map fun t => t.value.1) := hv
  rw [List.getLast?_eq_getElem?, List.length_map]
  have := congrArg (fun l : List (List Nat) => l[0]?) e
  simp only [List.getElem?_cons_zero, List.getElem?_drop, Nat.add_zero] at this
  exact this.symm

theorem told_tail {l : List (V × List Nat)} (hl : ∀ x ∈ l.tail, x.2 ≠ []) : ∀ x ∈ (toldPaths l).tail, x.2 ≠ [] := by
  intro x hx
  refine hl (x.1.2, x.2) ?_
  rw [← untold_told l, untold, ← List.map_tail]
  exact List.mem_map.2 ⟨x, hx, rfl⟩

theorem Pipe.foldPath_told {M : Pipe S V σ} {s : S} {w w' : σ} {l : List (V × List Nat)} (h : M.emits s w = .ok (l, w'))
    (hl : ∀ x ∈ l.tail, x.2 ≠ []) (f : τ → List O → List Nat → V → τ × O) (r : τ) :
    M.foldPath f s w r = .ok ((foldO (Tree.foldS (toldClosure f)) r (regroupTold l)).2,
      (foldO (Tree.foldS (toldClosure f)) r (regroupTold l)).1, w') := by
  obtain ⟨keep, paths, h1, h2, h3⟩ := toldRun_all l hl
  obtain ⟨keep2, g1, g2⟩ := collectList_all (toldPaths l) (told_tail hl)
  rw [h1.collect] at g1
  cases g1
  have e1 := h1.fold f r
  rw [untold_told] at e1
  have e2 := toldCollapse f r 1 keep paths _ h2 g2
  rw [foldPath, foldPathLoop_eq [] [] [] r h]
  simp only [foldStack, List.map_nil] at e1
  rw [e1]
  simp only [e2]
  rw [regroupTold]
  cases hr : regroup ((toldPaths l).map fun x => (x.2.length, x.1)) with
  | none => rfl
  | some t =>
    rw [hr] at g2
    have := regroup_label g2 h3
    obtain ⟨⟨q, a⟩, cs⟩ := t
    obtain rfl : q = [] := this
    rfl

theorem Pipe.binFoldPath_told {M : Pipe S V σ} {s : S} {w w' : σ} {l : List (V × List Nat)} (h : M.emits s w = .ok (l, w'))
    (hl : ∀ x ∈ l.tail, x.2 ≠ []) (hs : ∀ x ∈ l, x.2.getLast?.getD 0 ≤ 1)
    (f : τ → Option O × Option O → List Nat → V → τ × O) (r : τ) :
    M.binFoldPath f s w r = .ok ((foldO (Tree.foldS (toldSlots f)) r (regroupTold l)).2.map Prod.snd,
      (foldO (Tree.foldS (toldSlots f)) r (regroupTold l)).1, w') := by
  obtain ⟨keep, paths, h1, h2, h3⟩ := toldRun_all l hl
  obtain ⟨keep2, g1, g2⟩ := collectList_all (toldPaths l) (told_tail hl)
  rw [h1.collect] at g1
  cases g1
  obtain ⟨e1, hp⟩ := h1.binFold f r (by
    intro x hx
    refine hs (x.1.2, x.2) ?_
    rw [← untold_told l]
    exact List.mem_map.2 ⟨x, hx, rfl⟩) (by simp)
  rw [untold_told] at e1
  have e2 := toldBinCollapse f r 1 keep paths _ h2 hp g2
  rw [binFoldPath, binFoldLoop_eq [] [] [] r h]
  simp only [foldStack, List.map_nil, slotPairs] at e1
  rw [e1]
  simp only [slotPairs] at e2 ⊢
  simp only [e2]
  rw [regroupTold]
  cases hr : regroup ((toldPaths l).map fun x => (x.2.length, x.1)) with
  | none => rfl
  | some t =>
    rw [hr] at g2
    have := regroup_label g2 h3
    obtain ⟨⟨q, a⟩, cs⟩ := t
    obtain rfl : q = [] := this
    rfl

end

end TreeIter
