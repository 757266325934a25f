import Verif.Lemmas.PipeStart

/-! # The path reported by a pruned pipeline -/

universe u v w x y

namespace TreeIter

theorem adj_child (q : List Nat) : adj (q.length + 1) q = q ++ [0] := by
  simp [adj]

theorem adj_self (q : List Nat) : adj q.length q = q := by
  simp [adj]

theorem adj_after {q c : List Nat} {j : Nat} (h : c.take (q.length + 1) = q ++ [j]) (hl : c.length > q.length + 1) :
    adj (q.length + 1) c = q ++ [j + 1] := by
  rw [adj, if_neg (by omega), if_pos hl, h]
  simp [Pipe.bumpLast]

section
variable {σ : Type w} {V : Type v} (f : σ → List Nat → V → σ × Bool)

/-- The path kept after a node at `q` and everything below were visited. -/
def AfterPath (q c : List Nat) (deeper : Bool) : Prop :=
  if deeper then c.take q.length = q ∧ c.length > q.length else c = q

theorem AfterPath.next {q c : List Nat} {j : Nat} {b : Bool} (h : AfterPath (q ++ [j]) c b) :
    adj (q.length + 1) c = q ++ [if b then j + 1 else j] := by
  cases b with
  | false =>
    simp only [AfterPath, Bool.false_eq_true, if_false] at h
    subst h
    have := adj_self (q ++ [j])
    simpa using this
  | true =>
    simp only [AfterPath, if_true, List.length_append, List.length_cons, List.length_nil] at h
    exact adj_after h.1 h.2

theorem prunedAt_visit (t : Tree V) (a c : List Nat) (w : σ) (p q : List Nat) (hp : p.length = q.length)
    (hc : adj q.length c = q) :
    ∃ c' a', visitT ((pruneStage f).visitor (idVisitor σ V)) (a, c) w (t.paths p) =
        ((t.prunedAtS f w p q).2.toList, (a', c'), (t.prunedAtS f w p q).1) ∧
      AfterPath q c' ((t.prunedAtS f w p q).2.isSome && !t.children.isEmpty) := by
  induction t using Tree.ind generalizing a c w p q with
  | h x cs ih =>
    have key : ∀ ds : List (Tree V), (∀ d ∈ ds, d ∈ cs) → ∀ (a c : List Nat) (w : σ) (i j : Nat),
        adj (q.length + 1) c = q ++ [j] →
        ∃ c' a', visitL ((pruneStage f).visitor (idVisitor σ V)) (a, c) w (Tree.pathsL p i ds) =
          ((Tree.prunedAtSL f w p i q j ds).2, (a', c'), (Tree.prunedAtSL f w p i q j ds).1) ∧
          (if ds.isEmpty then c' = c else c'.take q.length = q ∧ c'.length > q.length) := by
      intro ds
      induction ds with
      | nil => intro _ a c w i j _; exact ⟨c, a, by simp [Tree.pathsL, visitL, Tree.prunedAtSL]⟩
      | cons d ds ihd =>
        intro hds a c w i j hj
        obtain ⟨c1, a1, h1, h2⟩ := ih d (hds d (by simp)) a c w (p ++ [i]) (q ++ [j]) (by simp [hp]) (by simpa using hj)
        have h3 := h2.next
        obtain ⟨c2, a2, h4, h5⟩ := ihd (fun d hd => hds d (by simp [hd])) a1 c1 (d.prunedAtS f w (p ++ [i]) (q ++ [j])).1
          (i + 1) _ h3
        refine ⟨c2, a2, ?_, ?_⟩
        · simp only [Tree.pathsL, visitL, h1, h4, Tree.prunedAtSL]
        · simp only [List.isEmpty_cons, Bool.false_eq_true, if_false]
          by_cases hd : ds.isEmpty = true
          · rw [if_pos hd] at h5
            subst h5
            revert h2
            cases ((d.prunedAtS f w (p ++ [i]) (q ++ [j])).2.isSome && !d.children.isEmpty) with
            | false => intro h2; simp only [AfterPath, Bool.false_eq_true, if_false] at h2; subst h2; simp
            | true =>
              intro h2
              simp only [AfterPath, if_true, List.length_append, List.length_cons, List.length_nil] at h2
              refine ⟨?_, by omega⟩
              have := congrArg (List.take q.length) h2.1
              simpa [List.take_take] using this
          · rw [if_neg hd] at h5
            exact h5
    have hv : ((pruneStage f).visitor (idVisitor σ V)).visit (a, c) w p x =
        ((p, q), (f w p x).1, if (f w p x).2 then .skip else .emit x true) := by
      simp only [Stage.visitor, idVisitor, pruneStage, hp, hc]
      cases (f w p x).2 <;> rfl
    rw [Tree.paths, visitT, Tree.prunedAtS, hv]
    cases hf : (f w p x).2 with
    | true => exact ⟨q, p, by simp, by simp [AfterPath]⟩
    | false =>
      obtain ⟨c', a', h1, h2⟩ := key cs (fun _ h => h) p q (f w p x).1 0 0 (adj_child q)
      refine ⟨c', a', ?_, ?_⟩
      · simp only [Bool.false_eq_true, if_false, h1]
        rfl
      · simp only [AfterPath, Bool.false_eq_true, if_false, Option.isSome_some, Bool.true_and, Tree.children]
        cases hcs : cs.isEmpty with
        | true => rw [hcs, if_pos rfl] at h2; simpa using h2
        | false => rw [hcs] at h2; simpa using h2

theorem prunedAt_pathOk (t : Tree V) (w : σ) (p q : List Nat) : ∀ t' ∈ (t.prunedAtS f w p q).2, PathOk q t' := by
  induction t using Tree.ind generalizing w p q with
  | h x cs ih =>
    have key : ∀ ds : List (Tree V), (∀ d ∈ ds, d ∈ cs) → ∀ (w : σ) (i j : Nat),
        ∀ t' ∈ (Tree.prunedAtSL f w p i q j ds).2, ∃ k, PathOk (q ++ [k]) t' := by
      intro ds
      induction ds with
      | nil => intro _ w i j t' ht; simp [Tree.prunedAtSL] at ht
      | cons d ds ihd =>
        intro hds w i j t' ht
        simp only [Tree.prunedAtSL, List.mem_append, Option.mem_toList] at ht
        rcases ht with ht | ht
        · exact ⟨j, ih d (hds d (by simp)) w _ _ t' ht⟩
        · exact ihd (fun d hd => hds d (by simp [hd])) _ _ _ t' ht
    intro t' ht
    rw [Tree.prunedAtS] at ht
    split at ht
    · simp at ht
    · simp only [Option.mem_some_iff] at ht
      subst ht
      rw [PathOk]
      exact ⟨rfl, key cs (fun _ h => h) _ 0 0⟩

theorem prunedAt_fst (t : Tree V) (w : σ) (p q : List Nat) :
    (t.prunedAtS f w p q).1 = (t.prunePathS f w p).1 ∧
      (t.prunedAtS f w p q).2.map (Tree.map Prod.fst) = (t.prunePathS f w p).2 := by
  induction t using Tree.ind generalizing w p q with
  | h x cs ih =>
    have key : ∀ ds : List (Tree V), (∀ d ∈ ds, d ∈ cs) → ∀ (w : σ) (i j : Nat),
        (Tree.prunedAtSL f w p i q j ds).1 = (Tree.prunePathSL f w p i ds).1 ∧
        (Tree.prunedAtSL f w p i q j ds).2.map (Tree.map Prod.fst) = (Tree.prunePathSL f w p i ds).2 := by
      intro ds
      induction ds with
      | nil => intro _ w i j; simp [Tree.prunedAtSL, Tree.prunePathSL]
      | cons d ds ihd =>
        intro hds w i j
        obtain ⟨h1, h2⟩ := ih d (hds d (by simp)) w (p ++ [i]) (q ++ [j])
        obtain ⟨i1, i2⟩ := ihd (fun d hd => hds d (by simp [hd])) (d.prunedAtS f w (p ++ [i]) (q ++ [j])).1 (i + 1)
          (if (d.prunedAtS f w (p ++ [i]) (q ++ [j])).2.isSome && !d.children.isEmpty then j + 1 else j)
        simp only [Tree.prunedAtSL, Tree.prunePathSL]
        refine ⟨by rw [i1, h1], ?_⟩
        rw [List.map_append, i2, ← Option.toList_map, h2, h1]
    obtain ⟨k1, k2⟩ := key cs (fun _ h => h) (f w p x).1 0 0
    rw [Tree.prunedAtS, Tree.prunePathS]
    cases hf : (f w p x).2 with
    | true => simp
    | false => simp [Tree.map_node, k1, k2]

end

section
variable {N : Type u} {V : Type v} [TreeNode N V] {σ : Type w} {τ : Type x} {O : Type y}

theorem prunedAt_emits (f : σ → List Nat → V → σ × Bool) (n : N) (hn : ArityOk n) (w : σ) :
    ((Track.pipe σ).prunePath f).emits (.new (Api.start n)) w =
      .ok (Tree.preorderL ((treeOf n).prunedAtS f w [] []).2.toList, ((treeOf n).prunedAtS f w [] []).1) := by
  have hM := (Track.enum (N := N) σ).prunePath f
  have h := hM.emits (s := Pipe.PruneState.new (Api.start n)) (a := ([], [])) w ⟨⟨rfl, rfl⟩, rel_start n⟩
  rw [wpaths_treeOf hn] at h
  obtain ⟨c', a', h1, -⟩ := prunedAt_visit f (treeOf n) [] [] w [] [] rfl rfl
  simp only [visitL, h1, List.append_nil] at h
  exact h

end

end TreeIter
