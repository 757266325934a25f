import Verif.Lemmas.FailFold
import Verif.Props.Advance
import Verif.Props.FailColl

/-!
# C74: `fold_trees` on collections whose own closure panics

`Fold::next` holds what it has folded, and the value at hand, in local variables.  A panic of the closure loses them.  The value
at hand need not belong to the tree on which the closure panicked: it may be the root of the next tree.
-/

universe u v w x y

namespace TreeIter

variable {N : Type u} {V W : Type v} {σ : Type w} {τ : Type y} {O : Type x}

/-- Sums of trees, with a panic at `x`. -/
def sumBut (x : Nat) : Unit → List Nat → Nat → Unit × Option Nat := fun t os v => (t, if v == x then none else some (v + os.sum))

/-- The pipeline without stages. -/
abbrev plainSource : FChain Unit Nat Nat := FChain.source

/-- C74: the answers of `fold_trees` with a closure that may panic, on stages that may panic. -/
theorem C74_fold [TreeNode N V] (bad : N → Bool) (c : FChain σ V W) (f : τ → List O → W → τ × Option O) (ns : List N) (w : σ)
    (t : τ) (k : Nat) :
    nthCallE ((foldEndF f).call (c.collPipeF bad)) k ((c.collInitF ns, none), w, t) =
      .ok (foldAnswers f t [] (c.collReplies bad ns w))[k]? := by
  rw [FEnd.calls_answers f (c.collPipeF_walks bad) k (c.collInitF_rest bad ns), FEnd.pendAnswers, CollEnd.repliesP_forest]
  rfl

example : answersE ((foldEndF (sumBut 3)).call (plainSource.collPipeF fun _ => false)) 6
      ((plainSource.collInitF threeTrees, none), (), ()) =
    some [some none, some (some 7), some (some 15), some (some 9), none, none] := by decide +kernel

/-- The closure panics at 15 and the stages at other places. -/
example : answersE ((foldEndF (sumBut 15)).call (failTrees.collPipeF badNine)) 5
      ((failTrees.collInitF threeTrees, none), [], ()) =
    some [some none, some none, some (some 14), some none, none] := by decide +kernel

/-- C74: after some calls of `next()` on the pipeline, whether they gave values or panics, only what was left is folded. -/
theorem C74_advanced [TreeNode N V] (bad : N → Bool) (c : FChain σ V W) (f : τ → List O → W → τ × Option O) (ns : List N) (w : σ)
    (t : τ) (j : Nat) :
    ∃ s w', stateAfterE (c.collPipeF bad).call j (c.collInitF ns, w) = .ok (s, w') ∧
      ∀ k, nthCallE ((foldEndF f).call (c.collPipeF bad)) k ((s, none), w', t) =
        .ok (foldAnswers f t [] ((c.collReplies bad ns w).drop j))[k]? := by
  obtain ⟨s, w', l, h1, h2, h3⟩ := (c.collPipeF_walks bad).afterLev j (w := w) (c.collInitF_rest bad ns).1
  refine ⟨s, w', h1, fun k => ?_⟩
  rw [FEnd.calls_answers f (c.collPipeF_walks bad) k ⟨h2, by simp⟩, FEnd.pendAnswers, h3, CollEnd.repliesP_forest]
  rfl

example : ((stateAfterE (plainSource.collPipeF fun _ => false).call 4 (plainSource.collInitF threeTrees, ())).toOption.bind
      fun x => answersE ((foldEndF (sumBut 8)).call (plainSource.collPipeF fun _ => false)) 4 ((x.1, none), x.2, ())) =
    some [some (some 7), some none, none, none] := by decide +kernel

/-- C74: the fold of a tree comes out if the closure panics neither on its values nor on those of the tree before, whatever the
trees further up have done.  Panics depend on the value alone.  `ts₁`, `s`, `ts₂` are the trees as the stages give them.
Missing: a panic on the tree before, which may lose the root of `s`. -/
theorem C74_whole_partial [TreeNode N V] (bad : N → Bool) (c : FChain σ V W) (f : τ → List O → W → τ × Option O) (ns : List N)
    (w : σ) (t : τ) (ts₁ : List (Tree W)) (s : Tree W) (ts₂ : List (Tree W))
    (hc : c.collReplies bad ns w = (Tree.levelsL 0 (ts₁ ++ s :: ts₂)).map some)
    (hm : ∀ m ∈ ts₁.getLast?, ∀ x ∈ m.preorder, ∀ t os, (f t os x).2 ≠ none)
    (hs : ∀ x ∈ s.preorder, ∀ t os, (f t os x).2 ≠ none) :
    ∃ k t' o, nthCallE ((foldEndF f).call (c.collPipeF bad)) k ((c.collInitF ns, none), w, t) = .ok (some (some o)) ∧
      (s.foldF f t').2 = some o := by
  have happ : ∀ ts ts' : List (Tree W), Tree.levelsL 0 (ts ++ ts') = Tree.levelsL 0 ts ++ Tree.levelsL 0 ts' := by
    intro ts ts'
    induction ts with
    | nil => rfl
    | cons t ts ih => rw [List.cons_append, Tree.levelsL, ih, Tree.levelsL, List.append_assoc]
  have fine : ∀ (m : Tree W), (∀ x ∈ m.preorder, ∀ t os, (f t os x).2 ≠ none) → ∀ d, ∀ x ∈ m.levels d,
      ∀ t os, (f t os x.2).2 ≠ none := by
    intro m h d x hx
    refine h _ ?_
    rw [← levels_snd m d]
    exact List.mem_map_of_mem hx
  -- before the root of `s`
  have pre : ∃ A t' g, (∀ x ∈ g, ∀ t os, (f t os x.2).2 ≠ none) ∧
      foldAnswers f t [] ((Tree.levelsL 0 (ts₁ ++ s :: ts₂)).map some) =
        A ++ foldAnswers f t' g ((s.levels 0).map some ++ (Tree.levelsL 0 ts₂).map some) := by
    rcases List.eq_nil_or_concat ts₁ with rfl | ⟨ts, m, rfl⟩
    · exact ⟨[], t, [], by simp, by rw [List.nil_append, Tree.levelsL, List.map_append]; rfl⟩
    · have hm := fine m (hm m (by simp)) 0
      rw [List.concat_eq_append, List.append_assoc, happ, List.map_append, List.cons_append, List.nil_append, Tree.levelsL, Tree.levelsL]
      obtain ⟨A, t1, g1, h1⟩ := foldAnswers_split f ((Tree.levelsL 0 ts).map some)
        ((m.levels 0 ++ (s.levels 0 ++ Tree.levelsL 0 ts₂)).map some) t []
      rw [h1]
      obtain ⟨a, cs⟩ := m
      rw [Tree.levels] at hm
      have hr : ∃ B t2 g2, (∀ x ∈ g2, ∀ t os, (f t os x.2).2 ≠ none) ∧
          foldAnswers f t1 g1 (some (0, a) :: ((Tree.levelsL 1 cs).map some ++
            ((s.levels 0).map some ++ (Tree.levelsL 0 ts₂).map some))) = B ++ foldAnswers f t2 g2
            ((Tree.levelsL 1 cs).map some ++ ((s.levels 0).map some ++ (Tree.levelsL 0 ts₂).map some)) := by
        have ha : ∀ x ∈ [((0 : Nat), a)], ∀ t os, (f t os x.2).2 ≠ none := by
          intro x hx
          rw [List.mem_singleton.1 hx]
          exact hm _ (by simp)
        rw [foldAnswers]
        split
        · exact ⟨[], _, _, ha, rfl⟩
        · split
          · exact ⟨[none], _, [], by simp, rfl⟩
          · rw [if_pos rfl]
            exact ⟨[_], _, _, ha, rfl⟩
      obtain ⟨B, t2, g2, h2, h3⟩ := hr
      have h4 : ∀ x ∈ g2 ++ Tree.levelsL 1 cs, ∀ t os, (f t os x.2).2 ≠ none := by
        intro x hx
        rcases List.mem_append.1 hx with hx | hx
        · exact h2 x hx
        · exact hm x (by simp [hx])
      refine ⟨A ++ B, t2, g2 ++ Tree.levelsL 1 cs, h4, ?_⟩
      rw [Tree.levels, List.cons_append, List.map_cons, List.map_append, List.map_append, h3,
        foldAnswers_take _ _ (levelsL_ge cs 0) _ h4, List.append_assoc]
  obtain ⟨A, t1, g, hg, h1⟩ := pre
  have hs' := fine s hs 0
  obtain ⟨a, cs⟩ := s
  rw [Tree.levels] at hs' h1
  obtain ⟨B, t2, h2⟩ := foldAnswers_root hg t1 a ((Tree.levelsL 1 cs).map some ++ (Tree.levelsL 0 ts₂).map some)
  rw [List.map_cons, List.cons_append, h2, foldAnswers_take _ _ (levelsL_ge cs 0) _ (by simpa using hs')] at h1
  have hr : regroup ([((0 : Nat), a)] ++ Tree.levelsL 1 cs) = some (.node a cs) := by
    have := regroup_levels (.node a cs)
    rwa [Tree.levels] at this
  have hfin : ∃ L, foldAnswers f t2 ([(0, a)] ++ Tree.levelsL 1 cs) ((Tree.levelsL 0 ts₂).map some) =
      ((Tree.node a cs).foldF f t2).2 :: L := by
    cases ts₂ with
    | nil => exact ⟨[], by rw [Tree.levelsL, List.map_nil, foldAnswers, hr]; rfl⟩
    | cons m ts =>
      obtain ⟨b, bs⟩ := m
      rw [Tree.levelsL, Tree.levels, List.cons_append (bs := Tree.levelsL 0 ts), List.map_cons, foldAnswers, hr]
      have := foldDone_true (f := f) (.node a cs) hs 0 t2
      rcases e : (Tree.node a cs).foldDone f 0 t2 with ⟨t', ok⟩
      rw [e] at this
      simp only at this
      subst this
      simp only [e, if_true]
      exact ⟨_, rfl⟩
  obtain ⟨L, hL⟩ := hfin
  obtain ⟨o, ho⟩ := Option.ne_none_iff_exists'.1 (foldF_isSome (f := f) (.node a cs) hs t2)
  refine ⟨(A ++ B).length, t2, o, ?_, ho⟩
  rw [C74_fold, hc, h1, hL, ho]
  simp

/-- The last of three trees; the closure panics on the first. -/
example : plainSource.collReplies (fun _ => false) threeTrees () =
      (Tree.levelsL 0 ([sampleTree, .node 7 [.node 8 []]] ++ .node 9 [] :: [])).map some ∧
    (∀ m ∈ [sampleTree, .node 7 [.node 8 []]].getLast?, ∀ x ∈ m.preorder, x ≠ 0) ∧
    answersE ((foldEndF (sumBut 0)).call (plainSource.collPipeF fun _ => false)) 4
      ((plainSource.collInitF threeTrees, none), (), ()) = some [some none, some (some 8), some (some 9), none] := by
  decide +kernel

/-- C74 is false: a panic of the closure on one tree may lose another, on whose values the closure does not panic. -/
theorem C74_lost_false :
    ¬ ∀ (x : Nat) (ts : List (Tree Nat)) (s : Tree Nat), s ∈ ts → x ∉ s.preorder →
      ∃ k, nthCallE ((foldEndF (sumBut x)).call (plainSource.collPipeF fun _ => false)) k
        ((plainSource.collInitF ts, none), (), ()) = .ok (some (s.foldF (sumBut x) ()).2) := by
  intro h
  obtain ⟨k, h⟩ := h 7 threeTrees (.node 9 []) (by simp [threeTrees]) (by decide)
  rw [C74_fold] at h
  have h := List.mem_of_getElem? (Except.ok.inj h)
  exact absurd h (by decide +kernel)

/-- C74 is false: an answer may be the fold of no tree of the collection. -/
theorem C74_part_false :
    ¬ ∀ (x : Nat) (ts : List (Tree Nat)) (o k : Nat),
      nthCallE ((foldEndF (sumBut x)).call (plainSource.collPipeF fun _ => false)) k
        ((plainSource.collInitF ts, none), (), ()) = .ok (some (some o)) → ∃ s ∈ ts, (s.foldF (sumBut x) ()).2 = some o := by
  intro h
  have := h 3 threeTrees 7 1 (by rw [C74_fold]; exact congrArg Except.ok (by decide +kernel))
  exact absurd this (by decide +kernel)

end TreeIter
