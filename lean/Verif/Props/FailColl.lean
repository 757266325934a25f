import Verif.Lemmas.FailColl
import Verif.Props.FailPipe
import Verif.Props.CollectionPipeline

/-!
# C72: `trees()` and `fold_trees` on collection pipelines whose closures panic
-/

universe u v w x

namespace TreeIter

variable {N : Type u} {V W : Type v} {σ : Type w} {O : Type x}

/-- `map_tree` with a closure that adds ten, and panics at `x`. -/
def failAt (x : Nat) : FChain Unit Nat Nat := FChain.source.map fun w v => (w, if v == x then none else some (v + 10))

/-- `.map_tree(..).prune(..)` with the closures of C71, and a `prune` at 18. -/
def failTrees : FChain (List Nat) Nat Nat := failChain.prune fun w v => (w, some (v == 18))

/-! ## What the calls do -/

/-- C72: the answers of `trees()`. -/
theorem C72_trees [TreeNode N V] (bad : N → Bool) (c : FChain σ V W) (ns : List N) (w : σ) (k : Nat) :
    nthCallE (treesEnd.callF (c.collPipeF bad)) k ((c.collInitF ns, none), w, ()) =
      .ok ((batches [] (c.collReplies bad ns w)).map (·.bind regroup))[k]? := by
  rw [CollEnd.calls_batches treesEnd_holds (c.collPipeF_walks bad) k (c.collInitF_rest bad ns), CollEnd.pendBatches,
    CollEnd.repliesP_forest]
  rfl

example : (answersE (treesEnd.callF (failTrees.collPipeF badNine)) 6 ((failTrees.collInitF threeTrees, none), [], ())).map
      (List.map (Option.map (Option.map Tree.preorder))) =
    some [some none, some none, some (some [14]), some none, none, none] := by decide +kernel

/-- C72: the answers of `fold_trees`. -/
theorem C72_fold [TreeNode N V] (bad : N → Bool) (c : FChain σ V W) (g : List O → W → O) (ns : List N) (w : σ) (k : Nat) :
    nthCallE ((foldEnd fun t os v => (t, g os v)).callF (c.collPipeF bad)) k ((c.collInitF ns, none), w, ()) =
      .ok ((batches [] (c.collReplies bad ns w)).map
        (·.bind fun b => (regroup b).map fun t => (t.foldS (fun u os v => (u, g os v)) ()).2))[k]? := by
  rw [CollEnd.calls_batches (foldEnd_holds fun t os v => (t, g os v)) (c.collPipeF_walks bad) k (c.collInitF_rest bad ns),
    CollEnd.pendBatches, CollEnd.repliesP_forest]
  rfl

example : answersE ((foldEnd fun t os v => (t, v + os.sum)).callF ((FChain.source.map failMap).collPipeF badNine)) 4
      (((FChain.source.map failMap).collInitF threeTrees, none), [], ()) =
    some [some none, some (some 54), some none, none] := by decide +kernel

/-- C72: `trees()` on a pipeline that has been asked for `j` values before, whether that gave values or panics: only what was left
is taken. -/
theorem C72_advanced [TreeNode N V] (bad : N → Bool) (c : FChain σ V W) (ns : List N) (w : σ) (j : Nat) :
    ∃ s w', stateAfterE (c.collPipeF bad).call j (c.collInitF ns, w) = .ok (s, w') ∧
      ∀ k, nthCallE (treesEnd.callF (c.collPipeF bad)) k ((s, none), w', ()) =
        .ok ((batches [] ((c.collReplies bad ns w).drop j)).map (·.bind regroup))[k]? := by
  obtain ⟨s, w', l, h1, h2, h3⟩ := (c.collPipeF_walks bad).afterLev j (w := w) (c.collInitF_rest bad ns).1
  refine ⟨s, w', h1, fun k => ?_⟩
  rw [CollEnd.calls_batches treesEnd_holds (c.collPipeF_walks bad) k ⟨h2, by simp⟩, CollEnd.pendBatches, h3,
    CollEnd.repliesP_forest]
  rfl

example : ((stateAfterE ((failAt 8).collPipeF fun _ => false).call 2 ((failAt 8).collInitF threeTrees, ())).toOption.bind fun x =>
      (answersE (treesEnd.callF ((failAt 8).collPipeF fun _ => false)) 4 ((x.1, none), x.2, ())).map
        (List.map (Option.map (Option.map Tree.preorder)))) =
    some [some (some [13, 14, 12, 15]), some none, some (some [19]), none] := by decide +kernel

/-! ## Whole trees -/

/-- C72: a tree of the collection comes out whole if no panic falls on it, nor on what comes next after it (a root).  `t'` is made
of all the values that the stages give for it, in the same order and at the same depths.  Missing: a panic on what comes next;
then it is lost. -/
theorem C72_whole_partial [TreeNode N V] (bad : N → Bool) (c : FChain σ V W) (ns₁ : List N) (n : N) (ns₂ : List N) (w : σ)
    (w₁ w₂ : σ) (h₁ : w₁ = (Tree.repliesL (c.levelAt bad) 0 w (ns₁.map unfold)).2)
    (h₂ : w₂ = ((unfold n).replies (c.levelAt bad) 0 w₁).2)
    (hn : none ∉ ((unfold n).replies (c.levelAt bad) 0 w₁).1) (hne : ((unfold n).replies (c.levelAt bad) 0 w₁).1 ≠ [])
    (hnext : (c.collReplies bad ns₂ w₂).head? ≠ some none) :
    ∃ (t' : Tree W) (k : Nat), ((unfold n).replies (c.levelAt bad) 0 w₁).1 = (t'.levels 0).map some ∧
      nthCallE (treesEnd.callF (c.collPipeF bad)) k ((c.collInitF (ns₁ ++ n :: ns₂), none), w, ()) = .ok (some (some t')) := by
  subst h₁ h₂
  rcases CollEnd.replies_whole (c.stepAt bad) (unfold n) 0 _ hn with h | ⟨t', h⟩
  · exact absurd h hne
  · have := CollEnd.repliesL_head (c.stepAt bad) (ns₂.map unfold) _ hnext
    obtain ⟨k, hk⟩ := CollEnd.batches_tree (c.collReplies bad ns₁ w) t' _ this
    refine ⟨t', k, h, ?_⟩
    rw [C72_trees, FChain.collReplies, List.map_append, CollEnd.repliesL_append, List.map_cons, Tree.repliesL]
    rw [← h] at hk
    rw [List.getElem?_map]
    refine (congrArg Except.ok (congrArg (Option.map _) hk)).trans ?_
    simp [regroup_levels]

example : (answersE (treesEnd.callF ((FChain.source.map failMap).collPipeF badNine)) 6
      (((FChain.source.map failMap).collInitF (sampleTree :: .node 7 [.node 8 []] :: threeTrees), none), [], ())).map
      (List.map (Option.map (Option.map Tree.preorder))) =
    some [some none, some (some [13, 14, 12, 15]), some (some [17, 18]), some none, some (some [13, 14, 12, 15]), some none] := by
  decide +kernel

/-- C72 for `map_tree` with a closure without state: a tree on whose values it does not panic comes out mapped, if it does not
panic on the next root either. -/
theorem C72_map_partial [TreeNode N V] (f : V → Option W) (g : V → W) (ns₁ : List N) (n : N) (ns₂ : List N)
    (hn : ∀ m ∈ (unfold n).preorder, f (val m) = some (g (val m))) (hnext : ∀ m ∈ ns₂.head?, f (val m) ≠ none) :
    ∃ k, nthCallE (treesEnd.callF ((FChain.source.map fun (w : Unit) (v : V) => (w, f v)).collPipeF fun _ => false)) k
      (((FChain.source.map fun (w : Unit) (v : V) => (w, f v)).collInitF (ns₁ ++ n :: ns₂), none), (), ()) =
      .ok (some (some ((unfold n).map fun m => g (val m)))) := by
  have hrep : ∀ (t : Tree N), (∀ m ∈ t.preorder, f (val m) = some (g (val m))) → ∀ d,
      (t.replies ((FChain.source.map fun (w : Unit) (v : V) => (w, f v)).levelAt fun _ => false) d ()).1 =
        ((t.map fun m => g (val m)).levels d).map some := by
    intro t
    induction t using Tree.ind with
    | h a cs ih =>
      intro ht d
      have hL : ∀ (ts : List (Tree N)), (∀ t ∈ ts, ∀ d, (t.replies ((FChain.source.map fun (w : Unit) (v : V) => (w, f v)).levelAt
            fun _ => false) d ()).1 = ((t.map fun m => g (val m)).levels d).map some) → ∀ d,
          (Tree.repliesL ((FChain.source.map fun (w : Unit) (v : V) => (w, f v)).levelAt fun _ => false) d () ts).1 =
            (Tree.levelsL d (Tree.mapL (fun m => g (val m)) ts)).map some := by
        intro ts
        induction ts with
        | nil => intro _ d; rfl
        | cons t ts ih2 =>
          intro h d
          rw [Tree.repliesL, Tree.mapL, Tree.levelsL, List.map_append, h t (by simp), ih2 fun t ht => h t (by simp [ht])]
      have h1 := ht a (by simp [Tree.preorder])
      have h2 := hL cs (fun t h => ih t h fun m hm => ht m (by
        rw [Tree.preorder_node, List.mem_cons]; exact .inr (List.mem_flatMap.2 ⟨t, h, hm⟩))) (d + 1)
      rw [Tree.replies, Tree.map, Tree.levels, List.map_cons, ← h2]
      simp [FChain.levelAt, FChain.stepAt, FChain.step, h1]
  have h0 := hrep (unfold n) hn 0
  obtain ⟨t', k, h1, h2⟩ := C72_whole_partial (fun _ => false) (FChain.source.map fun (w : Unit) (v : V) => (w, f v)) ns₁ n ns₂ ()
    () () rfl rfl (by rw [h0]; simp) (by rw [h0]; obtain ⟨a, cs⟩ := unfold n; simp [Tree.map, Tree.levels]) (by
      cases ns₂ with
      | nil => simp [FChain.collReplies, Tree.repliesL]
      | cons m ns₂ =>
        have := hnext m (by simp)
        rw [FChain.collReplies, List.map_cons, Tree.repliesL, unfold_eq, Tree.replies]
        simpa [FChain.levelAt, FChain.stepAt, FChain.step] using this)
  rw [h0] at h1
  have h3 := congrArg regroup (List.map_injective_iff.2 (fun a b h => Option.some.inj h) h1)
  rw [regroup_levels, regroup_levels, Option.some.injEq] at h3
  exact ⟨k, h3 ▸ h2⟩

example : (∀ m ∈ (unfold (.node 7 [.node 8 []] : Tree Nat)).preorder,
    (if val m == 1 then none else some (val m + 10)) = some (val m + 10)) ∧ ∀ m ∈ threeTrees.tail.tail.head?,
    (if val m == 1 then none else some (val m + 10)) ≠ none := by decide +kernel

example : (answersE (treesEnd.callF ((failAt 1).collPipeF fun _ => false)) 5
      (((failAt 1).collInitF threeTrees, none), (), ())).map (List.map (Option.map (Option.map Tree.preorder))) =
    some [some none, some (some [13, 14, 12, 15]), some (some [17, 18]), some (some [19]), none] := by decide +kernel

/-- C72 is false: a tree may be lost though the closure does not panic on any of its values. -/
theorem C72_lost_false :
    ¬ ∀ (x : Nat) (ts : List (Tree Nat)) (t : Tree Nat), t ∈ ts → x ∉ t.preorder →
      ∃ k, nthCallE (treesEnd.callF ((failAt x).collPipeF fun _ => false)) k (((failAt x).collInitF ts, none), (), ()) =
        .ok (some (some (t.map (· + 10)))) := by
  intro h
  obtain ⟨k, h⟩ := h 7 threeTrees sampleTree (by simp [threeTrees]) (by decide)
  rw [C72_trees] at h
  have h := List.mem_of_getElem? (Except.ok.inj h)
  have h := List.mem_map_of_mem (f := Option.map Tree.preorder) h
  exact absurd h (by decide +kernel)

/-- C72 is false: a part of a tree may come out as if it were a tree of the collection. -/
theorem C72_part_false :
    ¬ ∀ (x : Nat) (ts : List (Tree Nat)) (t' : Tree Nat) (k : Nat),
      nthCallE (treesEnd.callF ((failAt x).collPipeF fun _ => false)) k (((failAt x).collInitF ts, none), (), ()) =
        .ok (some (some t')) → ∃ t ∈ ts, t' = t.map (· + 10) := by
  intro h
  have h1 : (nthCallE (treesEnd.callF ((failAt 1).collPipeF fun _ => false)) 1
      (((failAt 1).collInitF threeTrees, none), (), ())).toOption.map (Option.map (Option.map Tree.preorder)) =
      some (some (some [13, 14, 12, 15])) := by decide +kernel
  cases h2 : nthCallE (treesEnd.callF ((failAt 1).collPipeF fun _ => false)) 1
      (((failAt 1).collInitF threeTrees, none), (), ()) with
  | error e => simp [h2, Except.toOption] at h1
  | ok a =>
    rcases a with _ | _ | t'
    · simp [h2, Except.toOption] at h1
    · simp [h2, Except.toOption] at h1
    · obtain ⟨t, ht, rfl⟩ := h 1 threeTrees t' 1 h2
      simp only [h2, Except.toOption, Option.map_some, Option.some.injEq] at h1
      have := List.mem_map_of_mem (f := fun t : Tree Nat => (t.map (· + 10)).preorder) ht
      rw [h1] at this
      exact absurd this (by decide +kernel)

end TreeIter
