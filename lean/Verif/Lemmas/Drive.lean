import Verif.Model.Drive
import Verif.Spec.Drive
import Verif.Lemmas.PipeStart
import Verif.Lemmas.PipeStages
import Verif.Lemmas.PipeSpec

/-! # Lemmas for a client that drives a pipeline by hand -/

universe u v w x y z

namespace TreeIter

section
variable {S : Type u} {A : Type v} {σ : Type w} {U : Type x} {W : Type y} {τ : Type z}

/-- The client as a stage. -/
def clientStage (σ : Type w) (f : τ → List Nat → W → τ × Bool) : Stage τ σ W W where
  step c w p y := ((f c p y).1, w, .emit y (!(f c p y).2))
  path _ p := p
  finish c _ := c

theorem Enum.drive {M : Pipe S W σ} {v : Visitor A σ U W} {R : S → A → List (Lab U) → Prop} (hM : Enum M v R)
    (f : τ → List Nat → W → τ × Bool) (k : Nat) {s : S} {a : A} {l : List (Lab U)} (w : σ) (c : τ) (h : R s a l) :
    M.drive f k s w c =
      .ok ((Tree.preorderL (visitL ((clientStage σ f).visitor v) (a, c) w l).1).take k,
        clientAfter f c ((Tree.preorderL (visitL ((clientStage σ f).visitor v) (a, c) w l).1).take k)) := by
  induction k generalizing s a l w c with
  | zero => simp [Pipe.drive, clientAfter]
  | succ k ih =>
    rcases hv : visitNext v a w l with ⟨o, a', w'⟩
    rcases o with _ | ⟨y, cs, rest⟩
    · obtain ⟨s'', a'', h1, h2⟩ := hM.next_none h hv
      have h3 := (clientStage σ f).visitNext_none c hv
      rw [Pipe.drive, h1, visitL_preorder_none h3]
      simp only
      rw [ih w' c h2]
      simp [visitL, Tree.preorderL]
    · obtain ⟨s', h1, h2, h3⟩ := hM.next_some h hv
      have h4 := (clientStage σ f).visitNext_some c hv
      simp only [clientStage] at h4
      obtain ⟨h5, -⟩ := visitL_preorder_some h4
      rw [Pipe.drive, h1]
      simp only [hM.path h2]
      have h5' : Tree.preorderL (visitL ((clientStage σ f).visitor v) (a, c) w l).1 = _ := h5
      rw [h5', List.take_succ_cons, clientAfter, List.foldl_cons]
      simp only [Stage.visitor]
      by_cases hp : (f c (v.path a') y).2
      · rw [if_pos hp, ih w' _ h3]
        simp [hp, clientStage, clientAfter, Stage.visitor]
      · rw [if_neg hp, ih w' _ h2]
        simp [hp, clientStage, clientAfter, Stage.visitor]

/-- What the client meets in a forest labelled with paths. -/
theorem visit_client_id (f : τ → List Nat → U → τ × Bool) (t : Tree U) (p : List Nat) (a : List Nat) (w : σ) (c : τ) :
    ∃ a', (visitT ((clientStage σ f).visitor (idVisitor σ U)) (a, c) w (t.paths p)).2 = ((a', (t.walkS f c p).1), w) ∧
      Tree.preorderL (visitT ((clientStage σ f).visitor (idVisitor σ U)) (a, c) w (t.paths p)).1 = (t.walkS f c p).2 := by
  induction t using Tree.ind generalizing p a c with
  | h x cs ih =>
    rw [Tree.paths, visitT, Tree.walkS]
    simp only [Stage.visitor, idVisitor, clientStage, Bool.true_and]
    by_cases hf : (f c p x).2
    · simp [hf, Tree.preorderL, Tree.preorder]
    · have key : ∀ ds : List (Tree U), (∀ d ∈ ds, d ∈ cs) → ∀ i a c,
          ∃ a', (visitL ((clientStage σ f).visitor (idVisitor σ U)) (a, c) w (Tree.pathsL p i ds)).2 =
              ((a', (Tree.walkSL f c p i ds).1), w) ∧
            Tree.preorderL (visitL ((clientStage σ f).visitor (idVisitor σ U)) (a, c) w (Tree.pathsL p i ds)).1 =
              (Tree.walkSL f c p i ds).2 := by
        intro ds
        induction ds with
        | nil => intro _ i a c; exact ⟨a, rfl, rfl⟩
        | cons d ds ihd =>
          intro hds i a c
          obtain ⟨a1, h1, h2⟩ := ih d (hds d (by simp)) (p ++ [i]) a c
          obtain ⟨a2, h3, h4⟩ := ihd (fun e he => hds e (by simp [he])) (i + 1) a1 (d.walkS f c (p ++ [i])).1
          rw [Tree.pathsL, visitL, Tree.walkSL, h1]
          refine ⟨a2, h3, ?_⟩
          simp only [Tree.preorderL_eq, List.flatMap_append]
          rw [← Tree.preorderL_eq, ← Tree.preorderL_eq, h2, h4]
      obtain ⟨a', h1, h2⟩ := key cs (fun _ h => h) 0 p (f c p x).1
      simp only [Stage.visitor, idVisitor, clientStage] at h1 h2
      simp only [hf, Bool.not_false, if_false, Bool.false_eq_true]
      refine ⟨a', h1, ?_⟩
      simp only [Tree.preorderL, Tree.preorder, List.append_nil]
      exact congrArg _ h2

theorem visit_client_bin (f : τ → List Nat → U → τ × Bool) (t : BinTree U) (p : List Nat) (a : List Nat) (w : σ) (c : τ) :
    ∃ a', (visitT ((clientStage σ f).visitor (idVisitor σ U)) (a, c) w (t.paths p)).2 = ((a', (t.walkS f c p).1), w) ∧
      Tree.preorderL (visitT ((clientStage σ f).visitor (idVisitor σ U)) (a, c) w (t.paths p)).1 = (t.walkS f c p).2 := by
  induction t using BinTree.ind generalizing p a c with
  | h x l r ihl ihr =>
    rw [BinTree.paths, visitT, BinTree.walkS]
    simp only [Stage.visitor, idVisitor, clientStage, Bool.true_and]
    by_cases hf : (f c p x).2
    · simp [hf, Tree.preorderL, Tree.preorder]
    · have key : ∀ o : Option (BinTree U), (∀ d ∈ o, d ∈ l ∨ d ∈ r) → ∀ q a c,
          ∃ a', (visitL ((clientStage σ f).visitor (idVisitor σ U)) (a, c) w (BinTree.pathsO q o)).2 =
              ((a', (BinTree.walkSO f c q o).1), w) ∧
            Tree.preorderL (visitL ((clientStage σ f).visitor (idVisitor σ U)) (a, c) w (BinTree.pathsO q o)).1 =
              (BinTree.walkSO f c q o).2 := by
        intro o ho q a c
        cases o with
        | none => exact ⟨a, rfl, rfl⟩
        | some d =>
          simp only [BinTree.pathsO, BinTree.walkSO, visitL, List.append_nil]
          rcases ho d rfl with hd | hd
          · exact ihl d hd q a c
          · exact ihr d hd q a c
      obtain ⟨a1, h1, h2⟩ := key l (fun _ h => Or.inl h) (p ++ [0]) p (f c p x).1
      obtain ⟨a2, h3, h4⟩ := key r (fun _ h => Or.inr h) (p ++ [1]) a1 (BinTree.walkSO f (f c p x).1 (p ++ [0]) l).1
      simp only [Stage.visitor, idVisitor, clientStage, Bool.true_and] at h1 h2 h3 h4
      simp only [hf, Bool.not_false, if_false, Bool.false_eq_true, visitL_append, h1]
      refine ⟨a2, h3, ?_⟩
      simp only [Tree.preorderL, Tree.preorder, List.append_nil, Tree.preorderL_eq, List.flatMap_append]
      simp only [Tree.preorderL_eq] at h2 h4
      rw [h2, h4]

end

end TreeIter
