import Verif.Lemmas.PipeSpec

/-! # `map_path`: the path the closure gets -/

universe u v w x y

namespace TreeIter

section
variable {σ : Type w} {V : Type v} {W : Type x} (stale : σ → List Nat → List Nat → List Nat)
  (f : σ → List Nat → V → σ × W)

theorem mapPath_visit (t : Tree V) (a b : List Nat) (w : σ) (p : List Nat) :
    ∃ t', visitT ((mapPathStage stale f).visitor (idVisitor σ V)) (a, b) w (t.paths p) =
        ([t'], ((t.mapPathS (staleArg stale f) (w, b) p).1.2, (t.mapPathS (staleArg stale f) (w, b) p).1.2),
          (t.mapPathS (staleArg stale f) (w, b) p).1.1) ∧
      t'.map Prod.fst = (t.mapPathS (staleArg stale f) (w, b) p).2 ∧ PathOk p t' := by
  induction t using Tree.ind generalizing a b w p with
  | h x cs ih =>
    have key : ∀ ds : List (Tree V), (∀ c ∈ ds, c ∈ cs) → ∀ (b : List Nat) (w : σ) (i : Nat),
        ∃ ts', visitL ((mapPathStage stale f).visitor (idVisitor σ V)) (b, b) w (Tree.pathsL p i ds) =
          (ts', ((Tree.mapPathSL (staleArg stale f) (w, b) p i ds).1.2, (Tree.mapPathSL (staleArg stale f) (w, b) p i ds).1.2),
            (Tree.mapPathSL (staleArg stale f) (w, b) p i ds).1.1) ∧
          ts'.map (Tree.map Prod.fst) = (Tree.mapPathSL (staleArg stale f) (w, b) p i ds).2 ∧
          ∀ c ∈ ts', ∃ j, PathOk (p ++ [j]) c := by
      intro ds
      induction ds with
      | nil => intro _ b w i; exact ⟨[], by simp [Tree.pathsL, visitL, Tree.mapPathSL]⟩
      | cons c ds ihd =>
        intro hds b w i
        obtain ⟨t', h1, h2, h3⟩ := ih c (hds c (by simp)) b b w (p ++ [i])
        obtain ⟨ts', i1, i2, i3⟩ := ihd (fun c hc => hds c (by simp [hc]))
          (c.mapPathS (staleArg stale f) (w, b) (p ++ [i])).1.2 (c.mapPathS (staleArg stale f) (w, b) (p ++ [i])).1.1 (i + 1)
        refine ⟨t' :: ts', ?_, ?_, ?_⟩
        · simp only [Tree.pathsL, visitL, h1, i1, Tree.mapPathSL]
          rfl
        · simp only [List.map_cons, h2, i2, Tree.mapPathSL]
        · intro c hc
          rcases List.mem_cons.1 hc with rfl | hc
          · exact ⟨i, h3⟩
          · exact i3 c hc
    obtain ⟨ts', h1, h2, h3⟩ := key cs (fun _ h => h) p (f w (stale w b p) x).1 0
    refine ⟨.node ((f w (stale w b p) x).2, p) ts', ?_, ?_, ?_⟩
    · rw [Tree.paths, visitT]
      simp only [Stage.visitor, idVisitor, mapPathStage, Bool.and_true]
      simp only [Stage.visitor, idVisitor, mapPathStage, Bool.and_true] at h1
      simp [h1, Tree.mapPathS, staleArg]
    · simp only [Tree.map_node, h2, Tree.mapPathS, staleArg]
    · rw [PathOk]
      exact ⟨rfl, h3⟩

theorem mapPath_visit_bin (t : BinTree V) (a b : List Nat) (w : σ) (p : List Nat) :
    visitT ((mapPathStage stale f).visitor (idVisitor σ V)) (a, b) w (t.paths p) =
      ([(t.mapPathS (staleArg stale f) (w, b) p).2.emitted p],
        ((t.mapPathS (staleArg stale f) (w, b) p).1.2, (t.mapPathS (staleArg stale f) (w, b) p).1.2),
        (t.mapPathS (staleArg stale f) (w, b) p).1.1) := by
  induction t using BinTree.ind generalizing a b w p with
  | h x l r ihl ihr =>
    have slot : ∀ (o : Option (BinTree V)), (∀ c ∈ o, ∀ (a b : List Nat) (w : σ) (p : List Nat),
        visitT ((mapPathStage stale f).visitor (idVisitor σ V)) (a, b) w (c.paths p) =
          ([(c.mapPathS (staleArg stale f) (w, b) p).2.emitted p],
            ((c.mapPathS (staleArg stale f) (w, b) p).1.2, (c.mapPathS (staleArg stale f) (w, b) p).1.2),
            (c.mapPathS (staleArg stale f) (w, b) p).1.1)) → ∀ (b : List Nat) (w : σ) (p : List Nat),
        visitL ((mapPathStage stale f).visitor (idVisitor σ V)) (b, b) w (BinTree.pathsO p o) =
          (BinTree.emittedO p (BinTree.mapPathSO (staleArg stale f) (w, b) p o).2,
            ((BinTree.mapPathSO (staleArg stale f) (w, b) p o).1.2, (BinTree.mapPathSO (staleArg stale f) (w, b) p o).1.2),
            (BinTree.mapPathSO (staleArg stale f) (w, b) p o).1.1) := by
      intro o ho b w p
      cases o with
      | none => simp [BinTree.pathsO, visitL, BinTree.mapPathSO, BinTree.emittedO]
      | some c => simp [BinTree.pathsO, visitL, BinTree.mapPathSO, BinTree.emittedO, ho c rfl]
    have h := visitL_append ((mapPathStage stale f).visitor (idVisitor σ V)) (p, p) (f w (stale w b p) x).1
      (BinTree.pathsO (p ++ [0]) l) (BinTree.pathsO (p ++ [1]) r)
    rw [slot l ihl] at h
    simp only at h
    rw [slot r ihr] at h
    rw [BinTree.paths, visitT]
    simp only [Stage.visitor, idVisitor, mapPathStage, Bool.and_true] at h ⊢
    rw [h]
    simp [BinTree.mapPathS, staleArg, BinTree.emitted]

end

end TreeIter
