import Verif.Lemmas.Drive
import Verif.Props.Samples

/-! # C46: a client that prunes by hand -/

universe u v w x

namespace TreeIter

variable {N : Type u} {V : Type v} {σ : Type w} {τ : Type x}

/-- C46: whatever the client decides, `k` calls of `next` give the first `k` nodes of the preorder walk that leaves out
what is below the nodes the client chose, each with its path in the tree; a chosen node itself has already been
handed out; after the last node there is nothing more. -/
theorem C46_drive [TreeNode N V] (f : τ → List Nat → V → τ × Bool) (n : N) (hn : ArityOk n) (w : σ) (c : τ) (k : Nat) :
    (Track.pipe σ).drive f k (Api.start n) w c =
      .ok (((treeOf n).walkS f c []).2.take k, clientAfter f c (((treeOf n).walkS f c []).2.take k)) := by
  rw [(Track.enum (N := N) σ).drive f k w c (rel_start n), wpaths_treeOf hn]
  obtain ⟨a', h1, h2⟩ := visit_client_id f (treeOf n) [] [] w c
  simp only [visitL, List.append_nil, h2]

example := C46_drive (fun c p v => (c + v, p == [0])) sampleTree sampleTree_arity () 0 4

/-- C46, the client's state once the walk is over. -/
theorem C46_client (f : τ → List Nat → V → τ × Bool) (t : Tree V) (c : τ) (p : List Nat) :
    clientAfter f c (t.walkS f c p).2 = (t.walkS f c p).1 := by
  induction t using Tree.ind generalizing c p with
  | h a cs ih =>
    rw [Tree.walkS]
    by_cases hf : (f c p a).2
    · simp [hf, clientAfter]
    · simp only [hf, Bool.false_eq_true, if_false, clientAfter, List.foldl_cons]
      have key : ∀ ds : List (Tree V), (∀ d ∈ ds, d ∈ cs) → ∀ i c,
          clientAfter f c (Tree.walkSL f c p i ds).2 = (Tree.walkSL f c p i ds).1 := by
        intro ds
        induction ds with
        | nil => intro _ i c; rfl
        | cons d ds ihd =>
          intro hds i c
          rw [Tree.walkSL, clientAfter, List.foldl_append]
          have h := ih d (hds d (by simp)) c (p ++ [i])
          rw [clientAfter] at h
          rw [h]
          exact ihd (fun e he => hds e (by simp [he])) _ _
      exact key cs (fun _ h => h) 0 _

/-- C46 for binary trees. -/
theorem C46_drive_binary [BinNode N V] (f : τ → List Nat → V → τ × Bool) (n : N) (w : σ) (c : τ) (k : Nat) :
    (Track.binPipe σ).drive f k (Api.binStart n) w c =
      .ok (((binTreeOf n).walkS f c []).2.take k, clientAfter f c (((binTreeOf n).walkS f c []).2.take k)) := by
  rw [(Track.binEnum (N := N) σ).drive f k w c (binRel_start n)]
  obtain ⟨a', h1, h2⟩ := visit_client_bin f (binTreeOf n) [] [] w c
  simp only [visitL, List.append_nil, h2]

/-- C46: a client that never prunes meets all nodes, in preorder with their paths. -/
theorem C46_never [TreeNode N V] (n : N) (hn : ArityOk n) (w : σ) (k : Nat) :
    (Track.pipe σ).drive (fun (_ : Unit) _ _ => ((), false)) k (Api.start n) w () =
      .ok (((treeOf n).located.preorder.map fun p => (p.item, p.path)).take k, ()) := by
  rw [C46_drive _ n hn]
  congr 3
  have key : ∀ (t : Tree V) (p : List Nat) (anc : List V), (t.walkS (fun (_ : Unit) _ _ => ((), false)) () p).2 =
      (t.withPos p anc).preorder.map fun p => (p.item, p.path) := by
    intro t
    induction t using Tree.ind with
    | h a cs ih =>
      intro p anc
      rw [Tree.walkS, Tree.withPos, Tree.preorder_node]
      simp only [Bool.false_eq_true, if_false, List.map_cons, List.cons.injEq, true_and]
      have h : ∀ ds : List (Tree V), (∀ d ∈ ds, d ∈ cs) → ∀ i,
          (Tree.walkSL (fun (_ : Unit) _ _ => ((), false)) () p i ds).2 =
            ((Tree.withPosL p (anc ++ [a]) i ds).flatMap Tree.preorder).map fun p => (p.item, p.path) := by
        intro ds
        induction ds with
        | nil => intro _ i; rfl
        | cons d ds ihd =>
          intro hds i
          rw [Tree.walkSL, Tree.withPosL, List.flatMap_cons, List.map_append,
            ih d (hds d (by simp)) _ (anc ++ [a]), ← ihd fun e he => hds e (by simp [he])]
      exact h cs (fun _ h => h) 0
  exact key (treeOf n) [] []

example : ((Track.pipe Unit).drive (fun (log : List (List Nat)) p v => (log ++ [p], v == 1)) 9
    (Api.start sampleTree) () []).toOption =
      some ([(0, []), (1, [0]), (2, [1]), (5, [1, 0])], [[], [0], [1], [1, 0]]) := by decide +kernel

example : ((Track.binPipe Unit).drive (fun (log : List (List Nat)) p v => (log ++ [p], v == 1)) 9
    (Api.binStart sampleBin) () []).toOption =
      some ([(0, []), (1, [0]), (2, [1]), (4, [1, 0])], [[], [0], [1], [1, 0]]) := by decide +kernel

end TreeIter
