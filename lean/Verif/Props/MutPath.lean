import Verif.Lemmas.MutPath
import Verif.Props.MutPipe
import Verif.Props.PipelinePaths

/-! # C51: `map_path_mut` and `prune_path_mut`

`map_path_mut` hands its closure the same wrong slices as `map_path` does (C29), so the statements about it use
`staleArg` as in `C29_general_partial`; what it writes and returns is right nevertheless. -/

universe u v w x

namespace TreeIter

variable {V : Type u} {σ : Type v} {W : Type w}

/-! ## Mapping -/

/-- C51, `map_path_mut`: the closure is called on the values of the tree in preorder; the borrowed tree is left with what
it wrote, in place, and the returned tree holds what it returned. -/
theorem C51_map_path (stale : σ → List Nat → List Nat → List Nat) (t : Tree V) (ht : ArityOk t)
    (body : σ → List Nat → V → σ × V × W) (d : W) (w : σ) :
    Api.mapPath (fun mw => stale mw.2) (mapRefPath Tree.cell Tree.setCell d body) (MutRef.mk [] t) (t, w) =
      .ok ((t.mapPathS (staleArg stale body) (w, []) []).2.map Prod.snd,
        ((t.mapPathS (staleArg stale body) (w, []) []).2.map Prod.fst,
          (t.mapPathS (staleArg stale body) (w, []) []).1.1)) := by
  obtain ⟨h1, h2, h3, h4, h5⟩ := borrowed_tree t
  obtain ⟨g0, hg0⟩ := exists_fill t
  obtain ⟨g', e1, e2, _⟩ := mapEnc_tree
    (F := fun s a => staleArg (fun mw : Tree V × σ => stale mw.2) (mapRefPath Tree.cell Tree.setCell d body) s a a)
    (enc := fun g (ws : σ × List Nat) => ((t.fill g, ws.1), ws.2))
    (body := fun ws (c : List Nat × V) => staleArg stale body ws c.1 c.2) (ok := fun a => (t.cell a).isSome)
    (fun g ws a ha => by simp only [staleArg, mapRefPath, mapRef, h3 g a ha, h4 g _ a ha])
    (t.located.map Pos.path) g0 (w, []) h1 h2
  have hL : (t.located.map Pos.path).map (fun a => (a, g0 a)) = t.located.map fun q => (q.path, q.item) := by
    rw [Tree.map_map]
    refine map_congr_mem _ _ _ fun q hq => ?_
    have h := cell_fill t g0 q.path
    rw [hg0, cell_of_mem_located t q hq] at h
    simp only [Function.comp_apply, Prod.mk.injEq, true_and]
    simpa using h.symm
  have k1 := mapPathS_withPos (staleArg (fun mw : Tree V × σ => stale mw.2) (mapRefPath Tree.cell Tree.setCell d body))
    Pos.path t ((t, w), []) [] []
  have k2 := mapPathS_withPos (staleArg stale body) Pos.item t (w, []) [] []
  change (t.located.map Pos.path).mapPathS _ _ _ = t.located.mapS _ _ at k1
  change (t.located.map Pos.item).mapPathS _ _ _ = t.located.mapS _ _ at k2
  rw [map_item_located] at k2
  rw [hL, mapS_map, mapS_map, ← k2, hg0, ← k1] at e1
  rw [h5, hL, mapS_map, ← k2] at e2
  rw [C29_general_partial _ _ _ (arityOk_mutRef t ht []), treeOf_mutRef, e1, e2]

example := C51_map_path (fun _ _ p => p) sampleTree sampleTree_arity (fun w p v => (w + p.length, v + 10, v)) 0 0

/-- C51, `map_path_mut` on binary trees. -/
theorem C51_map_path_binary (stale : σ → List Nat → List Nat → List Nat) (t : BinTree V)
    (body : σ → List Nat → V → σ × V × W) (d : W) (w : σ) :
    Api.binMapPath (fun mw => stale mw.2) (mapRefPath BinTree.cell BinTree.setCell d body) (MutRef2.mk [] t) (t, w) =
      .ok ((t.mapPathS (staleArg stale body) (w, []) []).2.map Prod.snd,
        ((t.mapPathS (staleArg stale body) (w, []) []).2.map Prod.fst,
          (t.mapPathS (staleArg stale body) (w, []) []).1.1)) := by
  obtain ⟨h1, h2, h3, h4, h5⟩ := borrowed_bin t
  obtain ⟨g0, hg0⟩ := exists_fill2 t
  obtain ⟨g', e1, e2, _⟩ := mapEnc_bin
    (F := fun s a => staleArg (fun mw : BinTree V × σ => stale mw.2) (mapRefPath BinTree.cell BinTree.setCell d body) s a a)
    (enc := fun g (ws : σ × List Nat) => ((t.fill g, ws.1), ws.2))
    (body := fun ws (c : List Nat × V) => staleArg stale body ws c.1 c.2) (ok := fun a => (t.cell a).isSome)
    (fun g ws a ha => by simp only [staleArg, mapRefPath, mapRef, h3 g a ha, h4 g _ a ha])
    (t.located.map Pos.path) g0 (w, []) h1 h2
  have hL : (t.located.map Pos.path).map (fun a => (a, g0 a)) = t.located.map fun q => (q.path, q.item) := by
    rw [BinTree.map_map]
    refine map_congr_mem2 _ _ _ fun q hq => ?_
    have h := cell_fill2 t g0 q.path
    rw [hg0, cell_of_mem_located2 t q hq] at h
    simp only [Function.comp_apply, Prod.mk.injEq, true_and]
    simpa using h.symm
  have k1 := mapPathS_withPos2 (staleArg (fun mw : BinTree V × σ => stale mw.2) (mapRefPath BinTree.cell BinTree.setCell d body))
    Pos.path t ((t, w), []) [] []
  have k2 := mapPathS_withPos2 (staleArg stale body) Pos.item t (w, []) [] []
  change (t.located.map Pos.path).mapPathS _ _ _ = t.located.mapS _ _ at k1
  change (t.located.map Pos.item).mapPathS _ _ _ = t.located.mapS _ _ at k2
  rw [map_item_located2] at k2
  rw [hL, mapS_map2, mapS_map2, ← k2, hg0, ← k1] at e1
  rw [h5, hL, mapS_map2, ← k2] at e2
  rw [C29_binary_partial, binTreeOf_mutRef, e1, e2]

/-- The closure writes the number of the call, returns the length of the slice it is given and collects old values. -/
example : (Api.mapPath (fun mw => keptMemory mw.2)
      (mapRefPath Tree.cell Tree.setCell 99 fun log p v => (log ++ [v], log.length, p.length))
      (MutRef.mk [] sampleTree) (sampleTree, [])).toOption =
    some (.node 0 [.node 0 [.node 1 [], .node 2 []], .node 2 [.node 1 []]],
      .node 0 [.node 1 [.node 2 [], .node 3 []], .node 4 [.node 5 []]], [0, 1, 3, 4, 2, 5]) := by decide +kernel

example : (Api.binMapPath (fun mw => keptMemory mw.2)
      (mapRefPath BinTree.cell BinTree.setCell 99 fun log p v => (log ++ [v], log.length, p.length))
      (MutRef2.mk [] sampleBin) (sampleBin, [])).toOption =
    some (.node 0 (some (.node 0 none (some (.node 1 none none)))) (some (.node 2 (some (.node 1 none none)) none)),
      .node 0 (some (.node 1 none (some (.node 2 none none)))) (some (.node 3 (some (.node 4 none none)) none)),
      [0, 1, 3, 2, 4]) := by
  decide +kernel

/-! ## Pruning -/

/-- C51, `prune_path_mut`: the predicate sees the path and the value of each node it is asked about, the result is made of
references to exactly the nodes that are kept, and editing through them changes nothing else. -/
theorem C51_prune_path (t : Tree V) (ht : ArityOk t) (f : σ → List Nat → V → σ × Bool) (d : Bool) (w : σ) :
    ∃ R, Api.prunePath (pruneRefPath Tree.cell t d f) (MutRef.mk [] t) w = .ok (R, (t.prunePathS f w []).1) ∧
      (R = none ↔ (t.prunePathS f w []).2 = none) ∧
      ∀ r ∈ R, ∀ s ∈ (t.prunePathS f w []).2, RefersTo.{u, x} t s r := by
  have h1 := prunePathS_withPos (pruneRefPath Tree.cell t d f) Pos.path t w [] []
  have h2 := prunePathS_withPos f Pos.item t w [] []
  change (t.located.map Pos.path).prunePathS _ _ _ = ((t.located.pruneS _ _).1, (t.located.pruneS _ _).2.map _) at h1
  change (t.located.map Pos.item).prunePathS _ _ _ = ((t.located.pruneS _ _).1, (t.located.pruneS _ _).2.map _) at h2
  have h3 := pruneS_map (fun w (q : Pos V) => pruneRefPath Tree.cell t d f w q.path q.path)
    (fun w (q : Pos V) => f w q.path q.item) id t.located w
    fun q hq w => by simp only [pruneRefPath, pruneRef, id, cell_of_mem_located t q hq]
  rw [show t.located.map id = t.located from Tree.map_id _] at h3
  rw [map_item_located] at h2
  rw [h3] at h1
  refine ⟨_, by rw [C31_general _ _ (arityOk_mutRef t ht []), treeOf_mutRef, h1, h2], ?_, ?_⟩
  · rw [h2]
    cases (t.located.pruneS (fun w (p : Pos V) => f w p.path p.item) w).2 <;> simp
  · intro r hr s hs
    rw [h2] at hs
    cases hq : (t.located.pruneS (fun w (p : Pos V) => f w p.path p.item) w).2 with
    | none => simp [hq] at hs
    | some q =>
      rw [hq] at hr hs
      obtain rfl : _ = r := by simpa [Tree.map_id] using hr
      obtain rfl : _ = s := by simpa using hs
      exact refersTo_of_sublist t q (pruneS_sublist _ _ w q hq)

example := C51_prune_path sampleTree sampleTree_arity (fun w p v => (w + v, p == [0])) false 0

/-- C51, `prune_path_mut` on binary trees. -/
theorem C51_prune_path_binary (t : BinTree V) (f : σ → List Nat → V → σ × Bool) (d : Bool) (w : σ) :
    ∃ R, Api.binPrunePath (pruneRefPath BinTree.cell t d f) (MutRef2.mk [] t) w = .ok (R, (t.prunePathS f w []).1) ∧
      (R = none ↔ (t.prunePathS f w []).2 = none) ∧
      ∀ r ∈ R, ∀ s ∈ (t.prunePathS f w []).2, RefersTo2.{u, x} t s r := by
  have h1 := prunePathS_withPos2 (pruneRefPath BinTree.cell t d f) Pos.path t w [] []
  have h2 := prunePathS_withPos2 f Pos.item t w [] []
  change (t.located.map Pos.path).prunePathS _ _ _ = ((t.located.pruneS _ _).1, (t.located.pruneS _ _).2.map _) at h1
  change (t.located.map Pos.item).prunePathS _ _ _ = ((t.located.pruneS _ _).1, (t.located.pruneS _ _).2.map _) at h2
  have h3 := pruneS_map2 (fun w (q : Pos V) => pruneRefPath BinTree.cell t d f w q.path q.path)
    (fun w (q : Pos V) => f w q.path q.item) id t.located w
    fun q hq w => by simp only [pruneRefPath, pruneRef, id, cell_of_mem_located2 t q hq]
  rw [show t.located.map id = t.located from BinTree.map_id _] at h3
  rw [map_item_located2] at h2
  rw [h3] at h1
  refine ⟨_, by rw [C31_binary, binTreeOf_mutRef, h1, h2], ?_, ?_⟩
  · rw [h2]
    cases (t.located.pruneS (fun w (p : Pos V) => f w p.path p.item) w).2 <;> simp
  · intro r hr s hs
    rw [h2] at hs
    cases hq : (t.located.pruneS (fun w (p : Pos V) => f w p.path p.item) w).2 with
    | none => simp [hq] at hs
    | some q =>
      rw [hq] at hr hs
      obtain rfl : _ = r := by simpa [BinTree.map_id] using hr
      obtain rfl : _ = s := by simpa using hs
      exact refersTo2_of_sublist t q (pruneS_sublist2 _ _ w q hq)

/-- Pruning away the node at `[0]` and adding `10` to what is left. -/
example : ∃ r, (Api.prunePath (pruneRefPath Tree.cell sampleTree true fun log p v => (log ++ [(p, v)], p == [0]))
      (MutRef.mk [] sampleTree) []).toOption = some (some r, [([], 0), ([0], 1), ([1], 2), ([1, 0], 5)]) ∧
    forEachMut Preorder.next Tree.cell Tree.setCell (fun k v => (k + 1, v + 10)) 9 (Preorder.new r) sampleTree 0 =
      (.node 10 [.node 1 [.node 3 [], .node 4 []], .node 12 [.node 15 []]], 3) :=
  ⟨.node [] [.node [1] [.node [1, 0] []]], by decide +kernel, by decide +kernel⟩

example : ∃ r, (Api.binPrunePath (pruneRefPath BinTree.cell sampleBin true fun log p v => (log ++ [v], p == [0]))
      (MutRef2.mk [] sampleBin) []).toOption = some (some r, [0, 1, 2, 4]) ∧
    forEachMut Inorder.next BinTree.cell BinTree.setCell (fun k _ => (k + 1, k)) 9 (Inorder.new r) sampleBin 10 =
      (.node 10 (some (.node 1 none (some (.node 3 none none)))) (some (.node 12 (some (.node 11 none none)) none)),
        13) :=
  ⟨.node [] none (some (.node [1] (some (.node [1, 0] none none)) none)), by decide +kernel, by decide +kernel⟩

end TreeIter
