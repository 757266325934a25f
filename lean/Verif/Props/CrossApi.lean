import Verif.Spec.Cells
import Verif.Props.Pipeline
import Verif.Props.DepthFirst
import Verif.Props.BreadthFirst
import Verif.Props.Leaves

/-! # C45: the pipeline ends and the iterators agree on the order of the nodes

The statements compare two public operations with each other: the iterators (`Model/Preorder`, …) and the pipelines
(`Model/Pipeline`), which are separate code in the crate. -/

universe u v w x

namespace TreeIter

variable {N : Type u} {V : Type v} {W : Type w} {σ : Type x}

/-! ## Helpers -/

theorem Tree.mapS_preorder (f : σ → V → σ × V) (t : Tree V) (w : σ) :
    (t.mapS f w).1 = (mapAccum f w t.preorder).2 ∧
      (t.mapS f w).2.preorder = (mapAccum f w t.preorder).1 := by
  have happ : ∀ (l r : List V) (w : σ), mapAccum f w (l ++ r) =
      ((mapAccum f w l).1 ++ (mapAccum f (mapAccum f w l).2 r).1, (mapAccum f (mapAccum f w l).2 r).2) := by
    intro l
    induction l with
    | nil => intro r w; rfl
    | cons a l ih => intro r w; simp [mapAccum, ih]
  induction t using Tree.ind generalizing w with
  | h a cs ih =>
    suffices h : ∀ w, (Tree.mapSL f w cs).1 = (mapAccum f w (cs.flatMap Tree.preorder)).2 ∧
        (Tree.mapSL f w cs).2.flatMap Tree.preorder = (mapAccum f w (cs.flatMap Tree.preorder)).1 by
      rw [Tree.mapS, Tree.preorder_node, Tree.preorder_node]
      obtain ⟨h1, h2⟩ := h (f w a).1
      exact ⟨by simp only [mapAccum]; exact h1, by simp only [mapAccum, h2]⟩
    induction cs with
    | nil => intro w; exact ⟨rfl, rfl⟩
    | cons c cs ihc =>
      intro w
      obtain ⟨h1, h2⟩ := ih c (by simp) w
      obtain ⟨h3, h4⟩ := ihc (fun d hd => ih d (by simp [hd])) (c.mapS f w).1
      rw [Tree.mapSL, List.flatMap_cons, List.flatMap_cons, happ, ← h1, ← h2, ← h3, ← h4]
      exact ⟨rfl, rfl⟩

theorem Tree.foldSL_unit (g : List W → V → W) (cs : List (Tree V)) :
    (Tree.foldSL (fun (_ : Unit) rs v => ((), g rs v)) () cs).2 =
      cs.map fun c => (c.foldS (fun (_ : Unit) rs v => ((), g rs v)) ()).2 := by
  induction cs with
  | nil => rfl
  | cons c cs ih => rw [Tree.foldSL, List.map_cons, ← ih]

/-- A fold whose closure gathers the listings of the children. -/
theorem Tree.fold_preorder (t : Tree V) :
    (t.foldS (fun (_ : Unit) (rs : List (List V)) v => ((), v :: rs.flatten)) ()).2 = t.preorder := by
  induction t using Tree.ind with
  | h a cs ih => rw [Tree.foldS, Tree.preorder_node, Tree.foldSL_unit, List.map_congr_left ih, List.flatMap_def]

theorem Tree.fold_postorder (t : Tree V) :
    (t.foldS (fun (_ : Unit) (rs : List (List V)) v => ((), rs.flatten ++ [v])) ()).2 = t.postorder := by
  induction t using Tree.ind with
  | h a cs ih => rw [Tree.foldS, Tree.postorder_node, Tree.foldSL_unit, List.map_congr_left ih, List.flatMap_def]

theorem Tree.fold_leaves (t : Tree V) :
    (t.foldS (fun (_ : Unit) (rs : List (List V)) v => ((), if rs.isEmpty then [v] else rs.flatten)) ()).2 =
      t.leaves := by
  induction t using Tree.ind with
  | h a cs ih =>
    rw [Tree.foldS, Tree.leaves_node, Tree.foldSL_unit, List.map_congr_left ih, List.flatMap_def]
    cases cs <;> simp

theorem Tree.fold_log (t : Tree V) (log : List V) :
    (t.foldS (fun (log : List V) (_ : List Unit) v => (log ++ [v], ())) log).1 = log ++ t.postorder := by
  induction t using Tree.ind generalizing log with
  | h a cs ih =>
    have h : ∀ (ds : List (Tree V)) (log : List V), (∀ d ∈ ds, d ∈ cs) →
        (Tree.foldSL (fun (log : List V) (_ : List Unit) v => (log ++ [v], ())) log ds).1 =
          log ++ ds.flatMap Tree.postorder := by
      intro ds
      induction ds with
      | nil => intro log _; simp [Tree.foldSL]
      | cons d ds ihd =>
        intro log hds
        rw [Tree.foldSL, ihd _ fun e he => hds e (by simp [he]), ih d (hds d (by simp)), List.flatMap_cons,
          List.append_assoc]
    rw [Tree.foldS, Tree.postorder_node, ← List.append_assoc, h cs log fun _ h => h]

theorem BinTree.fold_inorder (t : BinTree V) :
    (t.foldS (fun (_ : Unit) (rs : Option (List V) × Option (List V)) v =>
      ((), rs.1.getD [] ++ v :: rs.2.getD [])) ()).2 = t.inorder := by
  induction t using BinTree.ind with
  | h a l r ihl ihr =>
    rw [BinTree.foldS, BinTree.inorder]
    simp only
    congr 1
    · cases l with
      | none => rfl
      | some l => simpa [BinTree.foldSO, BinTree.inorderO] using ihl l rfl
    · congr 1
      cases r with
      | none => rfl
      | some r => simpa [BinTree.foldSO, BinTree.inorderO] using ihr r rfl

/-! ## The claim -/

/-- C45, `fold` against `dfs_preorder`: gathering node-before-children gives the list the iterator yields. -/
theorem C45_fold_preorder [TreeNode N V] (n : N) :
    ∃ l, Api.fold (fun (_ : Unit) (rs : List (List V)) v => ((), v :: rs.flatten)) n () = .ok (l, (), ()) ∧
      ∀ k, nthCall Preorder.next k (Preorder.new n) = l[k]? := by
  refine ⟨(treeOf n).preorder, ?_, fun k => C01_preorder n k⟩
  rw [C34_general, Tree.fold_preorder]

/-- C45, `fold` against `dfs_postorder`. -/
theorem C45_fold_postorder [TreeNode N V] (n : N) :
    ∃ l, Api.fold (fun (_ : Unit) (rs : List (List V)) v => ((), rs.flatten ++ [v])) n () = .ok (l, (), ()) ∧
      ∀ k, nthCall Postorder.next k (Postorder.new n) = l[k]? := by
  refine ⟨(treeOf n).postorder, ?_, fun k => C02_postorder n k⟩
  rw [C34_general, Tree.fold_postorder]

/-- C45, `fold` against `.leaves()`. -/
theorem C45_fold_leaves [TreeNode N V] (n : N) :
    ∃ l, Api.fold (fun (_ : Unit) (rs : List (List V)) v => ((), if rs.isEmpty then [v] else rs.flatten)) n () =
        .ok (l, (), ()) ∧
      (∀ k, nthCall Leaves.next k (Leaves.ofPreorder (Preorder.new n)) = l[k]?) ∧
      ∀ k, nthCall Leaves.next k (Leaves.ofPostorder (Postorder.new n)) = l[k]? := by
  refine ⟨(treeOf n).leaves, ?_, fun k => C17_preorder_leaves n k, fun k => C17_postorder_leaves n k⟩
  rw [C34_general, Tree.fold_leaves]

/-- C45, binary `fold` against `dfs_inorder`. -/
theorem C45_fold_inorder [BinNode N V] (n : N) :
    ∃ l, Api.binFold (fun (_ : Unit) (rs : Option (List V) × Option (List V)) v =>
        ((), rs.1.getD [] ++ v :: rs.2.getD [])) n () = .ok (l, (), ()) ∧
      ∀ k, nthCall Inorder.next k (Inorder.new n) = l[k]? := by
  refine ⟨(binTreeOf n).inorder, ?_, fun k => C03_inorder n k⟩
  rw [C34_binary, BinTree.fold_inorder]

/-- C45, order of the calls: a `fold` calls its closure on the nodes in the order of `dfs_postorder`. -/
theorem C45_fold_calls [TreeNode N V] (n : N) :
    ∃ log, Api.fold (fun (log : List V) (_ : List Unit) v => (log ++ [v], ())) n [] = .ok ((), log, ()) ∧
      ∀ k, nthCall Postorder.next k (Postorder.new n) = log[k]? := by
  refine ⟨(treeOf n).postorder, ?_, fun k => C02_postorder n k⟩
  rw [C34_general, Tree.fold_log]
  rfl

/-- C45, `map` against `dfs_preorder`: a `map` with a stateful closure, collected and then iterated over, yields what
running the closure over the values of `dfs_preorder` yields, and leaves the closure in the same state. -/
theorem C45_map_preorder [TreeNode N V] (f : σ → V → σ × V) (n : N) (w : σ) :
    ∃ (l : List V) (t : Tree V), (∀ k, nthCall Preorder.next k (Preorder.new n) = l[k]?) ∧
      Api.map f n w = .ok (t, (mapAccum f w l).2) ∧
      ∀ k, nthCall Preorder.next k (Preorder.new t) = (mapAccum f w l).1[k]? := by
  obtain ⟨h1, h2⟩ := Tree.mapS_preorder f (treeOf n) w
  refine ⟨(treeOf n).preorder, ((treeOf n).mapS f w).2, fun k => C01_preorder n k, ?_, fun k => ?_⟩
  · rw [C28_general, h1]
  · rw [C01_preorder, treeOf_tree, h2]

/-- C45, collecting changes nothing for any iterator. -/
theorem C45_collect [TreeNode N V] (n : N) :
    ∃ t, Api.collect n = .ok (some t, ()) ∧
      (∀ k, nthCall Preorder.next k (Preorder.new n) = nthCall Preorder.next k (Preorder.new t)) ∧
      (∀ k, nthCall Postorder.next k (Postorder.new n) = nthCall Postorder.next k (Postorder.new t)) ∧
      ∀ k, nthCall Bfs.next k (Bfs.new n) = nthCall Bfs.next k (Bfs.new t) := by
  refine ⟨treeOf n, C27_general n, fun k => ?_, fun k => ?_, fun k => ?_⟩
  · rw [C01_preorder, C01_preorder, treeOf_tree]
  · rw [C02_postorder, C02_postorder, treeOf_tree]
  · rw [C04_bfs, C04_bfs, treeOf_tree]

example : (Api.fold (fun (_ : Unit) (rs : List (List Nat)) v => ((), v :: rs.flatten)) sampleTree ()).toOption =
    some ([0, 1, 3, 4, 2, 5], (), ()) ∧
    answers Preorder.next 7 (Preorder.new sampleTree) = [some 0, some 1, some 3, some 4, some 2, some 5, none] ∧
    (Api.binFold (fun (_ : Unit) (rs : Option (List Nat) × Option (List Nat)) v =>
        ((), rs.1.getD [] ++ v :: rs.2.getD [])) sampleBin ()).toOption = some ([1, 3, 0, 4, 2], (), ()) := by
  decide +kernel

end TreeIter
