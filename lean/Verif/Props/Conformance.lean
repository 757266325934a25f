import Verif.Props.Samples
import Verif.Model.Bfs
import Verif.Model.BfsCtx
import Verif.Model.AtPath
import Verif.Model.Inorder
import Verif.Model.Leaves
import Verif.Model.CollectionApi

/-! # The crate's own tests, run on the model

These are tests, not proofs: they check that the model answers as `/repo/tests/src` expects the crate to answer.  They
guard the reading of the source, on which all theorems depend.  Each is named after the file and the test. -/

namespace TreeIter
namespace Conformance

/-- `tests/src/lib.rs`: `create_tree_for_testing`. -/
def tree : Tree Nat :=
  .node 0 [.node 1 [.node 3 [], .node 4 []],
    .node 2 [.node 5 [], .node 6 [.node 7 [.node 8 [.node 9 [.node 10 []]]]]]]

/-- `tests/src/lib.rs`: `create_binary_tree_for_testing`. -/
def bin : BinTree Nat :=
  .node 0 (some (.node 1 (some (.node 3 none none)) (some (.node 4 none none))))
    (some (.node 2 (some (.node 5 none none))
      (some (.node 6 (some (.node 7 none (some (.node 8 (some (.node 9 none (some (.node 10 none none)))) none)))) none))))

/-- `tests/src/lib.rs`: `get_value_to_path_map`, with the value. -/
def pathOf : Nat → List Nat
  | 0 => []
  | 1 => [0]
  | 2 => [1]
  | 3 => [0, 0]
  | 4 => [0, 1]
  | 5 => [1, 0]
  | 6 => [1, 1]
  | 7 => [1, 1, 0]
  | 8 => [1, 1, 0, 0]
  | 9 => [1, 1, 0, 0, 0]
  | _ => [1, 1, 0, 0, 0, 0]

/-- `tests/src/lib.rs`: `get_value_to_path_map_binary`. -/
def binPathOf : Nat → List Nat
  | 8 => [1, 1, 0, 1]
  | 9 => [1, 1, 0, 1, 0]
  | 10 => [1, 1, 0, 1, 0, 1]
  | v => pathOf v

/-- `tests/src/lib.rs`: `get_expected_metadata_for_value`. -/
def ancestorsOf : Nat → List Nat
  | 0 => [0]
  | 1 => [0, 1]
  | 2 => [0, 2]
  | 3 => [0, 1, 3]
  | 4 => [0, 1, 4]
  | 5 => [0, 2, 5]
  | 6 => [0, 2, 6]
  | 7 => [0, 2, 6, 7]
  | 8 => [0, 2, 6, 7, 8]
  | 9 => [0, 2, 6, 7, 8, 9]
  | _ => [0, 2, 6, 7, 8, 9, 10]

/-- The orders expected by the tests. -/
def bfsOrder : List Nat := [0, 1, 2, 3, 4, 5, 6, 7, 8, 9, 10]
def preOrder : List Nat := [0, 1, 3, 4, 2, 5, 6, 7, 8, 9, 10]
def postOrder : List Nat := [3, 4, 1, 5, 10, 9, 8, 7, 6, 2, 0]
def inOrder : List Nat := [3, 1, 4, 0, 5, 2, 7, 9, 10, 8, 6]
def leafOrder : List Nat := [3, 4, 5, 10]

/-- All answers up to the first `None`, of twelve calls. -/
def run {S O : Type} (next : S → Option O × S) (s : S) : List O := ((answers next 12 s).takeWhile Option.isSome).filterMap id

/-- All answers up to the first `None`, of twelve calls; `none` if a call panics. -/
def runE {S O : Type} (next : S → Except Panic (Option O × S)) (s : S) : Option (List O) :=
  (answersE next 12 s).map fun l => (l.takeWhile Option.isSome).filterMap id

/-- Path and ancestors of a context. -/
def pa {V C : Type} (c : Ctx V C) : List Nat × List V := (c.path, c.ancestors)

/-- The paths and ancestors the tests expect. -/
def expected (order : List Nat) (path : Nat → List Nat) : Option (List (List Nat × List Nat)) :=
  some (order.map fun v => (path v, ancestorsOf v))

/-! ## Plain order: `bfs.rs`, `dfs_preorder.rs`, `dfs_postorder.rs`, `dfs_inorder.rs` -/

example : run Bfs.next (Bfs.new tree) = bfsOrder := by decide +kernel
example : run Bfs.next (Bfs.new bin) = bfsOrder := by decide +kernel
example : run Preorder.next (Preorder.new tree) = preOrder := by decide +kernel
example : run Preorder.next (Preorder.new bin) = preOrder := by decide +kernel
example : run Postorder.next (Postorder.new tree) = postOrder := by decide +kernel
example : run Postorder.next (Postorder.new bin) = postOrder := by decide +kernel
example : run Inorder.next (Inorder.new bin) = inOrder := by decide +kernel

/-! ## `attach_ancestors` -/

-- the breadth-first one panics in the call after the first `None`: eleven values and one `None`
example : runE Bfs.ancNext (Bfs.AncState.new tree) = some (bfsOrder.map ancestorsOf) := by decide +kernel
example : runE Bfs.ancNext (Bfs.AncState.new bin) = some (bfsOrder.map ancestorsOf) := by decide +kernel
example : run Preorder.ancNext (Preorder.AncState.new tree) = preOrder.map ancestorsOf := by decide +kernel
example : run Preorder.ancNext (Preorder.AncState.new bin) = preOrder.map ancestorsOf := by decide +kernel
example : run Postorder.ancNext (Postorder.AncState.new tree) = postOrder.map ancestorsOf := by decide +kernel
example : run Postorder.ancNext (Postorder.AncState.new bin) = postOrder.map ancestorsOf := by decide +kernel
example : runE Inorder.ancNext (Inorder.AncState.new bin) = some (inOrder.map ancestorsOf) := by decide +kernel

/-! ## `attach_context` -/

example : (runE Bfs.ctxNext (Bfs.CtxState.new tree [])).map (·.map pa) = expected bfsOrder pathOf := by decide +kernel
example : (runE Bfs.binCtxNext (Bfs.CtxState.binNew bin [])).map (·.map pa) = expected bfsOrder binPathOf := by decide +kernel
example : (runE Preorder.ctxNext (Preorder.CtxState.new tree [])).map (·.map pa) = expected preOrder pathOf := by
  decide +kernel
example : (runE Preorder.binCtxNext (Preorder.BinCtxState.new bin [])).map (·.map pa) = expected preOrder binPathOf := by
  decide +kernel
example : (runE Postorder.ctxNext (Postorder.CtxState.new tree [])).map (·.map pa) = expected postOrder pathOf := by
  decide +kernel
example : (runE Postorder.ownCtxNext (Postorder.OwnCtxState.new tree [])).map (·.map pa) = expected postOrder pathOf := by
  decide +kernel
example : (runE Postorder.binCtxNext (Postorder.BinCtxState.new bin [])).map (·.map pa) = expected postOrder binPathOf := by
  decide +kernel
example : (runE Postorder.mutBinCtxNext (Postorder.BinCtxState.new bin [])).map (·.map pa) =
    expected postOrder binPathOf := by decide +kernel
example : (runE Postorder.ownBinCtxNext (Postorder.OwnBinCtxState.new bin [])).map (·.map pa) =
    expected postOrder binPathOf := by decide +kernel
example : (runE Inorder.ctxNext (Inorder.CtxState.new bin [])).map (·.map pa) = expected inOrder binPathOf := by
  decide +kernel
example : (runE Inorder.ownNext (Inorder.OwnCtxState.new bin [])).map (·.map pa) = expected inOrder binPathOf := by
  decide +kernel

/-! ## `leaves.rs`, `ancestors_leaves.rs` -/

example : run Leaves.next (Leaves.ofPreorder (V := Nat) (Preorder.new tree)) = leafOrder := by decide +kernel
example : run Leaves.next (Leaves.ofPostorder (V := Nat) (Postorder.new tree)) = leafOrder := by decide +kernel
example : run Bfs.leavesNext (Bfs.leaves (Bfs.new tree)) = leafOrder := by decide +kernel
example : run Leaves.next (Leaves.ofPreorder (V := Nat) (Preorder.new bin)) = leafOrder := by decide +kernel
example : run Leaves.next (Leaves.ofPostorder (V := Nat) (Postorder.new bin)) = leafOrder := by decide +kernel
example : (Leaves.ofInorder (V := Nat) (Inorder.new bin)).toOption.map (run Leaves.next) = some leafOrder := by decide +kernel
example : run Bfs.leavesNext (Bfs.leaves (Bfs.new bin)) = leafOrder := by decide +kernel

example : run Leaves.ancNext (Leaves.ofPreorderAnc (Preorder.AncState.new tree)) = leafOrder.map ancestorsOf := by
  decide +kernel
example : run Leaves.ancNext (Leaves.ofPostorderAnc (Postorder.AncState.new tree)) = leafOrder.map ancestorsOf := by
  decide +kernel
example : runE Bfs.lvNext (Bfs.AncState.new tree) = some (leafOrder.map ancestorsOf) := by decide +kernel
example : run Leaves.ancNext (Leaves.ofPreorderAnc (Preorder.AncState.new bin)) = leafOrder.map ancestorsOf := by
  decide +kernel
example : run Leaves.ancNext (Leaves.ofPostorderAnc (Postorder.AncState.new bin)) = leafOrder.map ancestorsOf := by
  decide +kernel
example : run Leaves.ancNext (Leaves.ofInorderAnc (Inorder.AncState.new bin)) = leafOrder.map ancestorsOf := by
  decide +kernel
example : runE Bfs.lvNext (Bfs.AncState.new bin) = some (leafOrder.map ancestorsOf) := by decide +kernel

-- root only
example : run Leaves.next (Leaves.ofPreorder (V := Nat) (Preorder.new (Tree.node 0 []))) = [0] := by decide +kernel
example : run Leaves.next (Leaves.ofPostorder (V := Nat) (Postorder.new (Tree.node 0 []))) = [0] := by decide +kernel
example : run Bfs.leavesNext (Bfs.leaves (Bfs.new (Tree.node 0 []))) = [0] := by decide +kernel
example : (Leaves.ofInorder (V := Nat) (Inorder.new (BinTree.node 0 none none))).toOption.map (run Leaves.next) = some [0] := by
  decide +kernel
example : run Leaves.ancNext (Leaves.ofPreorderAnc (Preorder.AncState.new (Tree.node 0 []))) = [[0]] := by decide +kernel
example : run Leaves.ancNext (Leaves.ofPostorderAnc (Postorder.AncState.new (Tree.node 0 []))) = [[0]] := by decide +kernel
example : runE Bfs.lvNext (Bfs.AncState.new (Tree.node 0 [])) = some [[0]] := by decide +kernel

-- "mid traversal": the tests run the first iterator to its end, where no leaves are left
example : run Leaves.next (Leaves.ofPreorder (V := Nat) (stateAfter Preorder.next 12 (Preorder.new tree))) = [] := by
  decide +kernel
example : run Leaves.next (Leaves.ofPostorder (stateAfter Postorder.next 12 (Postorder.new tree))) = [] := by decide +kernel
example : run Bfs.leavesNext (Bfs.leaves (stateAfter Bfs.next 12 (Bfs.new tree))) = [] := by decide +kernel
example : (Leaves.ofInorder (stateAfter Inorder.next 12 (Inorder.new bin))).toOption.map (run Leaves.next) = some [] := by
  decide +kernel
example : run Leaves.ancNext (Leaves.ofPreorderAnc (stateAfter Preorder.ancNext 12 (Preorder.AncState.new tree))) = [] := by
  decide +kernel
example : run Leaves.ancNext (Leaves.ofPostorderAnc (stateAfter Postorder.ancNext 12 (Postorder.AncState.new tree))) = [] := by
  decide +kernel
example : ((stateAfterE Bfs.ancNext 12 (Bfs.AncState.new tree)).toOption.bind (runE Bfs.lvNext)) = some [] := by
  decide +kernel
example : ((stateAfterE Inorder.ancNext 12 (Inorder.AncState.new bin)).toOption.map fun s =>
    run Leaves.ancNext (Leaves.ofInorderAnc s)) = some [] := by decide +kernel

/-! ## `get_at_path.rs` -/

example : ([([], some 0), ([0], some 1), ([1], some 2), ([2], none), ([0, 0], some 3), ([0, 1], some 4), ([0, 2], none),
    ([1, 0], some 5), ([1, 1], some 6), ([1, 2], none), ([1, 1, 0], some 7), ([1, 1, 1], none), ([1, 1, 1, 0], none),
    ([1, 1, 0, 0], some 8), ([1, 1, 0, 1], none), ([1, 1, 0, 0, 0], some 9), ([1, 1, 0, 0, 1], none),
    ([1, 1, 0, 0, 0, 0], some 10), ([1, 1, 0, 0, 0, 1], none), ([1, 1, 0, 0, 0, 0, 0], none)] :
      List (List Nat × Option Nat)).all fun pv => (AtPath.atPath tree pv.1).map val == pv.2 := by decide +kernel

example : ([([], some 0), ([0], some 1), ([1], some 2), ([2], none), ([0, 0], some 3), ([0, 1], some 4), ([0, 2], none),
    ([1, 0], some 5), ([1, 1], some 6), ([1, 2], none), ([1, 1, 0], some 7), ([1, 1, 1], none), ([1, 1, 1, 0], none),
    ([1, 1, 0, 1], some 8), ([1, 1, 0, 0], none), ([1, 1, 0, 1, 0], some 9), ([1, 1, 0, 1, 1], none),
    ([1, 1, 0, 1, 0, 1], some 10), ([1, 1, 0, 1, 0, 0], none), ([1, 1, 0, 1, 0, 1, 0], none)] :
      List (List Nat × Option Nat)).all fun pv => (AtPath.atPath2 bin pv.1).map val2 == pv.2 := by decide +kernel

/-! ## `fold.rs` -/

/-- A stateless closure. -/
def pureF {A B : Type} (f : A → B) : Unit → A → Unit × B := fun _ a => ((), f a)

/-- The sum of the results in the two slots. -/
def sum2 (p : Option Nat × Option Nat) : Nat := p.1.getD 0 + p.2.getD 0

example : (Api.fold (fun _ rs v => ((), rs.sum + v)) tree ()).toOption = some (55, (), ()) := by decide +kernel
example : (Api.binFold (fun _ rs v => ((), sum2 rs + v)) bin ()).toOption = some (55, (), ()) := by decide +kernel
example : (Api.foldEach (fun _ rs v => ((), rs.sum + v)) [tree, tree, tree] 4 ()).toOption.map Prod.fst =
    some [some 55, some 55, some 55, none] := by decide +kernel
example : (Api.binFoldEach (fun _ rs v => ((), sum2 rs + v)) [bin, bin, bin] 4 ()).toOption.map Prod.fst =
    some [some 55, some 55, some 55, none] := by decide +kernel
-- the state says whether all paths were as expected
example : (Api.foldPath (fun ok rs p v => (ok && p == pathOf v, rs.sum + v)) tree true).toOption = some (55, true, ()) := by
  decide +kernel
example : (Api.binFoldPath (fun ok rs p v => (ok && p == binPathOf v, sum2 rs + v)) bin true).toOption =
    some (55, true, ()) := by decide +kernel
-- `counters`: the values seen so far; the first segment is the number of earlier calls with the same value
example : (Api.foldPathEach (fun (st : Bool × List Nat) rs p v =>
      ((st.1 && p == st.2.count v :: pathOf v, v :: st.2), rs.sum + v)) [tree, tree, tree] 4 (true, [])).toOption.map
      (fun r => (r.1, r.2.2.1)) = some ([some 55, some 55, some 55, none], true) := by decide +kernel
example : (Api.binFoldPathEach (fun (st : Bool × List Nat) rs p v =>
      ((st.1 && p == st.2.count v :: binPathOf v, v :: st.2), sum2 rs + v)) [bin, bin, bin] 4 (true, [])).toOption.map
      (fun r => (r.1, r.2.2.1)) = some ([some 55, some 55, some 55, none], true) := by decide +kernel

/-! ## `map.rs` (with numbers in the place of strings) -/

/-- `map.rs`: the tree of `map_tree`. -/
def mapTree (f : Nat → Nat) : Tree Nat := .node (f 0) [.node (f 1) [.node (f 3) [.node (f 5) []], .node (f 4) []], .node (f 2) []]

/-- `map.rs`: the tree of `map_binary_tree`. -/
def mapBin (f : Nat → Nat) : BinTree Nat :=
  .node (f 0) (some (.node (f 1) (some (.node (f 3) none (some (.node (f 5) none none)))) (some (.node (f 4) none none))))
    (some (.node (f 2) none none))

example : (Api.map (pureF (· / 10)) (mapTree (11 * ·)) ()).toOption = some (mapTree id, ()) := by decide +kernel
example : (Api.binMap (pureF (· / 10)) (mapBin (11 * ·)) ()).toOption = some (mapBin id, ()) := by decide +kernel
example : (Api.mapEach (pureF (· / 10)) [mapTree (11 * ·), mapTree (11 * ·)] 3 ()).toOption.map Prod.fst =
    some [some (mapTree id), some (mapTree id), none] := by decide +kernel
example : (Api.binMapEach (pureF (· / 10)) [mapBin (11 * ·), mapBin (11 * ·)] 3 ()).toOption.map Prod.fst =
    some [some (mapBin id), some (mapBin id), none] := by decide +kernel

/-! ## `prune.rs` -/

/-- `prune.rs`: what is left without the subtree of 2. -/
def pruned : Tree Nat := .node 0 [.node 1 [.node 3 [], .node 4 []]]
def unevenly : Tree Nat := .node 0 [.node 1 [.node 4 []]]
def binPruned : BinTree Nat := .node 0 (some (.node 1 (some (.node 3 none none)) (some (.node 4 none none)))) none
def binUnevenly : BinTree Nat := .node 0 (some (.node 1 none (some (.node 4 none none)))) none

example : (Api.prune (pureF fun _ => true) tree ()).toOption = some (none, ()) := by decide +kernel
example : (Api.prune (pureF (· == 0)) tree ()).toOption = some (none, ()) := by decide +kernel
example : (Api.prune (pureF (· == 2)) tree ()).toOption = some (some pruned, ()) := by decide +kernel
example : (Api.prunePath (fun _ p _ => ((), p[0]? == some 1)) tree ()).toOption = some (some pruned, ()) := by decide +kernel
example : (Api.prune (pureF (· == 3)) pruned ()).toOption = some (some unevenly, ()) := by decide +kernel
example : (Api.prunePath (fun _ p _ => ((), p[1]? == some 0)) pruned ()).toOption = some (some unevenly, ()) := by
  decide +kernel
example : (Api.binPrune (pureF fun _ => true) bin ()).toOption = some (none, ()) := by decide +kernel
example : (Api.binPrune (pureF (· == 0)) bin ()).toOption = some (none, ()) := by decide +kernel
example : (Api.binPrune (pureF (· == 2)) bin ()).toOption = some (some binPruned, ()) := by decide +kernel
example : (Api.binPrunePath (fun _ p _ => ((), p[0]? == some 1)) bin ()).toOption = some (some binPruned, ()) := by
  decide +kernel
example : (Api.binPrune (pureF (· == 3)) binPruned ()).toOption = some (some binUnevenly, ()) := by decide +kernel
example : (Api.binPrunePath (fun _ p _ => ((), p[1]? == some 0)) binPruned ()).toOption = some (some binUnevenly, ()) := by
  decide +kernel

example : (Api.pruneEach (pureF fun _ => true) [tree, tree] 2 ()).toOption.map Prod.fst = some [none, none] := by
  decide +kernel
example : (Api.pruneEach (pureF (· == 0)) [tree, tree] 2 ()).toOption.map Prod.fst = some [none, none] := by decide +kernel
example : (Api.pruneEach (pureF (· == 2)) [tree, tree] 3 ()).toOption.map Prod.fst = some [some pruned, some pruned, none] := by
  decide +kernel
example : (Api.prunePathEach (fun _ p _ => ((), p[1]? == some 1)) [tree, tree] 3 ()).toOption.map Prod.fst =
    some [some pruned, some pruned, none] := by decide +kernel
example : (Api.pruneEach (pureF (· == 3)) [pruned, pruned] 3 ()).toOption.map Prod.fst =
    some [some unevenly, some unevenly, none] := by decide +kernel
example : (Api.prunePathEach (fun _ p _ => ((), p[2]? == some 0)) [pruned, pruned] 3 ()).toOption.map Prod.fst =
    some [some unevenly, some unevenly, none] := by decide +kernel
example : (Api.binPruneEach (pureF fun _ => true) [bin, bin] 2 ()).toOption.map Prod.fst = some [none, none] := by
  decide +kernel
example : (Api.binPruneEach (pureF (· == 2)) [bin, bin] 3 ()).toOption.map Prod.fst =
    some [some binPruned, some binPruned, none] := by decide +kernel
example : (Api.binPrunePathEach (fun _ p _ => ((), p[1]? == some 1)) [bin, bin] 3 ()).toOption.map Prod.fst =
    some [some binPruned, some binPruned, none] := by decide +kernel
example : (Api.binPruneEach (pureF (· == 3)) [binPruned, binPruned] 3 ()).toOption.map Prod.fst =
    some [some binUnevenly, some binUnevenly, none] := by decide +kernel
example : (Api.binPrunePathEach (fun _ p _ => ((), p[2]? == some 0)) [binPruned, binPruned] 3 ()).toOption.map Prod.fst =
    some [some binUnevenly, some binUnevenly, none] := by decide +kernel

example : (Api.pruneDepth 0 tree).toOption = some (.node 0 [], ()) := by decide +kernel
example : (Api.pruneDepth 1 tree).toOption = some (.node 0 [.node 1 [], .node 2 []], ()) := by decide +kernel
example : (Api.pruneDepth 2 tree).toOption =
    some (.node 0 [.node 1 [.node 3 [], .node 4 []], .node 2 [.node 5 [], .node 6 []]], ()) := by decide +kernel
example : (Api.pruneDepth 3 tree).toOption =
    some (.node 0 [.node 1 [.node 3 [], .node 4 []], .node 2 [.node 5 [], .node 6 [.node 7 []]]], ()) := by decide +kernel
example : (Api.pruneDepth 6 tree).toOption = some (tree, ()) ∧ (Api.pruneDepth 10 tree).toOption = some (tree, ()) := by
  decide +kernel
example : (Api.binPruneDepth 0 bin).toOption = some (.node 0 none none, ()) := by decide +kernel
example : (Api.binPruneDepth 3 bin).toOption =
    some (.node 0 (some (.node 1 (some (.node 3 none none)) (some (.node 4 none none))))
      (some (.node 2 (some (.node 5 none none)) (some (.node 6 (some (.node 7 none none)) none)))), ()) := by decide +kernel
example : (Api.binPruneDepth 6 bin).toOption = some (bin, ()) := by decide +kernel

end Conformance
end TreeIter
