import Verif.Lemmas.CacheDrops
import Verif.Props.Handles
import Verif.Props.Lazy

/-!
# C49: every value an owned breadth-first iterator takes from a node is dropped exactly once

`opened` lists the values returned by `get_value_and_children`, in order, and `dropped` the values dropped by the
iterator while it runs.  When the iterator is dropped, the values on its stack (`items`, `ancestors`) are dropped with it;
those in its cache (`kept`) are in `MaybeUninit`s and are not.
-/

universe u v

namespace TreeIter

open Handles

variable {N : Type u} {V : Type v}

/-- Events on the sample trees; `true` for a value taken. -/
def valueEvents {O S : Type} (stack kept : S → List Nat) (r : Except Panic (List (Event Nat) × List (Option O) × S)) :
    Option (List (Bool × Nat) × List Nat × List Nat) :=
  r.toOption.map fun r => (r.1.map (fun | .opened v => (true, v) | .dropped v => (false, v)), stack r.2.2, kept r.2.2)

theorem levelOrder_treeOf [TreeNode N V] (n : N) :
    (treeOf n).levelOrder = val n :: bfsF ((kids n).map treeOf) := by
  rw [← bfsF_singleton, treeOf_eq, bfsF_cons, List.nil_append]

/-! ## Ancestors -/

/-- C49, `attach_ancestors`.  What holds: at any time each value taken is dropped already, on the stack or in the cache,
and only once in all of these; after the call that returned `None` all have been dropped.  What is missing: the values in
the cache are not dropped with the iterator. -/
theorem C49_bfs_ancestors_partial [TreeNode N V] (n : N) (k : Nat) (hk : k ≤ (treeOf n).size + 1) :
    ∃ es s, runE Bfs.ancAdvanceD Bfs.ancGet k (Bfs.ancNewD n).2 =
        .ok (es, (List.range k).map (fun j => ((treeOf n).located.levelOrder.map Pos.ancestors)[j]?), s) ∧
      opened ((Bfs.ancNewD n).1 ++ es) = (treeOf n).levelOrder.take (max k 1) ∧
      (dropped ((Bfs.ancNewD n).1 ++ es) ++ (s.cs.items ++ s.cs.kept)).Perm (opened ((Bfs.ancNewD n).1 ++ es)) ∧
      (k = (treeOf n).size + 1 → s.cs.items = [] ∧ s.cs.kept = []) := by
  obtain ⟨s0, h1, h2⟩ := C09_bfs_ancestors n
  cases h1
  have hlv := levelOrder_treeOf (V := V) n
  cases k with
  | zero =>
    refine ⟨[], _, rfl, ?_, ?_, by omega⟩
    · simp [Bfs.ancNewD, opened, hlv]
    · simp [Bfs.ancNewD, opened, dropped, Bfs.AncState.new, Bfs.CacheState.kept, Bfs.Cache.vals, Bfs.Cache.valsL]
  | succ k =>
    let s1 : Bfs.AncState N V := { (Bfs.ancNewD n).2 with isRoot := false }
    obtain ⟨es, s, r1, r2, r3, -⟩ := runE_spec (get := Bfs.ancGet) (get' := Bfs.ancGet) id Bfs.AncState.Inv
      (AccOne Bfs.AncState.todo Bfs.AncState.live) Bfs.ancAdvanceD_erase (fun _ => rfl) Bfs.ancAdvanceD_acc
      (AccOne.nil _ _) (fun _ _ _ _ _ _ => AccOne.trans) k s1 ⟨rfl, .inl ⟨_, Bfs.ancRun_first (val n) (kids n)⟩⟩
      (fun j => ((treeOf n).located.levelOrder.map Pos.ancestors)[j + 1]?) (fun j hj => h2 (j + 1) (by omega))
    have ha : Bfs.ancAdvanceD (Bfs.ancNewD (V := V) n).2 = .ok ([], s1) := rfl
    have hrun : runE Bfs.ancAdvanceD Bfs.ancGet (k + 1) (Bfs.ancNewD n).2 =
        .ok (es, (List.range (k + 1)).map (fun j => ((treeOf n).located.levelOrder.map Pos.ancestors)[j]?), s) := by
      have hg : Bfs.ancGet s1 = ((treeOf n).located.levelOrder.map Pos.ancestors)[0]? := Except.ok.inj (h2 0 (by omega))
      simp only [runE, ha, r1, hg, List.range_succ_eq_map, List.map_cons, List.map_map]
      rfl
    refine ⟨es, s, hrun, ?_, ?_, fun he => ?_⟩
    · rw [opened_append, r2.1, hlv, Nat.max_eq_left (Nat.le_add_left 1 k)]
      simp [Bfs.ancNewD, opened, Bfs.AncState.todo, s1, Bfs.AncState.new]
    · have := r2.2.2
      simpa [Bfs.ancNewD, opened, dropped, Bfs.AncState.live, Bfs.CacheState.live, s1, Bfs.AncState.new,
        Bfs.CacheState.kept, Bfs.Cache.vals, Bfs.Cache.valsL] using this
    · have hl := Bfs.runE_last _ _ _ _ _ hrun
      have : ((treeOf n).located.levelOrder.map Pos.ancestors)[k]? = none :=
        List.getElem?_eq_none (by rw [C09_length]; omega)
      rw [List.range_succ, List.map_append, List.map_cons, List.map_nil, List.getLast?_concat, this] at hl
      have hi : s.cs.items = [] := by
        have hl := (Option.some.inj hl).symm
        rw [Bfs.ancGet] at hl
        split at hl
        · rename_i h
          exact List.length_eq_zero_iff.1 h
        · simp at hl
      rcases r3.2 with ⟨ts, hr⟩ | ⟨_, h⟩
      · exact absurd hi (Bfs.ancRun_items _ _ _ hr)
      · exact h

example := C49_bfs_ancestors_partial sampleTree 4 (by decide +kernel)

/-- C49 is false for `attach_ancestors`, on every tree whose root has two children: if the iterator is dropped after three
calls, the value of the first child is never dropped. -/
theorem C49_bfs_ancestors_false [TreeNode N V] (n a b : N) (ns : List N) (h : kids n = a :: b :: ns) :
    ∃ es os s, runE Bfs.ancAdvanceD Bfs.ancGet 3 (Bfs.ancNewD n).2 = .ok (es, os, s) ∧
      opened ((Bfs.ancNewD n).1 ++ es) = [val n, val a, val b] ∧ dropped ((Bfs.ancNewD n).1 ++ es) = [] ∧
      s.cs.items = [val b, val n] ∧ s.cs.kept = [val a] := by
  simp [runE, Bfs.ancAdvanceD, Bfs.ancNewD, Bfs.AncState.new, h, Bfs.ancLoopD, Bfs.settle, opened, dropped,
    Bfs.CacheState.popItem, Bfs.Cache.pushBack, Bfs.Cache.value, Bfs.Cache.children, Bfs.CacheState.kept, Bfs.Cache.vals,
    Bfs.Cache.valsL, Bfs.Cache.valsO]

/-! ## Contexts -/

theorem contexts_length [TreeNode N V] (n : N) :
    ((unfold n).located.levelOrder.map (Pos.ctx (V := V))).length = (treeOf (V := V) n).size := by
  rw [List.length_map, treeOf, size_map, ← C09_length, List.length_map]

theorem contexts_length2 [BinNode N V] (n : N) :
    ((unfold2 n).located.toTree.levelOrder.map (Pos.ctx2 (V := V))).length = (treeOf (V := V) n).size := by
  have h1 := bfsF_length [(unfold2 n).located.toTree]
  have h2 : ((unfold2 n).located.map Pos.item).toTree.size = (unfold2 n).located.toTree.size := by
    rw [BinTree.toTree_map, size_map]
  rw [map_item_located2] at h2
  rw [bfsF_singleton] at h1
  rw [List.length_map, h1, treeOf_eq_toTree, binTreeOf, BinTree.toTree_map, size_map, h2]
  simp

/-- C49, `attach_context`.  What holds and what is missing: as for the ancestors. -/
theorem C49_bfs_context_partial [TreeNode N V] (n : N) (h : ArityLt n) (k : Nat) :
    ∃ es s, runE Bfs.ctxAdvanceD Bfs.ctxGet k (Bfs.ctxNewD n).2 =
        .ok (es, (List.range k).map (fun j => ((unfold n).located.levelOrder.map Pos.ctx)[j]?), s) ∧
      opened ((Bfs.ctxNewD (V := V) n).1 ++ es) = (treeOf n).levelOrder.take (max k 1) ∧
      (dropped ((Bfs.ctxNewD (V := V) n).1 ++ es) ++ (s.cc.ancestors ++ s.cc.kept)).Perm
        (opened ((Bfs.ctxNewD (V := V) n).1 ++ es)) ∧
      ((treeOf n).size < k → s.cc.ancestors = [] ∧ s.cc.kept = []) := by
  obtain ⟨s0, h1, h2⟩ := C14_bfs_context n h
  cases h1
  have hlv := levelOrder_treeOf (V := V) n
  cases k with
  | zero =>
    refine ⟨[], _, rfl, ?_, ?_, by omega⟩
    · simp [Bfs.ctxNewD, opened, hlv]
    · simp [Bfs.ctxNewD, opened, dropped, Bfs.CtxState.new, Bfs.CtxCache.kept, Bfs.Cache.vals, Bfs.Cache.valsL]
  | succ k =>
    let s1 : Bfs.CtxState V (List N) N := { (Bfs.ctxNewD n).2 with isRoot := false }
    have ha : Bfs.ctxAdvanceD (Bfs.ctxNewD (V := V) n).2 = .ok ([], s1) := rfl
    have hinv : Bfs.CtxInv s1 := by
      refine ⟨rfl, ?_, fun h => by simp [s1, Bfs.ctxNewD, Bfs.CtxState.new] at h⟩
      obtain ⟨s', -, -, e3⟩ := Bfs.ctxNext_spec _ _ (Bfs.ctxRel_new n [] h)
      obtain ⟨f1, f2⟩ := e3 _ _ [] (by rw [Bfs.ctxT_unfold])
      have : s' = s1 := by
        simp only [Bfs.ctxNext, streamNextE, Bfs.ctxAdvanceD_erase] at f1
        rw [show Bfs.ctxAdvanceD (Bfs.CtxState.new (V := V) n []) = .ok ([], s1) from rfl] at f1
        exact (Prod.mk.inj (Except.ok.inj f1)).2.symm
      exact ⟨_, this ▸ f2⟩
    obtain ⟨es, s, r1, r2, r3, -⟩ := runE_spec (get := Bfs.ctxGet) (get' := Bfs.ctxGet) id Bfs.CtxInv
      (AccOne Bfs.ctxTodo Bfs.CtxState.live) Bfs.ctxAdvanceD_erase (fun _ => rfl) Bfs.ctxAdvanceD_acc
      (AccOne.nil _ _) (fun _ _ _ _ _ _ => AccOne.trans) k s1 hinv
      (fun j => ((unfold n).located.levelOrder.map Pos.ctx)[j + 1]?) (fun j _ => h2 (j + 1))
    have hrun : runE Bfs.ctxAdvanceD Bfs.ctxGet (k + 1) (Bfs.ctxNewD n).2 =
        .ok (es, (List.range (k + 1)).map (fun j => ((unfold n).located.levelOrder.map Pos.ctx)[j]?), s) := by
      have hg : Bfs.ctxGet s1 = ((unfold n).located.levelOrder.map Pos.ctx)[0]? := Except.ok.inj (h2 0)
      simp only [runE, ha, r1, hg, List.range_succ_eq_map, List.map_cons, List.map_map]
      rfl
    refine ⟨es, s, hrun, ?_, ?_, fun he => ?_⟩
    · rw [opened_append, r2.1, hlv, Nat.max_eq_left (Nat.le_add_left 1 k)]
      simp [Bfs.ctxNewD, opened, Bfs.ctxTodo, s1, Bfs.CtxState.new]
    · have := r2.2.2
      simpa [Bfs.ctxNewD, opened, dropped, Bfs.CtxState.live, Bfs.CtxCache.live, s1, Bfs.CtxState.new,
        Bfs.CtxCache.kept, Bfs.Cache.vals, Bfs.Cache.valsL] using this
    · have hl := Bfs.runE_last _ _ _ _ _ hrun
      have : ((unfold n).located.levelOrder.map Pos.ctx)[k]? = none :=
        List.getElem?_eq_none (by rw [contexts_length]; omega)
      rw [List.range_succ, List.map_append, List.map_cons, List.map_nil, List.getLast?_concat, this] at hl
      have hi : s.cc.ancestors = [] := by
        have hl := (Option.some.inj hl).symm
        rw [Bfs.ctxGet] at hl
        split at hl
        · rename_i h
          exact List.isEmpty_iff.1 h
        · simp at hl
      exact ⟨hi, (r3.2.2 hi).1⟩

example := C49_bfs_context_partial sampleTree sampleTree_arityLt 4

/-- C49, binary `attach_context`.  What holds and what is missing: as for the ancestors. -/
theorem C49_bfs_context_binary_partial [BinNode N V] (n : N) (k : Nat) :
    ∃ es s, runE Bfs.binCtxAdvanceD Bfs.ctxGet k (Bfs.binCtxNewD n).2 =
        .ok (es, (List.range k).map (fun j => ((unfold2 n).located.toTree.levelOrder.map Pos.ctx2)[j]?), s) ∧
      opened ((Bfs.binCtxNewD (V := V) n).1 ++ es) = (treeOf n).levelOrder.take (max k 1) ∧
      (dropped ((Bfs.binCtxNewD (V := V) n).1 ++ es) ++ (s.cc.ancestors ++ s.cc.kept)).Perm
        (opened ((Bfs.binCtxNewD (V := V) n).1 ++ es)) ∧
      ((treeOf n).size < k → s.cc.ancestors = [] ∧ s.cc.kept = []) := by
  obtain ⟨s0, h1, h2⟩ := C14_bfs_context_binary n
  cases h1
  have hlv := levelOrder_treeOf (V := V) n
  cases k with
  | zero =>
    refine ⟨[], _, rfl, ?_, ?_, by omega⟩
    · simp [Bfs.binCtxNewD, opened, hlv]
      rfl
    · simp [Bfs.binCtxNewD, opened, dropped, Bfs.CtxState.binNew, Bfs.CtxCache.kept, Bfs.Cache.vals, Bfs.Cache.valsL]
  | succ k =>
    let s1 : Bfs.CtxState V (Option N × Option N) (Option N) := { (Bfs.binCtxNewD n).2 with isRoot := false }
    have ha : Bfs.binCtxAdvanceD (Bfs.binCtxNewD (V := V) n).2 = .ok ([], s1) := rfl
    have hinv : Bfs.BinCtxInv s1 := by
      refine ⟨rfl, ?_, fun h => by simp [s1, Bfs.binCtxNewD, Bfs.CtxState.binNew] at h⟩
      obtain ⟨s', -, -, e3⟩ := Bfs.binCtxNext_spec _ _ (Bfs.binCtxRel_new n [])
      obtain ⟨f1, f2⟩ := e3 _ _ [] (by rw [Bfs.ctxB_unfold2])
      have : s' = s1 := by
        simp only [Bfs.binCtxNext, streamNextE, Bfs.binCtxAdvanceD_erase] at f1
        rw [show Bfs.binCtxAdvanceD (Bfs.CtxState.binNew (V := V) n []) = .ok ([], s1) from rfl] at f1
        exact (Prod.mk.inj (Except.ok.inj f1)).2.symm
      exact ⟨_, this ▸ f2⟩
    obtain ⟨es, s, r1, r2, r3, -⟩ := runE_spec (get := Bfs.ctxGet) (get' := Bfs.ctxGet) id Bfs.BinCtxInv
      (AccOne Bfs.binCtxTodo Bfs.CtxState.live) Bfs.binCtxAdvanceD_erase (fun _ => rfl) Bfs.binCtxAdvanceD_acc
      (AccOne.nil _ _) (fun _ _ _ _ _ _ => AccOne.trans) k s1 hinv
      (fun j => ((unfold2 n).located.toTree.levelOrder.map Pos.ctx2)[j + 1]?) (fun j _ => h2 (j + 1))
    have hrun : runE Bfs.binCtxAdvanceD Bfs.ctxGet (k + 1) (Bfs.binCtxNewD n).2 =
        .ok (es, (List.range (k + 1)).map (fun j => ((unfold2 n).located.toTree.levelOrder.map Pos.ctx2)[j]?), s) := by
      have hg : Bfs.ctxGet s1 = ((unfold2 n).located.toTree.levelOrder.map Pos.ctx2)[0]? := Except.ok.inj (h2 0)
      simp only [runE, ha, r1, hg, List.range_succ_eq_map, List.map_cons, List.map_map]
      rfl
    refine ⟨es, s, hrun, ?_, ?_, fun he => ?_⟩
    · rw [opened_append, r2.1, hlv, Nat.max_eq_left (Nat.le_add_left 1 k)]
      simp [Bfs.binCtxNewD, opened, Bfs.binCtxTodo, s1, Bfs.CtxState.binNew]
      exact ⟨rfl, rfl⟩
    · have := r2.2.2
      simpa [Bfs.binCtxNewD, opened, dropped, Bfs.CtxState.live, Bfs.CtxCache.live, s1, Bfs.CtxState.binNew,
        Bfs.CtxCache.kept, Bfs.Cache.vals, Bfs.Cache.valsL] using this
    · have hl := Bfs.runE_last _ _ _ _ _ hrun
      have : ((unfold2 n).located.toTree.levelOrder.map Pos.ctx2)[k]? = none :=
        List.getElem?_eq_none (by rw [contexts_length2]; omega)
      rw [List.range_succ, List.map_append, List.map_cons, List.map_nil, List.getLast?_concat, this] at hl
      have hi : s.cc.ancestors = [] := by
        have hl := (Option.some.inj hl).symm
        rw [Bfs.ctxGet] at hl
        split at hl
        · rename_i h
          exact List.isEmpty_iff.1 h
        · simp at hl
      exact ⟨hi, (r3.2.2 hi).1⟩

/-- C49 is false for `attach_context`, on every tree whose root has two children. -/
theorem C49_bfs_context_false [TreeNode N V] (n a b : N) (ns : List N) (h : kids n = a :: b :: ns) :
    ∃ es os s, runE Bfs.ctxAdvanceD Bfs.ctxGet 3 (Bfs.ctxNewD n).2 = .ok (es, os, s) ∧
      opened ((Bfs.ctxNewD (V := V) n).1 ++ es) = [val n, val a, val b] ∧
      dropped ((Bfs.ctxNewD (V := V) n).1 ++ es) = [] ∧
      s.cc.ancestors = [val b, val n] ∧ s.cc.kept = [val a] := by
  simp [runE, Bfs.ctxAdvanceD, Bfs.ctxNewD, Bfs.CtxState.new, h, Bfs.ctxLoopD, Bfs.CtxCache.settle, opened, dropped,
    Bfs.CtxCache.popItem, Bfs.checkedSucc, Bfs.Cache.pushBack, Bfs.Cache.value, Bfs.Cache.children, Bfs.CtxCache.kept, Bfs.Cache.vals,
    Bfs.Cache.valsL, Bfs.Cache.valsO]

/-- C49 is false for the binary `attach_context`, on every tree whose root has two children. -/
theorem C49_bfs_context_binary_false [BinNode N V] (n a b : N) (h : (split2 (V := V) n).2 = (some a, some b)) :
    ∃ es os s, runE Bfs.binCtxAdvanceD Bfs.ctxGet 3 (Bfs.binCtxNewD n).2 = .ok (es, os, s) ∧
      opened ((Bfs.binCtxNewD (V := V) n).1 ++ es) = [val2 n, val2 a, val2 b] ∧
      dropped ((Bfs.binCtxNewD (V := V) n).1 ++ es) = [] ∧
      s.cc.ancestors = [val2 b, val2 n] ∧ s.cc.kept = [val2 a] := by
  simp [runE, Bfs.binCtxAdvanceD, Bfs.binCtxNewD, Bfs.CtxState.binNew, h, Bfs.binCtxLoopD, Bfs.CtxCache.settle, opened,
    dropped, Bfs.CtxCache.popItem, Bfs.checkedSucc, Bfs.binScan, Bfs.Cache.pushBack, Bfs.Cache.value, Bfs.Cache.children, Bfs.CtxCache.kept, Bfs.Cache.vals,
    Bfs.Cache.valsL, Bfs.Cache.valsO]

/-! ## Examples -/

/-- Five calls in, the values 3 and 2 are in the cache and nothing has been dropped. -/
example : valueEvents (fun s => s.cs.items) (fun s => s.cs.kept)
      (runE Bfs.ancAdvanceD Bfs.ancGet 5 (Bfs.ancNewD sampleTree).2) =
    some ([(true, 1), (true, 2), (true, 3), (true, 4)], [4, 1, 0], [3, 2]) := by decide +kernel

example : valueEvents (fun s => s.cs.items) (fun s => s.cs.kept)
      (runE Bfs.ancAdvanceD Bfs.ancGet 7 (Bfs.ancNewD sampleTree).2) =
    some ([(true, 1), (true, 2), (true, 3), (true, 4), (true, 5), (false, 3), (false, 4), (false, 1), (false, 5),
      (false, 2), (false, 0)], [], []) := by decide +kernel

example : valueEvents (fun s => s.cc.ancestors) (fun s => s.cc.kept)
      (runE Bfs.ctxAdvanceD Bfs.ctxGet 6 (Bfs.ctxNewD sampleTree).2) =
    some ([(true, 1), (true, 2), (true, 3), (true, 4), (true, 5)], [5, 2, 0], [1, 3, 4]) := by decide +kernel

example : valueEvents (fun s => s.cc.ancestors) (fun s => s.cc.kept)
      (runE Bfs.binCtxAdvanceD Bfs.ctxGet 5 (Bfs.binCtxNewD sampleBin).2) =
    some ([(true, 1), (true, 2), (true, 3), (true, 4)], [4, 2, 0], [1, 3]) := by decide +kernel

end TreeIter
