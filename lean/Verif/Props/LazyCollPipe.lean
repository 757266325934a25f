import Verif.Lemmas.LazyCollPipe
import Verif.Props.CollChain

/-! # C67: pipelines work on any source of trees

The collection may be any iterator: endless, or one that gives trees again after a `None`. -/

universe u v w x y z t

namespace TreeIter

/-! ## Sources for the concrete cases -/

/-- An endless source of general trees: number `i` has root `i` and children `i + 1` and `i + 2`, the first with a child
`i + 3`. -/
def endlessTrees (i : Nat) : Option (Tree Nat) × Nat :=
  (some (.node i [.node (i + 1) [.node (i + 3) []], .node (i + 2) []]), i + 1)

/-- An endless source of binary trees. -/
def endlessBins (i : Nat) : Option (BinTree Nat) × Nat :=
  (some (.node i (some (.node (i + 1) none (some (.node (i + 3) none none)))) (some (.node (i + 2) none none))), i + 1)

/-- A source that is not fused: tree, tree, `None`, tree, tree, `None`, and so on. -/
def moodyTrees (i : Nat) : Option (Tree Nat) × Nat :=
  (if i % 3 = 2 then none else some (.node i [.node (i + 1) []]), i + 1)

theorem endlessTrees_polled (i : Nat) : ∀ s, polled endlessTrees i s = s + i := by
  induction i with
  | zero => intro s; rfl
  | succ i ih => intro s; rw [polled, ih]; show s + 1 + i = s + (i + 1); omega

theorem endlessBins_polled (i : Nat) : ∀ s, polled endlessBins i s = s + i := by
  induction i with
  | zero => intro s; rfl
  | succ i ih => intro s; rw [polled, ih]; show s + 1 + i = s + (i + 1); omega

/-- The trees the endless source gives first. -/
theorem endlessTrees_begins (m : Nat) :
    Begins endlessTrees 0 ((List.range m).map fun i => Tree.node i [.node (i + 1) [.node (i + 3) []], .node (i + 2) []]) := by
  intro i hi
  rw [asked, endlessTrees_polled]
  simp [endlessTrees]

theorem endlessBins_begins (m : Nat) :
    Begins endlessBins 0 ((List.range m).map fun i =>
      BinTree.node i (some (.node (i + 1) none (some (.node (i + 3) none none)))) (some (.node (i + 2) none none))) := by
  intro i hi
  rw [asked, endlessBins_polled]
  simp [endlessBins]

theorem moodyTrees_gives : GivesOnly moodyTrees 0 [.node 0 [.node 1 []], .node 1 [.node 2 []]] := by
  refine ⟨fun i hi => ?_, rfl⟩
  match i, hi with
  | 0, _ => rfl
  | 1, _ => rfl

theorem moodyTrees_arity : ∀ n ∈ [Tree.node 0 [.node 1 []], .node 1 [.node 2 []]], ArityOk n := by
  intro n hn m hm
  have h : ∀ n ∈ [Tree.node 0 [.node 1 []], .node 1 [.node 2 []]], ∀ m ∈ (unfold n).preorder, (kids m).length ≤ 1 := by
    decide +kernel
  exact Nat.le_trans (h n hn m hm) (by decide)

/-- The same kind of source of binary trees. -/
def moodyBins (i : Nat) : Option (BinTree Nat) × Nat :=
  (if i % 3 = 2 then none else some (.node i none (some (.node (i + 1) none none))), i + 1)

theorem moodyBins_gives : GivesOnly moodyBins 0
    [.node 0 none (some (.node 1 none none)), .node 1 none (some (.node 2 none none))] := by
  refine ⟨fun i hi => ?_, rfl⟩
  match i, hi with
  | 0, _ => rfl
  | 1, _ => rfl

section General
variable {C : Type t} {N : Type u} {V W : Type v} [TreeNode N V] {σ : Type w} {τ : Type x} {O : Type y}

/-- C67: on a source that first gives the trees `ns`, endless or not, the first `k` calls of `next` on `trees()` after a
chain of stages give the first `k` of the trees that the chain makes of `ns` (see C64), if there is one more of them.  All
loops end, and no tree after `ns` was asked for. -/
theorem C67_trees (c : Chain σ V W) (hc : c.pathsFirst = true) (poll : C → Option N × C) (s : C) (ns : List N)
    (hb : Begins poll s ns) (hn : c.noPaths = true ∨ ∀ n ∈ ns, ArityOk n) (w : σ) (k : Nat)
    (hk : k < (c.trees w (ns.map treeOf)).2.length) :
    ∃ F, ∀ fuel ≥ F, ∃ st r, treesEnd.lazyCalls (c.collLazyPipe (Api.lazyCollPipe σ poll fuel) fuel) fuel k
        (c.collInit (.new s), none) w () = .ok (((c.trees w (ns.map treeOf)).2.take k).map some, st, r) ∧
      ∃ m ≤ ns.length, (c.base st.1).source = polled poll m s := by
  obtain ⟨r, h, -⟩ := C64_trees c hc ns hn (k + 1) w
  exact c.coll_begins treesEnd (fun t => by simp [treesEnd, treesDrain]) poll s ns hb k w () _ hk r h

/-- On the endless source: two calls have asked for four of its trees.  The second was dropped, and the end looks at one
item of the tree after those it gave. -/
example : (treesEnd.lazyCalls (countChain.collLazyPipe (Api.lazyCollPipe Nat endlessTrees 9) 9) 9 2
      (countChain.collInit (.new 0), none) 0 ()).toOption.map (fun r => (r.1, (countChain.base r.2.1.1).source)) =
    some ([some (.node 10 [.node 12 []]), some (.node 12 [.node 13 [.node 15 []], .node 14 []])], 4) := by decide +kernel

example : ∃ F, ∀ fuel ≥ F, ∃ st r, treesEnd.lazyCalls (countChain.collLazyPipe (Api.lazyCollPipe Nat endlessTrees fuel) fuel)
      fuel 2 (countChain.collInit (.new 0), none) 0 () =
        .ok ([some (.node 10 [.node 12 []]), some (.node 12 [.node 13 [.node 15 []], .node 14 []])], st, r) ∧
    ∃ m ≤ 4, (countChain.base st.1).source = polled endlessTrees m 0 := by
  have h := C67_trees countChain rfl endlessTrees 0 _ (endlessTrees_begins 4) (.inl rfl) 0 2 (by decide +kernel)
  have e : (((countChain.trees 0 (((List.range 4).map fun i =>
      Tree.node i [.node (i + 1) [.node (i + 3) []], .node (i + 2) []]).map treeOf)).2.take 2).map some) =
      [some (.node 10 [.node 12 []]), some (.node 12 [.node 13 [.node 15 []], .node 14 []])] := by decide +kernel
  rw [e] at h
  exact h

/-- C67: on a source that gives the trees `ns` and then `None`, whatever it would do when asked again, every number of calls
gives what it gives on the list `ns` (see C64). -/
theorem C67_trees_all (c : Chain σ V W) (hc : c.pathsFirst = true) (poll : C → Option N × C) (s : C) (ns : List N)
    (hb : GivesOnly poll s ns) (hn : c.noPaths = true ∨ ∀ n ∈ ns, ArityOk n) (w : σ) :
    ∃ F, ∀ fuel ≥ F, ∀ k, ∃ st r, treesEnd.lazyCalls (c.collLazyPipe (Api.lazyCollPipe σ poll fuel) fuel) fuel k
        (c.collInit (.new s), none) w () = .ok (seen k (c.trees w (ns.map treeOf)).2, st, r) ∧
      ((c.trees w (ns.map treeOf)).2.length < k → r = ((c.trees w (ns.map treeOf)).1, ())) ∧
      ∃ m ≤ ns.length + 1, (c.base st.1).source = polled poll m s :=
  c.coll_gives treesEnd poll s ns hb w () _ _ fun k => C64_trees c hc ns hn k w

example : (treesEnd.lazyCalls (countChain.collLazyPipe (Api.lazyCollPipe Nat moodyTrees 9) 9) 9 4
      (countChain.collInit (.new 0), none) 0 ()).toOption.map (fun r => (r.1, (countChain.base r.2.1.1).source, r.2.2)) =
    some ([some (.node 10 []), none, none, none], 3, (3, ())) := by decide +kernel

example : ∃ F, ∀ fuel ≥ F, ∀ k, ∃ st r, treesEnd.lazyCalls (countChain.collLazyPipe (Api.lazyCollPipe Nat moodyTrees fuel) fuel)
      fuel k (countChain.collInit (.new 0), none) 0 () = .ok (seen k [.node 10 []], st, r) ∧ (1 < k → r = (3, ())) ∧
    ∃ m ≤ 3, (countChain.base st.1).source = polled moodyTrees m 0 := by
  have h := C67_trees_all countChain rfl moodyTrees 0 _ moodyTrees_gives (.inl rfl) 0
  have e : countChain.trees 0 ([Tree.node 0 [.node 1 []], .node 1 [.node 2 []]].map treeOf) = (3, [.node 10 []]) := by
    decide +kernel
  rw [e] at h
  exact h

/-- C67 for `fold_trees`. -/
theorem C67_fold (c : Chain σ V W) (hc : c.pathsFirst = true) (poll : C → Option N × C) (s : C) (ns : List N)
    (hb : Begins poll s ns) (hn : c.noPaths = true ∨ ∀ n ∈ ns, ArityOk n) (g : τ → List O → W → τ × O) (w : σ) (t : τ)
    (k : Nat) (hk : k < (c.trees w (ns.map treeOf)).2.length) :
    ∃ F, ∀ fuel ≥ F, ∃ st r, (foldEnd g).lazyCalls (c.collLazyPipe (Api.lazyCollPipe σ poll fuel) fuel) fuel k
        (c.collInit (.new s), none) w t =
          .ok (((eachS (fun t _ b => kept (b.foldS g t)) t 0 (c.trees w (ns.map treeOf)).2).2.take k).map some, st, r) ∧
      ∃ m ≤ ns.length, (c.base st.1).source = polled poll m s := by
  obtain ⟨r, h, -⟩ := C64_fold c hc ns hn g (k + 1) w t
  refine c.coll_begins (foldEnd g) (fun t => by simp [foldEnd, foldDrain]) poll s ns hb k w t _ ?_ r h
  rw [eachS_kept_length]
  exact hk

example : ((foldEnd fun log rs v => (log ++ [v], v + rs.sum)).lazyCalls
      (countChain.collLazyPipe (Api.lazyCollPipe Nat endlessTrees 9) 9) 9 2 (countChain.collInit (.new 0), none) 0 []).toOption.map
      (fun r => (r.1, r.2.2.2)) =
    some ([some 22, some 54], [12, 10, 15, 13, 14, 12]) := by decide +kernel

/-- C67 for `fold_trees` on a source that ends. -/
theorem C67_fold_all (c : Chain σ V W) (hc : c.pathsFirst = true) (poll : C → Option N × C) (s : C) (ns : List N)
    (hb : GivesOnly poll s ns) (hn : c.noPaths = true ∨ ∀ n ∈ ns, ArityOk n) (g : τ → List O → W → τ × O) (w : σ) (t : τ) :
    ∃ F, ∀ fuel ≥ F, ∀ k, ∃ st r, (foldEnd g).lazyCalls (c.collLazyPipe (Api.lazyCollPipe σ poll fuel) fuel) fuel k
        (c.collInit (.new s), none) w t =
          .ok (seen k (eachS (fun t _ b => kept (b.foldS g t)) t 0 (c.trees w (ns.map treeOf)).2).2, st, r) ∧
      ((c.trees w (ns.map treeOf)).2.length < k →
        r = ((c.trees w (ns.map treeOf)).1, (eachS (fun t _ b => kept (b.foldS g t)) t 0 (c.trees w (ns.map treeOf)).2).1)) ∧
      ∃ m ≤ ns.length + 1, (c.base st.1).source = polled poll m s :=
  c.coll_gives (foldEnd g) poll s ns hb w t _ _ fun k => C64_fold c hc ns hn g k w t

example := C67_fold_all countChain rfl moodyTrees 0 _ moodyTrees_gives (.inl rfl) (fun r os v => (r + 1, os.sum + v)) 0 0

/-- C67 for `fold_path`, after stages that drop no node by a closure. -/
theorem C67_foldPath (c : Chain σ V W) (hc : c.keepsAll = true) (poll : C → Option N × C) (s : C) (ns : List N)
    (hb : Begins poll s ns) (hn : ∀ n ∈ ns, ArityOk n) (g : τ → List O → List Nat → W → τ × O) (w : σ) (t : τ)
    (k : Nat) (hk : k < (c.trees w (ns.map treeOf)).2.length) :
    ∃ F, ∀ fuel ≥ F, ∃ st r, (foldPathEnd g).lazyCalls (c.collLazyPipe (Api.lazyCollPipe σ poll fuel) fuel) fuel k
        (c.collInit (.new s), none) w t =
          .ok (((eachS (fun t i b => kept (b.foldPathS g t [i])) t 0 (c.trees w (ns.map treeOf)).2).2.take k).map some, st, r) ∧
      ∃ m ≤ ns.length, (c.base st.1).source = polled poll m s := by
  obtain ⟨r, h, -⟩ := C64_foldPath c hc ns hn g (k + 1) w t
  refine c.coll_begins (foldPathEnd g) (fun t => by simp [foldPathEnd, foldPathDrain]) poll s ns hb k w t _ ?_ r h
  rw [eachS_kept_length (fun t i b => Tree.foldPathS g t [i] b)]
  exact hk

example : let c : Chain Nat Nat Nat := (Chain.source.map fun k v => (k + 1, v + 10)).pruneDepth 1
    ((foldPathEnd fun log (_ : List Unit) p v => (log ++ [(p, v)], ())).lazyCalls
      (c.collLazyPipe (Api.lazyCollPipe Nat endlessTrees 9) 9) 9 2 (c.collInit (.new 0), none) 0 []).toOption.map
      (fun r => r.2.2.2) =
    some [([0, 0], 11), ([0, 1], 12), ([0], 10), ([1, 0], 12), ([1, 1], 13), ([1], 11)] := by decide +kernel

/-- C67 for `fold_path` on a source that ends. -/
theorem C67_foldPath_all (c : Chain σ V W) (hc : c.keepsAll = true) (poll : C → Option N × C) (s : C) (ns : List N)
    (hb : GivesOnly poll s ns) (hn : ∀ n ∈ ns, ArityOk n) (g : τ → List O → List Nat → W → τ × O) (w : σ) (t : τ) :
    ∃ F, ∀ fuel ≥ F, ∀ k, ∃ st r, (foldPathEnd g).lazyCalls (c.collLazyPipe (Api.lazyCollPipe σ poll fuel) fuel) fuel k
        (c.collInit (.new s), none) w t =
          .ok (seen k (eachS (fun t i b => kept (b.foldPathS g t [i])) t 0 (c.trees w (ns.map treeOf)).2).2, st, r) ∧
      ((c.trees w (ns.map treeOf)).2.length < k →
        r = ((c.trees w (ns.map treeOf)).1,
          (eachS (fun t i b => kept (b.foldPathS g t [i])) t 0 (c.trees w (ns.map treeOf)).2).1)) ∧
      ∃ m ≤ ns.length + 1, (c.base st.1).source = polled poll m s :=
  c.coll_gives (foldPathEnd g) poll s ns hb w t _ _ fun k => C64_foldPath c hc ns hn g k w t

example := C67_foldPath_all (.map .source fun w v => (w + 1, v + w)) rfl moodyTrees 0 _ moodyTrees_gives moodyTrees_arity
  (fun r os p v => (r + p.length, os.sum + v)) 0 0

end General

section Binary
variable {C : Type t} {N : Type u} {V W : Type v} [BinNode N V] {σ : Type w} {τ : Type x} {O : Type y}

/-- C67 for binary trees. -/
theorem C67_binary_trees (c : Chain σ V W) (poll : C → Option N × C) (s : C) (ns : List N) (hb : Begins poll s ns) (w : σ)
    (k : Nat) (hk : k < (c.binTrees w (ns.map binTreeOf)).2.length) :
    ∃ F, ∀ fuel ≥ F, ∃ st r, binTreesEnd.lazyCalls (c.binCollLazyPipe (Api.binLazyCollPipe σ poll fuel) fuel) fuel k
        (.new s, none) w () = .ok (((c.binTrees w (ns.map binTreeOf)).2.take k).map some, st, r) ∧
      ∃ m ≤ ns.length, st.1.source = polled poll m s := by
  obtain ⟨r, h, -⟩ := C64_binary_trees c ns (k + 1) w
  exact c.binColl_begins binTreesEnd (fun t => by simp [binTreesEnd, binTreesDrain]) poll s ns hb k w () _ hk r h

example : (binTreesEnd.lazyCalls (countChain.binCollLazyPipe (Api.binLazyCollPipe Nat endlessBins 9) 9) 9 2
      (.new 0, none) 0 ()).toOption.map (fun r => (r.1, r.2.1.1.source)) =
    some ((countChain.binTrees 0 ([0, 1, 2].filterMap fun i => (endlessBins i).1)).2.map some, 4) := by
  decide +kernel

/-- C67 for binary trees on a source that ends. -/
theorem C67_binary_trees_all (c : Chain σ V W) (poll : C → Option N × C) (s : C) (ns : List N) (hb : GivesOnly poll s ns)
    (w : σ) :
    ∃ F, ∀ fuel ≥ F, ∀ k, ∃ st r, binTreesEnd.lazyCalls (c.binCollLazyPipe (Api.binLazyCollPipe σ poll fuel) fuel) fuel k
        (.new s, none) w () = .ok (seen k (c.binTrees w (ns.map binTreeOf)).2, st, r) ∧
      ((c.binTrees w (ns.map binTreeOf)).2.length < k → r = ((c.binTrees w (ns.map binTreeOf)).1, ())) ∧
      ∃ m ≤ ns.length + 1, st.1.source = polled poll m s :=
  c.binColl_gives binTreesEnd poll s ns hb w () _ _ fun k => C64_binary_trees c ns k w

example := C67_binary_trees_all pathChain moodyBins 0 _ moodyBins_gives 0

/-- C67 for binary trees and `fold_trees`. -/
theorem C67_binary_fold (c : Chain σ V W) (poll : C → Option N × C) (s : C) (ns : List N) (hb : Begins poll s ns)
    (g : τ → Option O × Option O → W → τ × O) (w : σ) (t : τ) (k : Nat)
    (hk : k < (c.binTrees w (ns.map binTreeOf)).2.length) :
    ∃ F, ∀ fuel ≥ F, ∃ st r, (binFoldEnd g).lazyCalls (c.binCollLazyPipe (Api.binLazyCollPipe σ poll fuel) fuel) fuel k
        (.new s, none) w t =
          .ok (((eachS (fun t _ b => kept (b.foldS g t)) t 0 (c.binTrees w (ns.map binTreeOf)).2).2.take k).map some, st, r) ∧
      ∃ m ≤ ns.length, st.1.source = polled poll m s := by
  obtain ⟨r, h, -⟩ := C64_binary_fold c ns g (k + 1) w t
  refine c.binColl_begins (binFoldEnd g) (fun t => by simp [binFoldEnd, binFoldDrain]) poll s ns hb k w t _ ?_ r h
  rw [eachS_kept_length]
  exact hk

example := C67_binary_fold countChain endlessBins 0 _ (endlessBins_begins 3) (fun r os v => (r + 1, os.1.getD 0 + os.2.getD 0 + v)) 0 0 1 (by decide +kernel)

/-- C67 for binary trees and `fold_trees` on a source that ends. -/
theorem C67_binary_fold_all (c : Chain σ V W) (poll : C → Option N × C) (s : C) (ns : List N) (hb : GivesOnly poll s ns)
    (g : τ → Option O × Option O → W → τ × O) (w : σ) (t : τ) :
    ∃ F, ∀ fuel ≥ F, ∀ k, ∃ st r, (binFoldEnd g).lazyCalls (c.binCollLazyPipe (Api.binLazyCollPipe σ poll fuel) fuel) fuel k
        (.new s, none) w t =
          .ok (seen k (eachS (fun t _ b => kept (b.foldS g t)) t 0 (c.binTrees w (ns.map binTreeOf)).2).2, st, r) ∧
      ((c.binTrees w (ns.map binTreeOf)).2.length < k → r = ((c.binTrees w (ns.map binTreeOf)).1,
        (eachS (fun t _ b => kept (b.foldS g t)) t 0 (c.binTrees w (ns.map binTreeOf)).2).1)) ∧
      ∃ m ≤ ns.length + 1, st.1.source = polled poll m s :=
  c.binColl_gives (binFoldEnd g) poll s ns hb w t _ _ fun k => C64_binary_fold c ns g k w t

example := C67_binary_fold_all pathChain moodyBins 0 _ moodyBins_gives (fun r os v => (r + 1, os.1.getD 0 + os.2.getD 0 + v)) 0 0

/-- C67 for binary trees and `fold_path`. -/
theorem C67_binary_foldPath (c : Chain σ V W) (poll : C → Option N × C) (s : C) (ns : List N) (hb : Begins poll s ns)
    (g : τ → Option O × Option O → List Nat → W → τ × O) (w : σ) (t : τ) (k : Nat)
    (hk : k < (c.numbered w (ns.map binTreeOf)).2.length) :
    ∃ F, ∀ fuel ≥ F, ∃ st r, (binFoldPathEnd g).lazyCalls (c.binCollLazyPipe (Api.binLazyCollPipe σ poll fuel) fuel) fuel k
        (.new s, none) w t =
          .ok (((eachS (fun t _ ib => kept (ib.2.foldPathS g t [ib.1])) t 0
            (c.numbered w (ns.map binTreeOf)).2).2.take k).map some, st, r) ∧
      ∃ m ≤ ns.length, st.1.source = polled poll m s := by
  obtain ⟨r, h, -⟩ := C64_binary_foldPath c ns g (k + 1) w t
  refine c.binColl_begins (binFoldPathEnd g) (fun t => by simp [binFoldPathEnd, binFoldPathDrain]) poll s ns hb k w t _ ?_ r h
  rw [eachS_kept_length (fun t _ (ib : Nat × BinTree W) => ib.2.foldPathS g t [ib.1])]
  exact hk

/-- The paths begin with the number the tree has in the source. -/
example : let c : Chain Nat Nat Nat := (Chain.source.map fun k v => (k + 1, v + 10)).prune fun k v => (k, v == 11)
    ((binFoldPathEnd fun log (_ : Option Unit × Option Unit) p v => (log ++ [(p, v)], ())).lazyCalls
      (c.binCollLazyPipe (Api.binLazyCollPipe Nat endlessBins 9) 9) 9 2 (.new 0, none) 0 []).toOption.map (fun r => r.2.2.2) =
    some [([0, 1], 12), ([0], 10), ([2, 0, 1], 15), ([2, 0], 13), ([2, 1], 14), ([2], 12)] := by decide +kernel

/-- C67 for binary trees and `fold_path` on a source that ends. -/
theorem C67_binary_foldPath_all (c : Chain σ V W) (poll : C → Option N × C) (s : C) (ns : List N) (hb : GivesOnly poll s ns)
    (g : τ → Option O × Option O → List Nat → W → τ × O) (w : σ) (t : τ) :
    ∃ F, ∀ fuel ≥ F, ∀ k, ∃ st r, (binFoldPathEnd g).lazyCalls (c.binCollLazyPipe (Api.binLazyCollPipe σ poll fuel) fuel)
        fuel k (.new s, none) w t =
          .ok (seen k (eachS (fun t _ ib => kept (ib.2.foldPathS g t [ib.1])) t 0 (c.numbered w (ns.map binTreeOf)).2).2, st, r) ∧
      ((c.numbered w (ns.map binTreeOf)).2.length < k → r = ((c.numbered w (ns.map binTreeOf)).1,
        (eachS (fun t _ ib => kept (ib.2.foldPathS g t [ib.1])) t 0 (c.numbered w (ns.map binTreeOf)).2).1)) ∧
      ∃ m ≤ ns.length + 1, st.1.source = polled poll m s :=
  c.binColl_gives (binFoldPathEnd g) poll s ns hb w t _ _ fun k => C64_binary_foldPath c ns g k w t

example := C67_binary_foldPath_all pathChain moodyBins 0 _ moodyBins_gives (fun r os p v => (r + p.length, os.1.getD 0 + os.2.getD 0 + v)) 0 0

/-- C67, the limit: if a `prune` drops the root of every tree of an endless source, the first call never returns. -/
theorem C67_binary_starves (poll : C → Option N × C) (s : C) (hp : ∀ c, (poll c).1 ≠ none) (w : Unit) (fuel : Nat) :
    binTreesEnd.lazyNext ((Chain.source.prune fun (w : Unit) (_ : V) => (w, true)).binCollLazyPipe
      (Api.binLazyCollPipe Unit poll fuel) fuel) fuel (.new s, none) w () = .error .outOfFuel := by
  show binTreesEnd.lazyLoop ((Api.binLazyCollPipe Unit poll fuel).binPrunePath fuel fun w _ _ => (w, true)) fuel (.new s)
    w [] () = _
  cases fuel with
  | zero => rfl
  | succ fuel =>
    rw [CollEnd.lazyLoop]
    simp only [Source.binPrunePath, binPruneNext_starves poll hp fuel (fuel + 1) (.new s) w ⟨rfl, fun d hd => by
      simp [LazyCollPipe.State.new] at hd⟩]

example : binTreesEnd.lazyNext ((Chain.source.prune fun (w : Unit) (_ : Nat) => (w, true)).binCollLazyPipe
    (Api.binLazyCollPipe Unit endlessBins 1000) 1000) 1000 (.new 0, none) () () = .error .outOfFuel :=
  C67_binary_starves endlessBins 0 (fun _ => by simp [endlessBins]) () 1000

end Binary

end TreeIter
