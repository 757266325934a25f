import Verif.Lemmas.FailPlace
import Verif.Props.FailFold
import Verif.Props.FailPath

/-!
# C75: the ends of collection pipelines that look at the numbers of the children, after a caught panic

`fold_path` on collections, and all three ends on collections of binary trees.  The panics may come from the nodes, from the stages
and from the closure of the end.  After one of them, the values are put together by their depths only, as in C72 and C74.  The
numbers of the children are those of the real tree.  So a value may be told a position that is not its own, and two values may be
put into the same slot; then only the later one is kept.
-/

universe u v w x y

namespace TreeIter

variable {N : Type u} {V W : Type v} {σ : Type w} {O : Type x} {τ : Type y}

/-- `.map_tree(..)` with a closure that panics at `x`. -/
def panicAt (x : Nat) : PChain Unit Nat Nat := PChain.source.map fun w v => (w, if v == x then none else some v)

/-- Lists the positions and the values, in preorder. -/
def listPlaces (t : Unit) (os : List (List (List Nat × Nat))) (p : List Nat) (v : Nat) : Unit × Option (List (List Nat × Nat)) :=
  (t, some ((p, v) :: os.flatten))

/-- The same for binary trees, with a panic at `x`. -/
def listSlots (x : Nat) (t : List Nat) (os : Option (List (List Nat × Nat)) × Option (List (List Nat × Nat))) (p : List Nat)
    (v : Nat) : List Nat × Option (List (List Nat × Nat)) :=
  (t ++ [v], if v == x then none else some ((p, v) :: (os.1.getD [] ++ os.2.getD [])))

/-- Sums of binary trees, with a panic at `x`; absent slots count 100. -/
def sumSlots (x : Nat) (t : Unit) (os : Option Nat × Option Nat) (v : Nat) : Unit × Option Nat :=
  (t, if v == x then none else some (v + os.1.getD 100 + os.2.getD 100))

local instance : DecidableEq (List (List Nat × Nat)) := inferInstance
local instance : DecidableEq (Option (Option (List (List Nat × Nat)))) := inferInstance

/-! ## `fold_path` on general trees -/

/-- C75: the answers of `fold_path` on a collection of general trees, with panics anywhere.  Missing: pruning stages with closures
before it, for which the positions are wrong even without a panic (C59). -/
theorem C75_fold_path_partial [TreeNode N V] (bad : N → Bool) (c : PChain σ V W) (hc : c.exact = true)
    (f : τ → List O → List Nat → W → τ × Option O) (ns : List N) (hn : ∀ n ∈ ns, ArityOk n) (w : σ) (t : τ) (k : Nat) :
    nthCallE ((foldPathEndF f).call (c.collPipeF bad)) k ((c.init (.new ns), none), w, t) =
      .ok (placeAnswers (fun t os x => f t os x.1 x.2) t [] (c.collReplies bad ns w))[k]? := by
  have hM := PChain.pipe_walks (Fail.collPipe_loc bad σ) (depthOf := Pipe.collDepth) (fun _ _ h => collDepth_length h) c
    (c.pathsFirst_of_exact hc)
  rw [hc] at hM
  rw [PChain.end_calls hM (fun h => ⟨h.1, h.1 ▸ h.2⟩) (foldPathEndF_sim f)
    (fun {d n p} h => List.ne_nil_of_length_pos (by have := FPipe.pathAt_length h; omega))
    (c.pend_init (R := Fail.CollPend ArityOk (Fail.LocPend 1) fun n i => (unfold n).addr [i]) (Fail.collPend_new ns hn)),
    FPipe.repliesP_level]
  simp only [Option.map_id_fun, List.map_id_fun, id_eq]
  rfl

/-- A panic at 1 loses 0; then 3, at `[0, 0, 0]`, is told `[0]`. -/
example : answersE ((foldPathEndF listPlaces).call ((panicAt 1).collPipeF fun _ => false)) 5
      (((panicAt 1).init (.new threeTrees), none), (), ()) =
    some [some none, some (some [([0], 3), ([0, 1], 4), ([0, 1], 2), ([0, 1, 0], 5)]), some (some [([1], 7), ([1, 0], 8)]),
      some (some [([2], 9)]), none] := by decide +kernel

/-! ## Collections of binary trees -/

/-- C75: the answers of `fold_trees` on a collection of binary trees, with panics anywhere. -/
theorem C75_binary_fold [BinNode N V] (bad : N → Bool) (c : PChain σ V W) (f : τ → Option O × Option O → W → τ × Option O)
    (ns : List N) (w : σ) (t : τ) (k : Nat) :
    nthCallE ((binFoldEndF f).call (c.binCollPipeF bad)) k ((.new ns, none), w, t) =
      .ok ((placeAnswers (slotClosure fun t os _ v => f t os v) t [] (c.binCollReplies bad ns w)).map (Option.map Prod.snd))[k]? :=
  c.bin_calls bad (binFoldEndF_slots f) ns w t k

example : answersE ((binFoldEndF (sumSlots 8)).call ((panicAt 1).binCollPipeF badNineBin)) 4
      ((.new threeBins, none), (), ()) =
    some [some none, some (some 409), some none, none] := by decide +kernel

/-- C75: the answers of `fold_path` on a collection of binary trees, with panics anywhere. -/
theorem C75_binary_fold_path [BinNode N V] (bad : N → Bool) (c : PChain σ V W)
    (f : τ → Option O × Option O → List Nat → W → τ × Option O) (ns : List N) (w : σ) (t : τ) (k : Nat) :
    nthCallE ((binFoldPathEndF f).call (c.binCollPipeF bad)) k ((.new ns, none), w, t) =
      .ok ((placeAnswers (slotClosure f) t [] (c.binCollReplies bad ns w)).map (Option.map Prod.snd))[k]? :=
  c.bin_calls bad (binFoldPathEndF_slots f) ns w t k

example : answersE ((binFoldPathEndF (listSlots 7)).call (depthPath.binCollPipeF fun _ => false)) 4
      ((.new threeBins, none), (), []) =
    some [some none, some (some [([0], 4)]), some none, none] := by decide +kernel

/-- C75: the answers of `trees()` on a collection of binary trees.  Of several children with the same number the last one is
kept. -/
theorem C75_binary_trees [BinNode N V] (bad : N → Bool) (c : PChain σ V W) (ns : List N) (w : σ) (k : Nat) :
    nthCallE (binTreesEnd.callF (c.binCollPipeF bad)) k ((.new ns, none), w, ()) =
      .ok ((batches [] (c.binCollReplies bad ns w)).map (·.bind fun b => (regroup b).map fun s => s.toSlots.2))[k]? := by
  rw [CollEnd.callF_toF, c.bin_calls bad binTreesEnd_slots, placeAnswers_total (by simp [slotClosure, nodeClosure]), List.map_map]
  congr 4
  funext b
  cases b with
  | none => rfl
  | some b =>
    simp only [Function.comp_apply, Option.bind_some, regroupAt]
    cases regroup b with
    | none => rfl
    | some s => simp [toSlots_fold]

example : (answersE (binTreesEnd.callF ((panicAt 1).binCollPipeF badNineBin)) 4 ((.new threeBins, none), (), ())) =
    some [some none, some (some (.node 3 none (some (.node 2 (some (.node 4 none none)) none)))), some none, none] := by decide +kernel

/-- C75: `fold_trees` on a pipeline that has been asked for `j` values before. -/
theorem C75_binary_fold_advanced [BinNode N V] (bad : N → Bool) (c : PChain σ V W)
    (f : τ → Option O × Option O → W → τ × Option O) (ns : List N) (w : σ) (t : τ) (j : Nat) :
    ∃ s w', stateAfterE (c.binCollPipeF bad).call j (.new ns, w) = .ok (s, w') ∧
      ∀ k, nthCallE ((binFoldEndF f).call (c.binCollPipeF bad)) k ((s, none), w', t) =
        .ok ((placeAnswers (slotClosure fun t os _ v => f t os v) t [] ((c.binCollReplies bad ns w).drop j)).map
          (Option.map Prod.snd))[k]? :=
  c.bin_calls_advanced bad (binFoldEndF_slots f) ns w t j

/-- C75: `fold_path` on a pipeline that has been asked for `j` values before. -/
theorem C75_binary_fold_path_advanced [BinNode N V] (bad : N → Bool) (c : PChain σ V W)
    (f : τ → Option O × Option O → List Nat → W → τ × Option O) (ns : List N) (w : σ) (t : τ) (j : Nat) :
    ∃ s w', stateAfterE (c.binCollPipeF bad).call j (.new ns, w) = .ok (s, w') ∧
      ∀ k, nthCallE ((binFoldPathEndF f).call (c.binCollPipeF bad)) k ((s, none), w', t) =
        .ok ((placeAnswers (slotClosure f) t [] ((c.binCollReplies bad ns w).drop j)).map (Option.map Prod.snd))[k]? :=
  c.bin_calls_advanced bad (binFoldPathEndF_slots f) ns w t j

example : ((stateAfterE ((panicAt 9).binCollPipeF fun _ => false).call 2 (.new threeBins, ())).toOption.bind fun x =>
      answersE ((binFoldPathEndF (listSlots 8)).call ((panicAt 9).binCollPipeF fun _ => false)) 3 ((x.1, none), x.2, [])) =
    some [some (some [([1], 3), ([1, 1], 2), ([1, 1, 0], 4)]), some none, none] := by decide +kernel

/-- C75 for `map_tree` with a closure without state: a tree on whose values it does not panic comes out of `trees()` mapped, if it
does not panic on the next root either.  Missing: what follows the panic in the tree on which it falls; values of it may be lost. -/
theorem C75_binary_map_partial [BinNode N V] (f : V → Option W) (g : V → W) (ns₁ : List N) (n : N) (ns₂ : List N)
    (hn : ∀ v ∈ (binTreeOf n).toTree.preorder, f v = some (g v)) (hnext : ∀ m ∈ ns₂.head?, f (val2 m) ≠ none) :
    ∃ k, nthCallE (binTreesEnd.callF ((PChain.source.map fun (w : Unit) (v : V) => (w, f v)).binCollPipeF fun _ => false)) k
      ((.new (ns₁ ++ n :: ns₂), none), (), ()) = .ok (some (some ((binTreeOf n).map g))) := by
  have hrep : ∀ (b : BinTree N) (p : List Nat), (∀ v ∈ (b.map val2).toTree.preorder, f v = some (g v)) → ∀ d,
      ((b.addr p).toTree.replies ((PChain.source.map fun (w : Unit) (v : V) => (w, f v)).placeAt fun _ => false) d ()).1 =
        (((b.addr p).toTree.map fun x => (x.1.getLast?.getD 0, g (val2 x.2))).levels d).map some := by
    intro b
    induction b using BinTree.ind with
    | h a l r ihl ihr =>
      intro p hv d
      have ha : f (val2 a) = some (g (val2 a)) := hv _ (by simp [BinTree.map, BinTree.toTree, Tree.preorder])
      have hl : ∀ c ∈ l, ∀ v ∈ (c.map val2).toTree.preorder, f v = some (g v) := by
        intro c hc v h
        rw [Option.mem_def] at hc
        subst hc
        exact hv v (by simp [BinTree.map, BinTree.toTree, Tree.preorder_node, BinTree.mapO, BinTree.slotTrees, h])
      have hr : ∀ c ∈ r, ∀ v ∈ (c.map val2).toTree.preorder, f v = some (g v) := by
        intro c hc v h
        rw [Option.mem_def] at hc
        subst hc
        exact hv v (by simp [BinTree.map, BinTree.toTree, Tree.preorder_node, BinTree.mapO, BinTree.slotTrees, h])
      have hval : val a = val2 a := rfl
      rw [BinTree.addr, BinTree.toTree, Tree.map, Tree.levels, Tree.replies]
      have hs : (PChain.source.map fun (w : Unit) (v : V) => (w, f v)).placeAt (fun _ => false) () d (p, a) =
          ((), some (some (d, p.getLast?.getD 0, g (val2 a)), true)) := by
        simp [PChain.placeAt, PChain.stepAt, PChain.step, hval, ha]
      rw [hs]
      cases l with
      | none =>
        cases r with
        | none => rfl
        | some r =>
          simp [BinTree.addrO, BinTree.slotTrees, Tree.repliesL, Tree.mapL, Tree.levelsL, ihr r rfl _ (hr r rfl)]
      | some l =>
        cases r with
        | none =>
          simp [BinTree.addrO, BinTree.slotTrees, Tree.repliesL, Tree.mapL, Tree.levelsL, ihl l rfl _ (hl l rfl)]
        | some r =>
          simp [BinTree.addrO, BinTree.slotTrees, Tree.repliesL, Tree.mapL, Tree.levelsL, ihl l rfl _ (hl l rfl),
            ihr r rfl _ (hr r rfl)]
  have hslot : ∀ (b : BinTree N) (p : List Nat), ((b.addr p).toTree.map fun x => (x.1.getLast?.getD 0, g (val2 x.2))).toSlots =
      (p.getLast?.getD 0, (b.map val2).map g) := by
    intro b
    induction b using BinTree.ind with
    | h a l r ihl ihr =>
      intro p
      rw [BinTree.addr, BinTree.toTree, Tree.map, Tree.toSlots, BinTree.map, BinTree.map]
      cases l with
      | none =>
        cases r with
        | none => rfl
        | some r => simp [BinTree.addrO, BinTree.slotTrees, Tree.mapL, Tree.toSlotsL, ihr r rfl, lastOf, BinTree.mapO]
      | some l =>
        cases r with
        | none => simp [BinTree.addrO, BinTree.slotTrees, Tree.mapL, Tree.toSlotsL, ihl l rfl, lastOf, BinTree.mapO]
        | some r =>
          simp [BinTree.addrO, BinTree.slotTrees, Tree.mapL, Tree.toSlotsL, ihl l rfl, ihr r rfl, lastOf, BinTree.mapO]
  generalize hc : (PChain.source.map fun (w : Unit) (v : V) => (w, f v)) = c at *
  have hhead : ∀ i, (Tree.repliesL (c.placeAt fun _ => false) 0 () ((ns₂.zipIdx i).map fun x => ((unfold2 x.1).addr [x.2]).toTree)).1 = [] ∨
      ∃ v L, (Tree.repliesL (c.placeAt fun _ => false) 0 () ((ns₂.zipIdx i).map fun x => ((unfold2 x.1).addr [x.2]).toTree)).1 =
        some (0, v) :: L := by
    intro i
    rw [← PChain.placeAt_eq]
    refine CollEnd.repliesL_head _ _ _ ?_
    cases ns₂ with
    | nil => simp [Tree.repliesL]
    | cons m ns₂ =>
      have h1 := hnext m (by simp)
      have hval : val m = val2 m := rfl
      rw [List.zipIdx_cons, List.map_cons, Tree.repliesL, unfold2_eq, BinTree.addr, BinTree.toTree, Tree.replies, PChain.placeAt_eq]
      subst hc
      cases h2 : f (val2 m) with
      | none => exact absurd h2 h1
      | some v => simp [PChain.placeAt, PChain.stepAt, PChain.step, hval, h2]
  have h0 := hrep (unfold2 n) [ns₁.length] hn 0
  obtain ⟨k, hk⟩ := CollEnd.batches_tree (Tree.repliesL (c.placeAt fun _ => false) 0 ()
    (ns₁.zipIdx.map fun x => ((unfold2 x.1).addr [x.2]).toTree)).1
    (((unfold2 n).addr [ns₁.length]).toTree.map fun x => (x.1.getLast?.getD 0, g (val2 x.2))) _ (hhead (ns₁.length + 1))
  refine ⟨k, ?_⟩
  rw [C75_binary_trees, PChain.binCollReplies, List.zipIdx_append, List.map_append, CollEnd.repliesL_append, List.zipIdx_cons,
    List.map_cons, Tree.repliesL]
  rw [← h0] at hk
  rw [List.getElem?_map]
  simp only [Nat.zero_add]
  refine (congrArg Except.ok (congrArg (Option.map _) hk)).trans ?_
  simp [regroup_levels, hslot, binTreeOf]

example : (∀ v ∈ (binTreeOf (.node 7 none (some (.node 8 none none)) : BinTree Nat)).toTree.preorder,
      (if v == 1 then none else some v) = some v) ∧
    (∀ m ∈ threeBins.tail.tail.head?, (if val2 m == 1 then none else some (val2 m)) ≠ none) ∧
    answersE (binTreesEnd.callF ((panicAt 1).binCollPipeF fun _ => false)) 5 ((.new threeBins, none), (), ()) =
      some [some none, some (some (.node 3 none (some (.node 2 (some (.node 4 none none)) none)))), some (some (.node 7 none (some (.node 8 none none)))),
        some (some (.node 9 none none)), none] := by decide +kernel

/-- C75 is false: after a panic, a value that comes later may be lost, though no closure panicked on it or after it. -/
theorem C75_lost_false :
    ¬ ∀ (x : Nat) (t : BinTree Nat) (L₁ L₂ : List Nat) (v : Nat), t.toTree.preorder = L₁ ++ x :: L₂ → x ∉ L₁ ++ L₂ → v ∈ L₂ →
      ∃ k b, nthCallE (binTreesEnd.callF ((panicAt x).binCollPipeF fun _ => false)) k ((.new [t], none), (), ()) =
        .ok (some (some b)) ∧ v ∈ b.toTree.preorder := by
  intro h
  obtain ⟨k, b, h, hv⟩ := h 1 (.node 0 (some (.node 1 (some (.node 2 none none)) (some (.node 3 none none)))) (some (.node 4 none none)))
    [0] [2, 3, 4] 3 (by decide) (by decide) (by decide)
  rw [C75_binary_trees] at h
  have h := List.mem_of_getElem? (Except.ok.inj h)
  have : ∀ x ∈ (batches [] ((panicAt 1).binCollReplies (fun _ => false) [(.node 0 (some (.node 1 (some (.node 2 none none))
      (some (.node 3 none none)))) (some (.node 4 none none)) : BinTree Nat)] ())).map
      (·.bind fun b => (regroup b).map fun s => s.toSlots.2), ∀ b ∈ x, 3 ∉ b.toTree.preorder := by decide +kernel
  exact this _ h b rfl hv

/-- C75 is false: after a panic, the closure of `fold_path` is told a position that is not the one of the node. -/
theorem C75_position_false :
    ¬ ∀ (x : Nat) (ts : List (Tree Nat)) (k : Nat) (l : List (List Nat × Nat)) (p : List Nat) (v : Nat),
      (∀ t ∈ ts, ArityOk t) →
      nthCallE ((foldPathEndF listPlaces).call ((panicAt x).collPipeF fun _ => false)) k (((panicAt x).init (.new ts), none), (), ()) =
        .ok (some (some l)) → (p, v) ∈ l → ∃ y ∈ Tree.addrL [] 0 ts, (p, v) ∈ y.preorder := by
  intro h
  have h1 := C75_fold_path_partial (fun _ => false) (panicAt 1) rfl listPlaces threeTrees threeTrees_arity () () 1
  have h2 := h 1 threeTrees 1 [([0], 3), ([0, 1], 4), ([0, 1], 2), ([0, 1, 0], 5)] [0] 3 threeTrees_arity
    (h1.trans (congrArg Except.ok (by decide +kernel))) (by decide)
  exact absurd h2 (by decide +kernel)

end TreeIter
