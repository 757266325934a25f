import Verif.Lemmas.FailPipe
import Verif.Props.Fail

/-!
# C71: pipelines whose closures panic
-/

universe u v w

namespace TreeIter

variable {N : Type u} {V W : Type v} {σ : Type w}

/-- `map_tree` with a closure that notes every value, then adds ten to it, and panics at 1. -/
def failMap : List Nat → Nat → List Nat × Option Nat := fun w v => (w ++ [v], if v == 1 then none else some (v + 10))

/-- `prune` with a closure that notes every value, panics at 13 and is true for 12. -/
def failPrune : List Nat → Nat → List Nat × Option Bool :=
  fun w v => (w ++ [v], if v == 13 then none else some (v == 12))

/-- `.map_tree(..).prune(..)` -/
def failChain : FChain (List Nat) Nat Nat := (FChain.source.map failMap).prune failPrune

/-- `.map_tree(..).prune_depth(1)` -/
def failDepth : FChain (List Nat) Nat Nat := (FChain.source.map failMap).pruneDepth 1

/-- `.prune_depth(1).map_tree(..)` -/
def depthFail : FChain (List Nat) Nat Nat := (FChain.source.pruneDepth 1).map failMap

/-! ## What the calls do -/

/-- C71: the replies of the calls on a general tree. -/
theorem C71_replies [TreeNode N V] (bad : N → Bool) (c : FChain σ V W) (n : N) (w : σ) (k : Nat) :
    nthCallE (c.pipe Pipe.treeDepth (Fail.trackPipe bad σ)).call k (c.init (.new n []), w) =
      .ok ((unfold n).replies (c.stepAt bad) 0 w).1[k]? := by
  rw [(FChain.pipe_walks (Fail.trackPipe_walks 0 bad σ) (depthOf := Pipe.treeDepth) (fun _ _ h => congrArg Except.ok h) c).nthCall (c.pend_init (R := Fail.TrackPend 0) (l := [(0, unfold n)]) ?_)]
  · simp [FPipe.repliesP]
  · exact ⟨rfl, rfl, rfl, rfl⟩

example : answersE (failChain.pipe Pipe.treeDepth (Fail.trackPipe badNine _)).call 6 (failChain.init (.new sampleTree []), []) =
    some [some (some 10), some none, some none, some (some 14), none, none] := by decide +kernel

example : answersE (failChain.pipe Pipe.treeDepth (Fail.trackPipe sampleBad _)).call 4 (failChain.init (.new sampleTree []), []) =
    some [some (some 10), some none, none, none] := by decide +kernel

/-- C71: what the closures have seen and done in the end. -/
theorem C71_world [TreeNode N V] (bad : N → Bool) (c : FChain σ V W) (n : N) (w : σ) (k : Nat)
    (hk : ((unfold n).replies (c.stepAt bad) 0 w).1.length < k) :
    ∃ s, stateAfterE (c.pipe Pipe.treeDepth (Fail.trackPipe bad σ)).call k (c.init (.new n []), w) =
      .ok (s, ((unfold n).replies (c.stepAt bad) 0 w).2) := by
  have := (FChain.pipe_walks (Fail.trackPipe_walks 0 bad σ) (depthOf := Pipe.treeDepth) (fun _ _ h => congrArg Except.ok h) c).world (w := w) (k := k)
    (c.pend_init (R := Fail.TrackPend 0) (s := .new n []) (l := [(0, unfold n)]) ⟨rfl, rfl, rfl, rfl⟩)
  simp only [FPipe.repliesP, List.append_nil] at this
  exact this hk

example : ((unfold sampleTree).replies (failChain.stepAt badNine) 0 []).2 = [0, 10, 1, 3, 13, 4, 14, 2, 12] := by decide +kernel

/-- C71: the replies of the calls on a binary tree. -/
theorem C71_binary_replies [BinNode N V] (bad : N → Bool) (c : FChain σ V W) (n : N) (w : σ) (k : Nat) :
    nthCallE (c.binPipe Pipe.treeDepth (Fail.binTrackPipe bad σ)).call k (.new n [], w) =
      .ok ((unfold2 n).toTree.replies (c.stepAt bad) 0 w).1[k]? := by
  rw [(FChain.binPipe_walks (Fail.binTrackPipe_walks 0 bad σ) (depthOf := Pipe.treeDepth) (fun _ _ h => congrArg Except.ok h) c).nthCall (s := .new n []) (l := [(0, unfold n)])
    ⟨rfl, rfl, rfl, rfl⟩, unfold_eq_toTree]
  simp [FPipe.repliesP]

example : answersE (failChain.binPipe Pipe.treeDepth (Fail.binTrackPipe badNineBin _)).call 5 (.new sampleBin [], []) =
    some [some (some 10), some none, some none, none, none] := by decide +kernel

/-- C71: what the closures have seen and done in the end. -/
theorem C71_binary_world [BinNode N V] (bad : N → Bool) (c : FChain σ V W) (n : N) (w : σ) (k : Nat)
    (hk : ((unfold2 n).toTree.replies (c.stepAt bad) 0 w).1.length < k) :
    ∃ s, stateAfterE (c.binPipe Pipe.treeDepth (Fail.binTrackPipe bad σ)).call k (.new n [], w) =
      .ok (s, ((unfold2 n).toTree.replies (c.stepAt bad) 0 w).2) := by
  have := (FChain.binPipe_walks (Fail.binTrackPipe_walks 0 bad σ) (depthOf := Pipe.treeDepth) (fun _ _ h => congrArg Except.ok h) c).world (w := w) (k := k) (s := .new n [])
    (l := [(0, unfold n)]) ⟨rfl, rfl, rfl, rfl⟩
  simp only [FPipe.repliesP, List.append_nil, unfold_eq_toTree] at this
  exact this hk

/-! ## What follows -/

/-- C71: `.map_tree(f)` alone calls its closure for every node in preorder; a panic costs one call. -/
theorem C71_map [TreeNode N V] (f : V → Option W) (n : N) (k : Nat) :
    nthCallE ((FChain.source.map fun (w : Unit) v => (w, f v)).pipe Pipe.treeDepth (Fail.trackPipe (fun _ : N => false) Unit)).call k
      (.new n [], ()) = .ok ((treeOf n).preorder.map f)[k]? := by
  have := C71_replies (fun _ : N => false) (FChain.source.map fun (w : Unit) (v : V) => (w, f v)) n () k
  refine this.trans ?_
  rw [Fail.replies_map, treeOf, Tree.preorder_map, List.map_map]
  rfl

/-- C71: a depth limit holds if no closure of the stages before `prune_depth` panics.  The nodes below the limit are out of reach:
the calls, and the closures, do the same as on the tree without them.  Missing: the stages before panic; then it is false. -/
theorem C71_depth_partial [TreeNode N V] (bad : N → Bool) (c : FChain σ V W) (m : Nat) (hc : c.Limits m) (n : N) (w : σ)
    (k : Nat) :
    nthCallE (c.pipe Pipe.treeDepth (Fail.trackPipe bad σ)).call k (c.init (.new n []), w) =
      .ok (((unfold n).top m).replies (c.stepAt bad) 0 w).1[k]? := by
  rw [C71_replies, Fail.replies_top bad hc]

/-- C71: the same on a binary tree. -/
theorem C71_binary_depth_partial [BinNode N V] (bad : N → Bool) (c : FChain σ V W) (m : Nat) (hc : c.Limits m) (n : N)
    (w : σ) (k : Nat) :
    nthCallE (c.binPipe Pipe.treeDepth (Fail.binTrackPipe bad σ)).call k (.new n [], w) =
      .ok (((unfold2 n).toTree.top m).replies (c.stepAt bad) 0 w).1[k]? := by
  rw [C71_binary_replies, Fail.replies_top bad hc]

example : depthFail.Limits 1 := Or.inl ⟨rfl, trivial⟩

example : answersE (depthFail.pipe Pipe.treeDepth (Fail.trackPipe badNine _)).call 4 (depthFail.init (.new sampleTree []), []) =
    some [some (some 10), some none, some (some 12), none] := by decide +kernel

/-- C71 is false of depth limits: after a caught panic at the depth limit, the nodes below come out. -/
theorem C71_depth_false :
    ¬ ∀ (c : FChain (List Nat) Nat Nat) (f : List Nat → Nat → List Nat × Option Nat) (m : Nat) (t : Tree Nat) (k : Nat),
      c = (FChain.source.map f).pruneDepth m →
      nthCallE (c.pipe Pipe.treeDepth (Fail.trackPipe (fun _ => false) (List Nat))).call k (c.init (.new t []), []) =
        .ok (((unfold t).top m).replies (c.stepAt fun _ => false) 0 []).1[k]? := by
  intro h
  have h1 := congrArg Except.toOption (h failDepth failMap 1 sampleTree 2 rfl)
  have h2 : (nthCallE (failDepth.pipe Pipe.treeDepth (Fail.trackPipe (fun _ => false) (List Nat))).call 2
      (failDepth.init (.new sampleTree []), [])).toOption = some (some (some 13)) := by decide +kernel
  rw [h2] at h1
  exact absurd h1 (by decide +kernel)

example : answersE (failDepth.pipe Pipe.treeDepth (Fail.trackPipe badNine _)).call 6 (failDepth.init (.new sampleTree []), []) =
    some [some (some 10), some none, some (some 13), some (some 14), some (some 12), none] := by decide +kernel

end TreeIter
