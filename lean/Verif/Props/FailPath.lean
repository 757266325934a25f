import Verif.Lemmas.FailPath
import Verif.Props.FailColl

/-!
# C73: positions in pipelines whose closures panic
-/

universe u v w x

namespace TreeIter

variable {N : Type u} {V W : Type v} {σ : Type w} {τ : Type x}

/-- `.map_tree(..).prune_path(..)`: the first closure panics at 1 and adds ten; the second notes the position, panics at `[0, 1]` and
is true for `[1]`. -/
def pathFail : PChain (List (List Nat)) Nat Nat :=
  (PChain.source.map fun w v => (w, if v == 1 then none else some (v + 10))).prunePath fun w p _ =>
    (w ++ [p], if p == [0, 1] then none else some (p == [1]))

/-- `.map_tree(..).prune_depth(1)`; the closure panics at 2. -/
def depthPath : PChain Unit Nat Nat := (PChain.source.map fun w v => (w, if v == 2 then none else some v)).pruneDepth 1

/-! ## General trees -/

/-- C73: the replies of the calls on a general tree.  What the closures of the pruning stage do depends on the position of the node,
and so does what the client `f` does, who looks at `current_path` after every call, also one that panicked.  Missing: a pruning
stage with a closure that looks at positions, or a client that does, after another one; then it is false. -/
theorem C73_replies_partial [TreeNode N V] (bad : N → Bool) (c : PChain σ V W) (hc : c.PathsFirst)
    (f : τ → List Nat → Option W → τ × Bool) (hf : c.exact = true ∨ ∀ t p q o, f t p o = f t q o) (n : N) (hn : ArityOk n)
    (w : σ) (t : τ) (k : Nat) :
    nthCallE ((c.pipe Pipe.treeDepth (Fail.trackPipe bad σ)).drive f).call k (c.init (.new n []), w, t) =
      .ok (((unfold n).addr []).replies (withClient f (c.stepAt bad)) 0 (w, t)).1[k]? := by
  rw [(PChain.drive_walks (Fail.trackPipe_loc 0 bad σ) (depthOf := Pipe.treeDepth) (fun _ _ h => congrArg Except.ok h) c hc hf).nthCall
    (c.pend_init (R := Fail.LocPend 0) (l := [(0, (unfold n).addr [])]) ?_)]
  · simp [FPipe.repliesP]
  · exact ⟨rfl, rfl, hn, rfl, rfl⟩

/-- C73: what the closures and the client have seen in the end. -/
theorem C73_world_partial [TreeNode N V] (bad : N → Bool) (c : PChain σ V W) (hc : c.PathsFirst)
    (f : τ → List Nat → Option W → τ × Bool) (hf : c.exact = true ∨ ∀ t p q o, f t p o = f t q o) (n : N) (hn : ArityOk n)
    (w : σ) (t : τ) (k : Nat) (hk : (((unfold n).addr []).replies (withClient f (c.stepAt bad)) 0 (w, t)).1.length < k) :
    ∃ s, stateAfterE ((c.pipe Pipe.treeDepth (Fail.trackPipe bad σ)).drive f).call k (c.init (.new n []), w, t) =
      .ok (s, (((unfold n).addr []).replies (withClient f (c.stepAt bad)) 0 (w, t)).2) := by
  have := (PChain.drive_walks (Fail.trackPipe_loc 0 bad σ) (depthOf := Pipe.treeDepth) (fun _ _ h => congrArg Except.ok h) c hc hf).world
    (w := (w, t)) (k := k) (c.pend_init (R := Fail.LocPend 0) (s := .new n []) (l := [(0, (unfold n).addr [])]) ⟨rfl, rfl, hn, rfl, rfl⟩)
  simp only [FPipe.repliesP, List.append_nil] at this
  exact this hk

example : pathFail.PathsFirst ∧ depthPath.PathsFirst ∧ depthPath.exact = true := ⟨⟨trivial, .inl rfl⟩, trivial, rfl⟩

example : answersE ((pathFail.pipe Pipe.treeDepth (Fail.trackPipe badNine _)).drive fun (_ : Unit) _ _ => ((), false)).call 6
      (pathFail.init (.new sampleTree []), [], ()) =
    some [some (some 10), some none, some (some 13), some none, none, none] := by decide +kernel

example : ((stateAfterE ((pathFail.pipe Pipe.treeDepth (Fail.trackPipe badNine _)).drive fun (_ : Unit) _ _ => ((), false)).call 6
      (pathFail.init (.new sampleTree []), [], ())).toOption.map fun x => x.2.1) =
    some [[], [0, 0], [0, 1], [1]] := by decide +kernel

example : ((stateAfterE ((depthPath.pipe Pipe.treeDepth (Fail.trackPipe badNine _)).drive (noteClient Option.isNone)).call 6
      (depthPath.init (.new sampleTree []), (), [])).toOption.map fun x => x.2.2) =
    some [([], some 0), ([0], some 1), ([1], none)] := by decide +kernel

/-- C73 for `map_tree`: the client finds every node's position in `current_path`, whether the closure panicked on its value or not. -/
theorem C73_seen [TreeNode N V] (f : V → Option W) (n : N) (hn : ArityOk n) (k : Nat) (hk : (treeOf n).preorder.length < k) :
    ∃ s, stateAfterE (((PChain.source.map fun (w : Unit) v => (w, f v)).pipe Pipe.treeDepth (Fail.trackPipe (fun _ : N => false) Unit)).drive
        (noteClient fun _ => false)).call k (.new n [], (), []) =
      .ok (s, (), ((unfold n).addr []).preorder.map fun x => (x.1, f (val x.2))) := by
  have h := stopAt_note f (fun _ => false) 0 () [] ((unfold n).addr [])
  have h1 : ((unfold n).addr []).preorder.length = (treeOf n).preorder.length := by
    rw [treeOf, Tree.preorder_map, List.length_map]
    exact Tree.addr_length _ _
  have := C73_world_partial (fun _ : N => false) (PChain.source.map fun (w : Unit) (v : V) => (w, f v)) trivial
    (noteClient fun _ => false) (.inl rfl) n hn () [] k (by rw [h, Tree.stopAt_false, List.length_map, h1]; exact hk)
  rw [h, Tree.stopAt_false, List.nil_append] at this
  exact this

/-- C73 for `map_tree` and a client that answers a panic by `prune_current_subtree`: what is below the nodes with a panic is left out,
nothing else. -/
theorem C73_skip [TreeNode N V] (f : V → Option W) (n : N) (hn : ArityOk n) (k : Nat) :
    nthCallE (((PChain.source.map fun (w : Unit) v => (w, f v)).pipe Pipe.treeDepth (Fail.trackPipe (fun _ : N => false) Unit)).drive
        fun (_ : Unit) _ o => ((), o.isNone)).call k (.new n [], (), ()) =
      .ok (((treeOf n).stopAt fun v => (f v).isNone).preorder.map f)[k]? := by
  have := C73_replies_partial (fun _ : N => false) (PChain.source.map fun (w : Unit) (v : V) => (w, f v)) trivial
    (fun (_ : Unit) _ o => ((), o.isNone)) (.inl rfl) n hn () () k
  refine this.trans ?_
  rw [Tree.replies_skip f (unfold n), treeOf]

/-- `.map_tree(..)` with a closure that panics at 1. -/
def skipFail : PChain Unit Nat Nat := PChain.source.map fun w v => (w, if v == 1 then none else some v)

example : answersE ((skipFail.pipe Pipe.treeDepth (Fail.trackPipe badNine Unit)).drive fun (_ : Unit) _ o => ((), o.isNone)).call 5
      (skipFail.init (.new sampleTree []), (), ()) =
    some [some (some 0), some none, some (some 2), some (some 5), none] := by decide +kernel

/-! ## Binary trees -/

/-- C73: the replies of the calls on a binary tree. -/
theorem C73_binary_replies [BinNode N V] (bad : N → Bool) (c : PChain σ V W) (f : τ → List Nat → Option W → τ × Bool) (n : N)
    (w : σ) (t : τ) (k : Nat) :
    nthCallE ((c.binPipe Pipe.treeDepth (Fail.binTrackPipe bad σ)).drive f).call k (.new n [], w, t) =
      .ok (((unfold2 n).addr []).toTree.replies (withClient f (c.stepAt bad)) 0 (w, t)).1[k]? := by
  rw [(PChain.binDrive_walks (Fail.binTrackPipe_loc 0 bad σ) (depthOf := Pipe.treeDepth) (fun _ _ h => congrArg Except.ok h) c f).nthCall
    (s := .new n []) (l := [(0, ((unfold2 n).addr []).toTree)]) ⟨rfl, rfl, rfl, rfl⟩]
  simp [FPipe.repliesP]

/-- C73: what the closures and the client have seen in the end. -/
theorem C73_binary_world [BinNode N V] (bad : N → Bool) (c : PChain σ V W) (f : τ → List Nat → Option W → τ × Bool) (n : N)
    (w : σ) (t : τ) (k : Nat)
    (hk : (((unfold2 n).addr []).toTree.replies (withClient f (c.stepAt bad)) 0 (w, t)).1.length < k) :
    ∃ s, stateAfterE ((c.binPipe Pipe.treeDepth (Fail.binTrackPipe bad σ)).drive f).call k (.new n [], w, t) =
      .ok (s, (((unfold2 n).addr []).toTree.replies (withClient f (c.stepAt bad)) 0 (w, t)).2) := by
  have := (PChain.binDrive_walks (Fail.binTrackPipe_loc 0 bad σ) (depthOf := Pipe.treeDepth) (fun _ _ h => congrArg Except.ok h) c f).world
    (w := (w, t)) (k := k) (s := .new n []) (l := [(0, ((unfold2 n).addr []).toTree)]) ⟨rfl, rfl, rfl, rfl⟩
  simp only [FPipe.repliesP, List.append_nil] at this
  exact this hk

example : ((stateAfterE ((pathFail.binPipe Pipe.treeDepth (Fail.binTrackPipe badNineBin _)).drive (noteClient fun _ => false)).call 6
      (.new sampleBin [], [], [])).toOption.map fun x => x.2) =
    some ([[], [0, 1], [1]], [([], some 10), ([0], none), ([0, 1], none)]) := by decide +kernel

/-! ## Collections -/

/-- C73: the replies of the calls on a collection of general trees; the position starts with the number of the tree. -/
theorem C73_coll_replies_partial [TreeNode N V] (bad : N → Bool) (c : PChain σ V W) (hc : c.PathsFirst)
    (f : τ → List Nat → Option W → τ × Bool) (hf : c.exact = true ∨ ∀ t p q o, f t p o = f t q o) (ns : List N)
    (hn : ∀ n ∈ ns, ArityOk n) (w : σ) (t : τ) (k : Nat) :
    nthCallE ((c.pipe Pipe.collDepth (Fail.collPipe (Fail.trackPipe bad σ) .new)).drive f).call k (c.init (.new ns), w, t) =
      .ok (Tree.repliesL (withClient f (c.stepAt bad)) 0 (w, t) (Tree.addrL [] 0 (ns.map unfold))).1[k]? := by
  rw [(PChain.drive_walks (Fail.collPipe_loc bad σ) (depthOf := Pipe.collDepth) (fun _ _ h => collDepth_length h) c hc hf).nthCall
    (c.pend_init (R := Fail.CollPend ArityOk (Fail.LocPend 1) fun n i => (unfold n).addr [i]) (Fail.collPend_new ns hn))]
  rw [FPipe.repliesP_level]

/-- C73: what the closures and the client have seen in the end. -/
theorem C73_coll_world_partial [TreeNode N V] (bad : N → Bool) (c : PChain σ V W) (hc : c.PathsFirst)
    (f : τ → List Nat → Option W → τ × Bool) (hf : c.exact = true ∨ ∀ t p q o, f t p o = f t q o) (ns : List N)
    (hn : ∀ n ∈ ns, ArityOk n) (w : σ) (t : τ) (k : Nat)
    (hk : (Tree.repliesL (withClient f (c.stepAt bad)) 0 (w, t) (Tree.addrL [] 0 (ns.map unfold))).1.length < k) :
    ∃ s, stateAfterE ((c.pipe Pipe.collDepth (Fail.collPipe (Fail.trackPipe bad σ) .new)).drive f).call k (c.init (.new ns), w, t) =
      .ok (s, (Tree.repliesL (withClient f (c.stepAt bad)) 0 (w, t) (Tree.addrL [] 0 (ns.map unfold))).2) := by
  have := (PChain.drive_walks (Fail.collPipe_loc bad σ) (depthOf := Pipe.collDepth) (fun _ _ h => collDepth_length h) c hc hf).world
    (w := (w, t)) (k := k)
    (c.pend_init (R := Fail.CollPend ArityOk (Fail.LocPend 1) fun n i => (unfold n).addr [i]) (Fail.collPend_new ns hn))
  rw [FPipe.repliesP_level] at this
  exact this hk

example : ((stateAfterE ((depthPath.pipe Pipe.collDepth (Fail.collPipe (Fail.trackPipe badNine _) .new)).drive
      (noteClient fun _ => false)).call 12 (depthPath.init (.new threeTrees), (), [])).toOption.map fun x => x.2.2) =
    some [([0], some 0), ([0, 0], some 1), ([0, 1], none), ([0, 1, 0], some 5), ([1], some 7), ([1, 0], some 8), ([2], none)] := by
  decide +kernel

/-- C73: the replies of the calls on a collection of binary trees. -/
theorem C73_binary_coll_replies [BinNode N V] (bad : N → Bool) (c : PChain σ V W) (f : τ → List Nat → Option W → τ × Bool)
    (ns : List N) (w : σ) (t : τ) (k : Nat) :
    nthCallE ((c.binPipe Pipe.collDepth (Fail.collPipe (Fail.binTrackPipe bad σ) .new)).drive f).call k (.new ns, w, t) =
      .ok (Tree.repliesL (withClient f (c.stepAt bad)) 0 (w, t)
        (ns.zipIdx.map fun x => ((unfold2 x.1).addr [x.2]).toTree)).1[k]? := by
  rw [(PChain.binDrive_walks (Fail.binCollPipe_loc bad σ) (depthOf := Pipe.collDepth) (fun _ _ h => collDepth_length h) c f).nthCall
    (Fail.binCollPend_new ns), FPipe.repliesP_level]

/-- C73: what the closures and the client have seen in the end. -/
theorem C73_binary_coll_world [BinNode N V] (bad : N → Bool) (c : PChain σ V W) (f : τ → List Nat → Option W → τ × Bool)
    (ns : List N) (w : σ) (t : τ) (k : Nat)
    (hk : (Tree.repliesL (withClient f (c.stepAt bad)) 0 (w, t)
      (ns.zipIdx.map fun x => ((unfold2 x.1).addr [x.2]).toTree)).1.length < k) :
    ∃ s, stateAfterE ((c.binPipe Pipe.collDepth (Fail.collPipe (Fail.binTrackPipe bad σ) .new)).drive f).call k (.new ns, w, t) =
      .ok (s, (Tree.repliesL (withClient f (c.stepAt bad)) 0 (w, t)
        (ns.zipIdx.map fun x => ((unfold2 x.1).addr [x.2]).toTree)).2) := by
  have := (PChain.binDrive_walks (Fail.binCollPipe_loc bad σ) (depthOf := Pipe.collDepth) (fun _ _ h => collDepth_length h) c f).world
    (w := (w, t)) (k := k) (Fail.binCollPend_new ns)
  rw [FPipe.repliesP_level] at this
  exact this hk

example : ((stateAfterE ((depthPath.binPipe Pipe.collDepth (Fail.collPipe (Fail.binTrackPipe badNineBin _) .new)).drive
      (noteClient fun _ => false)).call 12 (.new threeBins, (), [])).toOption.map fun x => x.2.2) =
    some [([0], some 0), ([0, 0], some 1), ([0, 1], none), ([0, 1, 0], some 4), ([1], some 7), ([1, 1], some 8), ([2], none)] := by
  decide +kernel

/-! ## A pruning stage on general trees -/

/-- `.map_tree(..).prune(|_| false)`; the closure panics at 1. -/
def staleFail : PChain Unit Nat Nat :=
  (PChain.source.map fun w v => (w, if v == 1 then none else some v)).prunePath fun w _ _ => (w, some false)

/-- 0(1(2)) -/
def threeDeep : Tree Nat := .node 0 [.node 1 [.node 2 []]]

/-- C73 is false of general trees after a stage `prune`: after a panic of a closure before it, `current_path` is the position of
the node before. -/
theorem C73_false :
    ¬ ∀ (c : PChain Unit Nat Nat) (t : Tree Nat) (k : Nat), c.PathsFirst → ArityOk t →
      (((unfold t).addr []).replies (withClient (noteClient fun _ => false) (c.stepAt fun _ => false)) 0 ((), [])).1.length < k →
      ∃ s, stateAfterE ((c.pipe Pipe.treeDepth (Fail.trackPipe (fun _ => false) Unit)).drive (noteClient fun _ => false)).call k
        (c.init (.new t []), (), []) =
        .ok (s, (((unfold t).addr []).replies (withClient (noteClient fun _ => false) (c.stepAt fun _ => false)) 0 ((), [])).2) := by
  intro h
  obtain ⟨s, hs⟩ := h staleFail threeDeep 4 ⟨trivial, .inl rfl⟩ (arityOk_of_le (by decide +kernel)) (by decide +kernel)
  have h1 := congrArg (fun x => x.toOption.map fun y => y.2.2) hs
  have h2 : ((stateAfterE ((staleFail.pipe Pipe.treeDepth (Fail.trackPipe (fun _ => false) Unit)).drive
      (noteClient fun _ => false)).call 4 (staleFail.init (.new threeDeep []), (), [])).toOption.map fun y => y.2.2) =
      some [([], some 0), ([], none), ([0, 0], some 2)] := by decide +kernel
  rw [h2] at h1
  simp only [Except.toOption, Option.map_some] at h1
  clear hs
  exact absurd h1 (by decide +kernel)

/-- Without the panic `current_path` is right on this tree. -/
example : ((stateAfterE (((PChain.source.prunePath fun w _ _ => (w, some false)).pipe Pipe.treeDepth
      (Fail.trackPipe (fun _ => false) Unit)).drive (noteClient fun _ => false)).call 4
      ((PChain.source.prunePath fun w _ _ => (w, some false)).init (.new threeDeep []), (), [])).toOption.map fun y => y.2.2) =
    some [([], some 0), ([0], some 1), ([0, 0], some 2)] := by decide +kernel

end TreeIter
