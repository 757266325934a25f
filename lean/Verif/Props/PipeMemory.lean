import Verif.Props.CollectionPipeline
import Verif.Lemmas.PipeMemory
import Verif.Props.Chain
import Verif.Props.Samples

/-! # C63: a chain of stages keeps one stack of the tree -/

universe u v w

namespace TreeIter

variable {N : Type u} {V W : Type v} {σ : Type w}

/-- C63 on general trees: at every moment between calls each vector of the pipeline is shorter than the tree is high; there
are two for the source and two for each stage that drops nodes by a closure. -/
theorem C63_pipeline [TreeNode N V] (c : Chain σ V W) (n : N) (s : c.St (Track.State N (List N) N))
    (h : (c.pipe (Track.pipe σ)).Reach (c.init (Api.start n)) s) :
    (∀ l ∈ c.lens Track.lens s, l < (treeOf n).height) ∧ (c.lens Track.lens s).length = 2 + 2 * c.prunes := by
  have hp : 0 < (treeOf n).height := height_pos _
  have hk := Track.keeps_src (N := N) σ 0 (lev n)
  have := (c.keeps hk).reach (c.lift_init (Track.src_new n [] (Nat.le_refl _))) h
  refine ⟨fun l hl => ?_, c.lens_length (m := Track.lens) (b := 2) (fun _ => rfl) s⟩
  have h1 := c.lens_le (m := Track.lens) (fun s hs l hl => ?_) s this l hl
  · simp only [lev] at h1; omega
  · obtain ⟨h1, h2, -⟩ := hs
    simp only [Track.lens, List.mem_cons, List.not_mem_nil, or_false] at hl
    rcases hl with rfl | rfl <;> omega

/-- C63: with `prune_depth(d)` among the stages, the vectors are at most `d` long, however high the tree. -/
theorem C63_pipeline_depth [TreeNode N V] (c : Chain σ V W) (d : Nat) (hd : c.cutsAt d = true) (n : N)
    (s : c.St (Track.State N (List N) N)) (h : (c.pipe (Track.pipe σ)).Reach (c.init (Api.start n)) s) :
    ∀ l ∈ c.lens Track.lens s, l ≤ d := by
  have := (c.keeps_cut (Track.keeps_cut (N := N) σ d) (Track.ends_cut σ d) Track.cut_low hd).reach
    (c.lift_init (Track.cut_new n d)) h
  refine c.lens_le (m := Track.lens) (fun s hs l hl => ?_) s this
  obtain ⟨⟨h1, h2, -⟩, -⟩ := hs
  simp only [Track.lens, List.mem_cons, List.not_mem_nil, or_false] at hl
  rcases hl with rfl | rfl <;> omega

/-- C63 on binary trees: no stage holds anything, and the source's vectors are shorter than the tree is high. -/
theorem C63_binary [BinNode N V] (c : Chain σ V W) (n : N) (s : Track.State N (Option N × Option N) (Option N))
    (h : (c.binPipe (Track.binPipe σ)).Reach (Api.binStart n) s) :
    ∀ l ∈ Track.lens s, l < (binTreeOf n).toTree.height := by
  have hp : 0 < (treeOf n).height := height_pos _
  rw [← treeOf_eq_toTree]
  obtain ⟨h1, h2, -⟩ := (c.binKeeps (Track.binKeeps_src (N := N) σ 0 (lev n))).reach
    (Track.binSrc_new n [] (Nat.le_refl _)) h
  simp only [lev] at h2
  intro l hl
  simp only [Track.lens, List.mem_cons, List.not_mem_nil, or_false] at hl
  rcases hl with rfl | rfl <;> omega

/-- C63 on binary trees with `prune_depth(d)` among the stages. -/
theorem C63_binary_depth [BinNode N V] (c : Chain σ V W) (d : Nat) (hd : c.cutsAt d = true) (n : N)
    (s : Track.State N (Option N × Option N) (Option N)) (h : (c.binPipe (Track.binPipe σ)).Reach (Api.binStart n) s) :
    ∀ l ∈ Track.lens s, l ≤ d := by
  obtain ⟨⟨h1, h2, -⟩, -⟩ := (c.binKeeps_cut (Track.binKeeps_cut (N := N) σ d) (Track.binEnds_cut σ d) Track.cut_low hd).reach
    (Track.cut_new n d) h
  intro l hl
  simp only [Track.lens, List.mem_cons, List.not_mem_nil, or_false] at hl
  rcases hl with rfl | rfl <;> omega

/-- C63 on collections: the vectors are at most as long as the highest tree is high (one more than on a single tree: the path
begins with the number of the tree). -/
theorem C63_collection [TreeNode N V] (c : Chain σ V W) (H : Nat) (hp : 0 < H) (ns : List N)
    (hH : ∀ n ∈ ns, (treeOf n).height ≤ H) (s : c.St (CollPipe.State N (Track.State N (List N) N)))
    (h : (c.collPipe (Api.collPipe N σ)).Reach (c.collInit (.new ns)) s) :
    ∀ l ∈ c.lens (CollPipe.lens Track.lens) s, l ≤ H := by
  have hk := c.collKeeps (CollPipe.keeps (N := N) (Track.keeps_src (N := N) σ 1 H) (ok := fun n => lev n ≤ H)
    (start := Api.startAt) (fun n i hn => Track.src_new n [i] hn))
  have := hk.reach (c.lift_collInit (CollPipe.each_new (Track.Src (N := N) 1 H) (fun n => lev n ≤ H) ns hH) (by omega)) h
  intro l hl
  have h1 := c.lens_le (m := CollPipe.lens Track.lens) (fun s hs l hl => ?_) s this l hl
  · omega
  · obtain ⟨h1, -⟩ := hs
    cases hc : s.current with
    | none => simp [CollPipe.lens, hc] at hl
    | some c =>
      obtain ⟨h2, h3, -⟩ := h1 c hc
      simp only [CollPipe.lens, hc, Option.map_some, Option.getD_some, Track.lens, List.mem_cons, List.not_mem_nil,
        or_false] at hl
      rcases hl with rfl | rfl <;> omega

/-- C63 on collections: with the pipelines of all trees at hand there are two vectors, and two for each stage that drops nodes
by a closure, however many trees there are. -/
theorem C63_collection_number (c : Chain σ V W) (s : c.St (CollPipe.State N (Track.State N (List N) N))) :
    (c.lens (CollPipe.lens Track.lens) s).length ≤ 2 + 2 * c.prunes := by
  induction c with
  | source =>
    obtain ⟨r, i, cur⟩ := s
    cases cur <;> simp [Chain.lens, Chain.prunes, CollPipe.lens, Track.lens]
  | map c f ih => exact ih s
  | prune c f ih => have := ih s.inner; simp only [Chain.lens, Chain.prunes, List.length_cons]; omega
  | prunePath c f ih => have := ih s.inner; simp only [Chain.lens, Chain.prunes, List.length_cons]; omega
  | pruneDepth c d ih => exact ih s

/-- C63 on collections of binary trees. -/
theorem C63_collection_binary [BinNode N V] (c : Chain σ V W) (H : Nat) (ns : List N)
    (hH : ∀ n ∈ ns, (binTreeOf n).toTree.height ≤ H) (s : CollPipe.State N (Track.State N (Option N × Option N) (Option N)))
    (h : (c.binCollPipe (Api.binCollPipe N σ)).Reach (.new ns) s) : ∀ l ∈ CollPipe.lens Track.lens s, l ≤ H := by
  have hk := c.binCollKeeps (CollPipe.keeps (N := N) (Track.binKeeps_src (N := N) σ 1 H) (ok := fun n => lev n ≤ H)
    (start := Api.binStartAt) (fun n i hn => Track.binSrc_new n [i] hn))
  obtain ⟨h1, -⟩ := hk.reach (CollPipe.each_new (Track.BinSrc (N := N) 1 H) (fun n => lev n ≤ H) ns (fun n hn => by
    rw [lev, treeOf_eq_toTree]; exact hH n hn)) h
  intro l hl
  cases hc : s.current with
  | none => simp [CollPipe.lens, hc] at hl
  | some c =>
    obtain ⟨h2, h3, -⟩ := h1 c hc
    simp only [CollPipe.lens, hc, Option.map_some, Option.getD_some, Track.lens, List.mem_cons, List.not_mem_nil,
      or_false] at hl
    rcases hl with rfl | rfl <;> omega

/-! ## Concrete cases -/

/-- The state after `k` calls of `next`. -/
def Pipe.after {S : Type u} (M : Pipe S V σ) : Nat → S → σ → Except Panic S
  | 0, s, _ => .ok s
  | k + 1, s, w =>
    match M.next s w with
    | .error e => .error e
    | .ok (_, s', w') => M.after k s' w'

theorem Pipe.reach_trans {S : Type u} {M : Pipe S V σ} {s s' s'' : S} (h : M.Reach s s') (h' : M.Reach s' s'') :
    M.Reach s s'' := by
  induction h' with
  | start => exact h
  | next _ e ih => exact .next ih e
  | prune _ ih => exact .prune ih

/-- Every client that only calls `next` goes through states of `Reach`. -/
theorem Pipe.reach_after {S : Type u} (M : Pipe S V σ) (k : Nat) (s : S) (w : σ) {s' : S} (h : M.after k s w = .ok s') :
    M.Reach s s' := by
  induction k generalizing s w with
  | zero => cases h; exact .start
  | succ k ih =>
    rw [Pipe.after] at h
    split at h
    · cases h
    · next e => exact Pipe.reach_trans (.next .start e) (ih _ _ h)

theorem ok_of_toOption {ε : Type u} {α : Type v} {x : Except ε α} (h : x.toOption.isSome) : ∃ s, x = .ok s := by
  cases x with
  | error e => cases h
  | ok s => exact ⟨s, rfl⟩

/-- A map and two stages that drop nodes, on a tree of height 3. -/
def memoryChain : Chain Unit Nat Nat :=
  ((Chain.source.map fun _ v => ((), v)).prune fun _ v => ((), v == 1)).prunePath fun _ p _ => ((), p == [0, 5])

example : (List.range 7).map (fun k => ((memoryChain.pipe (Track.pipe Unit)).after k
      (memoryChain.init (Api.start sampleTree)) ()).toOption.map (memoryChain.lens Track.lens)) =
    [some [0, 0, 0, 0, 0, 0], some [0, 0, 0, 0, 0, 0], some [1, 1, 1, 1, 1, 1], some [2, 2, 2, 2, 2, 2],
      some [0, 0, 0, 0, 0, 0], some [0, 0, 0, 0, 0, 0], some [0, 0, 0, 0, 0, 0]] ∧
    (treeOf sampleTree).height = 3 ∧ memoryChain.prunes = 2 := by decide +kernel

example : (List.range 5).map (fun k => (((memoryChain.pruneDepth 1).pipe (Track.pipe Unit)).after k
      ((memoryChain.pruneDepth 1).init (Api.start sampleTree)) ()).toOption.map ((memoryChain.pruneDepth 1).lens Track.lens)) =
    [some [0, 0, 0, 0, 0, 0], some [0, 0, 0, 0, 0, 0], some [1, 1, 1, 1, 1, 1], some [0, 0, 0, 0, 0, 0],
      some [0, 0, 0, 0, 0, 0]] ∧ (memoryChain.pruneDepth 1).cutsAt 1 = true := by decide +kernel

example : (List.range 7).map (fun k => ((Track.binPipe Unit).after k (Api.binStart sampleBin) ()).toOption.map Track.lens) =
    [some [0, 0], some [0, 0], some [1, 1], some [2, 2], some [1, 1], some [2, 2], some [0, 0]] ∧
    (binTreeOf sampleBin).toTree.height = 3 := by decide +kernel

example : (List.range 8).map (fun k => ((Api.collPipe (Tree Nat) Unit).after k
      (.new [sampleTree, .node 7 []]) ()).toOption.map (CollPipe.lens Track.lens)) =
    [some [], some [1, 0], some [2, 1], some [3, 2], some [3, 2], some [2, 1], some [3, 2], some [1, 0]] ∧
    (treeOf sampleTree).height ≤ 3 := by decide +kernel

example : (List.range 5).map (fun k => ((memoryChain.collPipe (Api.collPipe (Tree Nat) Unit)).after k
      (memoryChain.collInit (.new [sampleTree, .node 7 []])) ()).toOption.map (memoryChain.lens (CollPipe.lens Track.lens))) =
    [some [1, 1, 0, 0], some [1, 1, 1, 1, 1, 0], some [2, 2, 2, 2, 2, 1], some [3, 3, 3, 3, 3, 2],
      some [1, 1, 1, 1, 1, 0]] := by decide +kernel

example : (List.range 7).map (fun k => ((Api.binCollPipe (BinTree Nat) Unit).after k
      (.new [sampleBin]) ()).toOption.map (CollPipe.lens Track.lens)) =
    [some [], some [1, 0], some [2, 1], some [3, 2], some [2, 1], some [3, 2], some [1, 0]] := by decide +kernel

example : ∃ s, (memoryChain.pipe (Track.pipe Unit)).after 3 (memoryChain.init (Api.start sampleTree)) () = .ok s ∧ ∀ l ∈ memoryChain.lens Track.lens s, l < (treeOf sampleTree).height :=
  have ⟨s, h⟩ := ok_of_toOption (show ((memoryChain.pipe (Track.pipe Unit)).after 3 (memoryChain.init (Api.start sampleTree)) ()).toOption.isSome by decide +kernel)
  ⟨s, h, (C63_pipeline memoryChain sampleTree s (Pipe.reach_after _ 3 _ _ h)).1⟩

example : ∃ s, ((memoryChain.pruneDepth 1).pipe (Track.pipe Unit)).after 3 ((memoryChain.pruneDepth 1).init (Api.start sampleTree)) () = .ok s ∧ ∀ l ∈ (memoryChain.pruneDepth 1).lens Track.lens s, l ≤ 1 :=
  have ⟨s, h⟩ := ok_of_toOption (show (((memoryChain.pruneDepth 1).pipe (Track.pipe Unit)).after 3 ((memoryChain.pruneDepth 1).init (Api.start sampleTree)) ()).toOption.isSome by decide +kernel)
  ⟨s, h, C63_pipeline_depth _ 1 rfl sampleTree s (Pipe.reach_after _ 3 _ _ h)⟩

example : ∃ s, (memoryChain.binPipe (Track.binPipe Unit)).after 3 (Api.binStart sampleBin) () = .ok s ∧ ∀ l ∈ Track.lens s, l < (binTreeOf sampleBin).toTree.height :=
  have ⟨s, h⟩ := ok_of_toOption (show ((memoryChain.binPipe (Track.binPipe Unit)).after 3 (Api.binStart sampleBin) ()).toOption.isSome by decide +kernel)
  ⟨s, h, C63_binary memoryChain sampleBin s (Pipe.reach_after _ 3 _ _ h)⟩

example : ∃ s, ((memoryChain.pruneDepth 1).binPipe (Track.binPipe Unit)).after 3 (Api.binStart sampleBin) () = .ok s ∧ ∀ l ∈ Track.lens s, l ≤ 1 :=
  have ⟨s, h⟩ := ok_of_toOption (show (((memoryChain.pruneDepth 1).binPipe (Track.binPipe Unit)).after 3 (Api.binStart sampleBin) ()).toOption.isSome by decide +kernel)
  ⟨s, h, C63_binary_depth (memoryChain.pruneDepth 1) 1 rfl sampleBin s (Pipe.reach_after _ 3 _ _ h)⟩

example : ∃ s, (memoryChain.collPipe (Api.collPipe (Tree Nat) Unit)).after 5 (memoryChain.collInit (.new threeTrees)) () = .ok s ∧ ∀ l ∈ memoryChain.lens (CollPipe.lens Track.lens) s, l ≤ 3 :=
  have ⟨s, h⟩ := ok_of_toOption (show ((memoryChain.collPipe (Api.collPipe (Tree Nat) Unit)).after 5 (memoryChain.collInit (.new threeTrees)) ()).toOption.isSome by decide +kernel)
  ⟨s, h, C63_collection memoryChain 3 (by decide) threeTrees (by decide +kernel) s (Pipe.reach_after _ 5 _ _ h)⟩

example : ∃ s, (memoryChain.binCollPipe (Api.binCollPipe (BinTree Nat) Unit)).after 5 (.new threeBins) () = .ok s ∧ ∀ l ∈ CollPipe.lens Track.lens s, l ≤ 3 :=
  have ⟨s, h⟩ := ok_of_toOption (show ((memoryChain.binCollPipe (Api.binCollPipe (BinTree Nat) Unit)).after 5 (.new threeBins) ()).toOption.isSome by decide +kernel)
  ⟨s, h, C63_collection_binary memoryChain 3 threeBins (by decide +kernel) s (Pipe.reach_after _ 5 _ _ h)⟩

end TreeIter
