import Verif.Lemmas.PathBufOwn
import Verif.Lemmas.PathBufMaps
import Verif.Props.PathBuf
import Verif.Props.Chain

/-! # The slice that `map_path` hands to its closure, after other stages (C59) -/

universe u v w

namespace TreeIter

variable {N : Type u} {V W : Type v} {σ : Type w}

/-! ## Where it holds -/

/-- C59 where it holds, after any stages: on a tree no higher than the first allocation of a vector has room for, no call
panics and no call of the closure gets a slice of freed memory. -/
theorem C59_stages_partial [TreeNode N V] (grow : Nat → Nat) (c : Chain σ V W) (f : σ → Slice → W → σ) (n : N) (w : σ)
    (hn : (treeOf n).height ≤ grow 0) (k : Nat) :
    ∃ o, Api.mapPathSliceAfter grow c f n w k = .ok o ∧ ∀ x, o = some x → x.dangles = false := by
  have hk := Track.keeps_src (N := N) σ 0 (lev n)
  have hp := Proj.ofSource (Track.pipe (N := N) σ) (Track.spied.after grow)
  have hl : lev n ≤ grow 0 := hn
  refine (c.firm hp hk (Track.firm_src hl) (by omega)).slices ((c.proj grow hp).keeps (c.keeps hk))
    ((c.runs hk (Track.pipe_runs fun s hs => by simpa using hs.1)).comap (c.proj grow hp)) f k ?_
    (c.fixed_init (.inr ⟨rfl, rfl⟩))
  show c.Lift _ _ (c.unbuf _ (c.bufInit _))
  rw [c.unbuf_init]
  exact c.lift_init (Track.src_new n [] (Nat.le_refl _))

/-- C59 with `prune_depth(d)` among the stages, `d` being at most what the first allocation has room for: it holds on every tree,
however high. -/
theorem C59_stages_depth_partial [TreeNode N V] (grow : Nat → Nat) (c : Chain σ V W) (d : Nat) (hc : c.cutsAt d = true)
    (hd : d ≤ grow 0) (f : σ → Slice → W → σ) (n : N) (w : σ) (k : Nat) :
    ∃ o, Api.mapPathSliceAfter grow c f n w k = .ok o ∧ ∀ x, o = some x → x.dangles = false := by
  have hk := Track.keeps_cut (N := N) σ d
  have hp := Proj.ofSource (Track.pipe (N := N) σ) (Track.spied.after grow)
  refine (c.firm hp hk (Track.firm_cut hd) hd).slices
    ((c.proj grow hp).keeps (c.keeps_cut hk (Track.ends_cut σ d) Track.cut_low hc))
    ((c.runs hk (Track.pipe_runs fun s hs => by simpa using hs.1.1)).comap (c.proj grow hp)) f k ?_
    (c.fixed_init (.inr ⟨rfl, rfl⟩))
  show c.Lift _ _ (c.unbuf _ (c.bufInit _))
  rw [c.unbuf_init]
  exact c.lift_init (Track.cut_new n d)

/-- C59 where it holds, after any stages on a binary tree. -/
theorem C59_binary_stages_partial [BinNode N V] (grow : Nat → Nat) (c : Chain σ V W) (f : σ → Slice → W → σ) (n : N) (w : σ)
    (hn : (binTreeOf n).toTree.height ≤ grow 0) (k : Nat) :
    ∃ o, Api.binMapPathSliceAfter grow c f n w k = .ok o ∧ ∀ x, o = some x → x.dangles = false := by
  have hk := Track.binKeeps_src (N := N) σ 0 (lev n)
  have hp := Proj.ofSource (Track.binPipe (N := N) σ) (Track.binSpied.after grow)
  rw [← treeOf_eq_toTree] at hn
  have hl : lev n ≤ grow 0 := hn
  exact (c.binFirm hp hk (Track.binFirm_src hl)).slices ((c.binProj hp).keeps (c.binKeeps hk))
    ((c.binRuns hk (Track.binPipe_runs fun s hs => by simpa using hs.1)).comap (c.binProj hp)) f k
    (Track.binSrc_new n [] (Nat.le_refl _)) (c.bin_fixed (.inr ⟨rfl, rfl⟩))

/-- C59 with `prune_depth(d)` among the stages on a binary tree. -/
theorem C59_binary_stages_depth_partial [BinNode N V] (grow : Nat → Nat) (c : Chain σ V W) (d : Nat) (hc : c.cutsAt d = true)
    (hd : d ≤ grow 0) (f : σ → Slice → W → σ) (n : N) (w : σ) (k : Nat) :
    ∃ o, Api.binMapPathSliceAfter grow c f n w k = .ok o ∧ ∀ x, o = some x → x.dangles = false := by
  have hk := Track.binKeeps_cut (N := N) σ d
  have hp := Proj.ofSource (Track.binPipe (N := N) σ) (Track.binSpied.after grow)
  exact (c.binFirm hp hk (Track.binFirm_cut hd)).slices
    ((c.binProj hp).keeps (c.binKeeps_cut hk (Track.binEnds_cut σ d) Track.cut_low hc))
    ((c.binRuns hk (Track.binPipe_runs fun s hs => by simpa using hs.1.1)).comap (c.binProj hp)) f k
    (Track.cut_new n d) (c.bin_fixed (.inr ⟨rfl, rfl⟩))

/-! ## After `map_tree` stages only: the slices directly after `into_pipeline()` -/

/-- C59 after any number of `map_tree` stages, exactly: the slices are those directly after `into_pipeline()`. -/
theorem C59_maps [TreeNode N V] (grow : Nat → Nat) (c : Chain σ V W) (hc : c.mapsOnly = true) (f : σ → Slice → W → σ) (n : N)
    (w : σ) (hg : 0 < grow 0) :
    (∀ k, Api.mapPathSliceAfter grow c f n w k = Api.mapPathSlice (V := V) grow n k) ∧
    ((∃ k x, Api.mapPathSliceAfter grow c f n w k = .ok (some x) ∧ x.dangles = true) ↔
      ∃ d ∈ (treeOf n).depths.dropLast, grow 0 ≤ d) := by
  have h : ∀ k, Api.mapPathSliceAfter grow c f n w k = Api.mapPathSlice (V := V) grow n k := fun k => by
    refine ((c.erases grow (Track.spied_is.erases grow) hc).slices f k _ w).trans ?_
    rw [Function.comp, c.srcSt_init]
    rfl
  exact ⟨h, by simp only [h]; exact C59_map_path_iff grow hg n⟩

/-- C59 after any number of `map_tree` stages on a binary tree, exactly. -/
theorem C59_binary_maps [BinNode N V] (grow : Nat → Nat) (c : Chain σ V W) (hc : c.mapsOnly = true) (f : σ → Slice → W → σ) (n : N)
    (w : σ) (hg : 0 < grow 0) :
    (∀ k, Api.binMapPathSliceAfter grow c f n w k = Api.binMapPathSlice (V := V) grow n k) ∧
    ((∃ k x, Api.binMapPathSliceAfter grow c f n w k = .ok (some x) ∧ x.dangles = true) ↔
      ∃ d ∈ (binTreeOf n).depths.dropLast, grow 0 ≤ d) := by
  have h : ∀ k, Api.binMapPathSliceAfter grow c f n w k = Api.binMapPathSlice (V := V) grow n k := fun k =>
    (c.binErases (Track.binSpied_is.erases grow) hc).slices f k _ w
  exact ⟨h, by simp only [h]; exact C59_map_path_binary_iff grow hg n⟩

/-- C59 after any number of `map_tree` stages on a collection, exactly. -/
theorem C59_collection_maps [TreeNode N V] (grow : Nat → Nat) (c : Chain σ V W) (hc : c.mapsOnly = true) (f : σ → Slice → W → σ)
    (ns : List N) (w : σ) (hg : 0 < grow 0) :
    (∀ k, Api.collMapPathSliceAfter grow c f ns w k = Api.collMapPathSlice (V := V) grow ns k) ∧
    ((∃ k x, Api.collMapPathSliceAfter grow c f ns w k = .ok (some x) ∧ x.dangles = true) ↔
      2 ≤ ns.length ∨ ∃ n ∈ ns, ∃ d ∈ (treeOf n).depths.dropLast, grow 0 ≤ d + 1) := by
  have h : ∀ k, Api.collMapPathSliceAfter grow c f ns w k = Api.collMapPathSlice (V := V) grow ns k := fun k => by
    refine ((c.collErases grow (Track.spied_is.collErases grow Api.startAt) hc).slices f k _ w).trans ?_
    rw [Function.comp, c.srcSt_collInit]
    exact Spied.collMapPath_start grow (Track.spied (N := N)) (start := Api.startAt) (start' := fun n p => .new n p)
      (fun _ _ => rfl) k _
  exact ⟨h, by simp only [h]; exact C59_collection_map_path_iff grow hg ns⟩

/-- C59 after any number of `map_tree` stages on a collection of binary trees, exactly. -/
theorem C59_binary_collection_maps [BinNode N V] (grow : Nat → Nat) (c : Chain σ V W) (hc : c.mapsOnly = true)
    (f : σ → Slice → W → σ) (ns : List N) (w : σ) (hg : 0 < grow 0) :
    (∀ k, Api.binCollMapPathSliceAfter grow c f ns w k = Api.binCollMapPathSlice (V := V) grow ns k) ∧
    ((∃ k x, Api.binCollMapPathSliceAfter grow c f ns w k = .ok (some x) ∧ x.dangles = true) ↔
      2 ≤ ns.length ∨ ∃ n ∈ ns, ∃ d ∈ (binTreeOf n).depths.dropLast, grow 0 ≤ d + 1) := by
  have h : ∀ k, Api.binCollMapPathSliceAfter grow c f ns w k = Api.binCollMapPathSlice (V := V) grow ns k := fun k =>
    ((c.binCollErases (Track.binSpied_is.collErases grow Api.binStartAt) hc).slices f k _ w).trans
      (Spied.collMapPath_start grow (Track.binSpied (N := N)) (start := Api.binStartAt) (start' := fun n p => .new n p)
        (fun _ _ => rfl) k _)
  exact ⟨h, by simp only [h]; exact C59_collection_map_path_binary_iff grow hg ns⟩

example := C59_collection_maps stdGrow (.map (.map .source fun w v => (w + 1, v * 2)) fun w v => (w + v, v)) rfl
  (fun w _ _ => w) [sampleTree, sampleTree] 0 (by decide)

example := C59_binary_collection_maps stdGrow (.map .source fun w v => (w + v, v)) rfl (fun w _ _ => w) [sampleBin, sampleBin] 0
  (by decide)

/-! ## Collections after `prune` or `prune_path` -/

/-- C59 on a collection, if one of the stages is `prune` or `prune_path`: its vector stays when the pipeline goes on to the next
tree.  No call of the closure gets a slice of freed memory if no tree is higher than the first allocation has room for. -/
theorem C59_collection_stages_partial [TreeNode N V] (grow : Nat → Nat) (c : Chain σ V W) (hc : c.ownsPath = true)
    (f : σ → Slice → W → σ) (ns : List N) (w : σ) (hg : 0 < grow 0) (hn : ∀ n ∈ ns, (treeOf n).height ≤ grow 0) (k : Nat)
    (x : Slice) (hx : Api.collMapPathSliceAfter grow c f ns w k = .ok (some x)) : x.dangles = false := by
  have hk := CollPipe.keeps (N := N) (Track.keeps_src (N := N) σ 1 (grow 0)) (ok := fun n => lev n ≤ grow 0)
    (start := Api.startAt) (fun n i hn => Track.src_new n [i] hn)
  have hp := Proj.ofSource (Api.collPipe N σ) (BufPipe.collAfter Track.spied grow Api.startAt)
  refine (c.collFirm (grow := grow) hp hk (by omega) hc).slice ((c.collProj grow hp).keeps (c.collKeeps hk)) f k ?_
    (c.fixed_collInit _ hc) hx
  show c.Lift _ _ (c.unbuf _ (c.collBufInit _ _))
  rw [c.unbuf_collInit]
  exact c.lift_collInit (CollPipe.each_new (Track.Src (N := N) 1 (grow 0)) (fun n => lev n ≤ grow 0) ns hn) (by omega)

/-- A chain with a `prune` that counts its calls, a `map_tree` and a `prune_depth(4)`. -/
def slicedChain : Chain Nat Nat Nat :=
  .pruneDepth (.map (.prune .source fun w v => (w + 1, v % 5 == w)) fun w v => (w, v + 1)) 4

example : slicedChain.cutsAt 4 = true ∧ 4 ≤ stdGrow 0 := by decide

example := C59_stages_depth_partial stdGrow slicedChain 4 (by decide) (by decide) (fun w _ _ => w + 1) (stick 9) 0 3

example : (treeOf sampleTree).height ≤ stdGrow 0 := by decide +kernel

example := C59_stages_partial stdGrow slicedChain (fun w _ _ => w + 1) sampleTree 0 (by decide +kernel) 3

example : slicedChain.ownsPath = true ∧ ∀ n ∈ [sampleTree, .node 10 [], .node 20 [.node 21 []]], (treeOf n).height ≤ stdGrow 0 := by
  decide +kernel

/-- On two trees of one node each: directly after `into_pipeline()` the second call gets a slice of freed memory, after a `prune`
that drops nothing it does not. -/
example : ((List.range 3).map fun k => (Api.collMapPathSliceAfter stdGrow .source (fun w _ _ => w)
      [Tree.node 7 [], Tree.node 8 []] () k).toOption.join.map Slice.dangles,
    (List.range 3).map fun k => (Api.collMapPathSliceAfter stdGrow (.prune .source fun w _ => (w, false)) (fun w _ _ => w)
      [Tree.node 7 [], Tree.node 8 []] () k).toOption.join.map Slice.dangles) =
    ([some false, some true, none], [some false, some false, none]) := by decide +kernel

/-! ## After `prune`, exactly -/

section Own

theorem ownMoves_later {grow : Nat → Nat} (hg : ∀ c, c < grow c) (L : List (Nat × Bool)) : ∀ (c l u : Nat) (m : Bool), 0 < c →
    WalkSteps u L → u ≤ l + 1 →
    (true ∈ ownMoves grow c l m L ↔ (m = true ∧ 0 < l ∧ true ∈ L.map Prod.snd) ∨
      ∃ pre d k post, L = pre ++ (d, k) :: post ∧ c < d ∧ true ∈ ((d, k) :: post).map Prod.snd) := by
  induction L with
  | nil => intro c l u m _ _ _; simp [ownMoves]
  | cons q L ih =>
    intro c l u m hc hst hu
    obtain ⟨d, k⟩ := q
    have hg' := hg c
    have hdl : d ≤ l + 1 := Nat.le_trans hst.1 hu
    cases k with
    | true =>
      rw [ownMoves, List.mem_cons, ih _ d (d + 1) false (by split <;> omega) hst.2 (Nat.le_refl _)]
      constructor
      · rintro (h | h | ⟨pre, e, k, post, rfl, h1, h2⟩)
        · simp only [Bool.true_eq, Bool.and_eq_true, decide_eq_true_eq, Bool.or_eq_true] at h
          rcases h.2 with h2 | h2
          · exact .inl ⟨h2, h.1, by simp⟩
          · exact .inr ⟨[], d, true, L, rfl, h2, by simp⟩
        · exact absurd h.1 (by simp)
        · exact .inr ⟨(d, true) :: pre, e, k, post, rfl, by split at h1 <;> omega, h2⟩
      · rintro (⟨h1, h2, -⟩ | ⟨pre, e, k, post, h1, h2, h3⟩)
        · exact .inl (by simp [h1, h2])
        · by_cases hcd : c < d
          · exact .inl (by have : 0 < l := by omega
                           simp [hcd, this])
          · cases pre with
            | nil =>
              simp only [List.nil_append, List.cons.injEq, Prod.mk.injEq] at h1
              omega
            | cons q pre =>
              simp only [List.cons_append, List.cons.injEq] at h1
              exact .inr (.inr ⟨pre, e, k, post, h1.2, by rw [if_neg hcd]; exact h2, h3⟩)
    | false =>
      rw [ownMoves, ih _ l d _ (by split <;> omega) hst.2 hdl]
      constructor
      · rintro (⟨h1, h2, h3⟩ | ⟨pre, e, k, post, rfl, h1, h2⟩)
        · simp only [Bool.or_eq_true, decide_eq_true_eq] at h1
          rcases h1 with h1 | h1
          · exact .inl ⟨h1, h2, by simpa using h3⟩
          · exact .inr ⟨[], d, false, L, rfl, h1, by simpa using h3⟩
        · exact .inr ⟨(d, false) :: pre, e, k, post, rfl, by split at h1 <;> omega, h2⟩
      · rintro (⟨h1, h2, h3⟩ | ⟨pre, e, k, post, h1, h2, h3⟩)
        · exact .inl ⟨by simp [h1], h2, by simpa using h3⟩
        · cases pre with
          | nil =>
            simp only [List.nil_append, List.cons.injEq, Prod.mk.injEq] at h1
            obtain ⟨⟨rfl, rfl⟩, rfl⟩ := h1
            exact .inl ⟨by simp [h2], by omega, by simpa using h3⟩
          | cons q pre =>
            simp only [List.cons_append, List.cons.injEq] at h1
            by_cases hcd : c < d
            · refine .inl ⟨by simp [hcd], by omega, ?_⟩
              rw [h1.2, List.map_append]
              exact List.mem_append_right _ h3
            · exact .inr ⟨pre, e, k, post, h1.2, by rw [if_neg hcd]; exact h2, h3⟩

theorem ownMoves_start {grow : Nat → Nat} (hg : ∀ c, c < grow c) (L : List (Nat × Bool)) (hst : WalkSteps 1 L) :
    true ∈ ownMoves grow 0 0 false L ↔
      ∃ pre d k post, L = pre ++ (d, k) :: post ∧ grow 0 < d ∧ true ∈ ((d, k) :: post).map Prod.snd := by
  induction L with
  | nil => simp [ownMoves]
  | cons q L ih =>
    obtain ⟨d, k⟩ := q
    have hg' := hg 0
    have hd := hst.1
    have tail : ∀ {P : Prop}, (P ↔ ∃ pre e k post, L = pre ++ (e, k) :: post ∧ grow 0 < e ∧
        true ∈ ((e, k) :: post).map Prod.snd) → (P ↔ ∃ pre e k' post, (d, k) :: L = pre ++ (e, k') :: post ∧ grow 0 < e ∧
          true ∈ ((e, k') :: post).map Prod.snd) := by
      intro P hP
      rw [hP]
      constructor
      · rintro ⟨pre, e, k', post, rfl, h1, h2⟩
        exact ⟨(d, k) :: pre, e, k', post, rfl, h1, h2⟩
      · rintro ⟨pre, e, k', post, h, h1, h2⟩
        cases pre with
        | nil =>
          simp only [List.nil_append, List.cons.injEq, Prod.mk.injEq] at h
          omega
        | cons q pre =>
          simp only [List.cons_append, List.cons.injEq] at h
          exact ⟨pre, e, k', post, h.2, h1, h2⟩
    apply tail
    have hd : d = 0 ∨ d = 1 := by omega
    rcases hd with rfl | rfl
    · cases k with
      | true =>
        simp only [ownMoves, Nat.lt_irrefl, decide_false, Bool.false_and, if_false, List.mem_cons, Bool.true_eq_false, false_or]
        exact ih hst.2
      | false =>
        simp only [ownMoves, Nat.lt_irrefl, decide_false, Bool.or_self, if_false]
        exact ih (hst.2.mono (by simp))
    · cases k with
      | true =>
        simp only [ownMoves, Nat.lt_irrefl, decide_false, Bool.false_and, List.mem_cons, Bool.true_eq_false, false_or,
          Nat.zero_lt_one, if_true]
        rw [ownMoves_later hg L _ 1 2 false (by omega) hst.2 (by omega)]
        simp
      | false =>
        simp only [ownMoves, Nat.zero_lt_one, if_true, decide_true, Bool.or_true]
        rw [ownMoves_later hg L _ 0 1 true (by omega) hst.2 (by omega)]
        simp

variable [TreeNode N V]

/-- C59 for `prune(p).map_path(…)` on a general tree, exactly: the calls of the closure, one for each kept node in preorder, and
which of them get a slice of freed memory. -/
theorem C59_prune (grow : Nat → Nat) (hg : ∀ c, c < grow c) (p : V → Bool) (f : σ → Slice → V → σ) (n : N) (w : σ) :
    ∃ L : List Slice, (∀ k, Api.mapPathSliceAfter grow (.prune .source fun w x => (w, p x)) f n w k = .ok L[k]?) ∧
      L.map Slice.dangles = ownMoves grow 0 0 false ((treeOf n).looks p 0) := by
  have hM := (Proj.ofSource (Track.pipe (N := N) σ) (Track.spied.after grow)).enum (Track.enum (V := V) σ)
  have e : BufPipe.lookL p [(treeOf n).wpaths []] = (treeOf n).looks p 0 := by
    simp [BufPipe.lookL, BufPipe.lookT_wpaths]
  have hst : WalkSteps 1 ((treeOf n).looks p 0) := by
    have := Tree.steps_looks p (treeOf n) 0 (rest := []) trivial
    rw [List.append_nil] at this
    exact this.mono (Nat.zero_le _)
  exact BufPipe.prune_walk hM p hg f _ (.new (Track.State.new n [], .none), .none) [] [(treeOf n).wpaths []] 0 w
    (Track.rel_new n []) ⟨rfl, rfl, Nat.le_refl _⟩ (by rw [e]; exact hst) (by rw [e]; rfl)

/-- C59 fails after `prune(p)` on a general tree exactly if the stage looks at a node deeper than the first allocation of a vector
has room for, and keeps this node or one after it. -/
theorem C59_prune_iff (grow : Nat → Nat) (hg : ∀ c, c < grow c) (p : V → Bool) (f : σ → Slice → V → σ) (n : N) (w : σ) :
    (∃ k x, Api.mapPathSliceAfter grow (.prune .source fun w x => (w, p x)) f n w k = .ok (some x) ∧ x.dangles = true) ↔
      ∃ pre d k post, (treeOf n).looks p 0 = pre ++ (d, k) :: post ∧ grow 0 < d ∧ true ∈ ((d, k) :: post).map Prod.snd := by
  obtain ⟨L, h1, h2⟩ := C59_prune grow hg p f n w
  rw [dangling_iff h1, h2]
  refine ownMoves_start hg _ ?_
  have := Tree.steps_looks p (treeOf n) 0 (rest := []) trivial
  rw [List.append_nil] at this
  exact this.mono (Nat.zero_le _)

end Own

theorem looks_stick (m d : Nat) : (stick m).looks (fun _ => false) d = (List.range' d (m + 1)).map fun i => (i, true) := by
  induction m generalizing d with
  | zero => rfl
  | succ m ih =>
    rw [stick, Tree.looks, Tree.looksL, Tree.looksL, ih, List.append_nil, List.range'_succ (s := d)]
    rfl

/-- C59 is false after `prune`: whatever the growth of vectors, there is a tree on which the closure of `map_path` after
`prune` gets a slice of freed memory, even if nothing is pruned. -/
theorem C59_prune_false (grow : Nat → Nat) (hg : ∀ c, c < grow c) :
    ∃ (t : Tree Nat) (k : Nat) (x : Slice),
      Api.mapPathSliceAfter grow (.prune .source fun w _ => (w, false)) (fun w _ _ => w) t () k = .ok (some x) ∧
        x.dangles = true := by
  refine ⟨stick (grow 0 + 1), (C59_prune_iff grow hg (fun _ => false) (fun w _ _ => w) (stick (grow 0 + 1)) ()).2 ?_⟩
  refine ⟨(List.range' 0 (grow 0 + 1)).map fun i => (i, true), grow 0 + 1, true, [], ?_, Nat.lt_succ_self _, by simp⟩
  rw [treeOf_tree, looks_stick, ← List.range_eq_range', List.range_succ, List.map_append, ← List.range_eq_range']
  rfl

example : ∀ c, c < stdGrow c := by intro c; unfold stdGrow; omega

/-- With the vectors of the standard library: six nodes in a chain; the sixth call gets the path of the node before in the first
allocation of the vector of `prune`, when the path has moved to the second. -/
example : (List.range 7).map (fun k => (Api.mapPathSliceAfter stdGrow (.prune .source fun w _ => (w, false)) (fun w _ _ => w)
    (stick 5) () k).toOption) =
    [some (some ⟨0, 0, 0⟩), some (some ⟨0, 0, 1⟩), some (some ⟨1, 1, 1⟩), some (some ⟨1, 2, 1⟩), some (some ⟨1, 3, 1⟩),
      some (some ⟨1, 4, 2⟩), some none] := by decide +kernel

/-- A node that is dropped moves the vector all the same: the closure's call for the node after it gets a slice of freed
memory. -/
example : (ownMoves stdGrow 0 0 false [(0, true), (1, true), (2, true), (3, true), (4, true), (5, false), (1, true)],
    (Tree.node 1 [.node 1 [.node 1 [.node 1 [.node 1 [.node 0 []]]]], .node 1 []]).looks (· == 0) 0) =
    ([false, false, false, false, false, true],
      [(0, true), (1, true), (2, true), (3, true), (4, true), (5, false), (1, true)]) := by decide +kernel

end TreeIter
