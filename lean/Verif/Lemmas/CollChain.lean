import Verif.Spec.CollChain
import Verif.Model.CollChain
import Verif.Lemmas.Chain
import Verif.Lemmas.CollSpec

/-! # Chains of stages on collections -/

universe u v w x y

namespace TreeIter

namespace Chain

variable {S : Type u} {V W Z : Type v} {σ : Type w}

/-- What the chain does with the node at path `p`, which begins with the number of the tree. -/
def collStep {σ : Type w} {V : Type v} : {W : Type v} → Chain σ V W → σ → List Nat → V → σ × Option (W × Bool)
  | _, source, w, _, v => (w, some (v, true))
  | _, map c f, w, p, v =>
    match c.collStep w p v with
    | (w', none) => (w', none)
    | (w', some (y, below)) => ((f w' y).1, some ((f w' y).2, below))
  | _, prune c f, w, p, v =>
    match c.collStep w p v with
    | (w', none) => (w', none)
    | (w', some (y, below)) => ((f w' y).1, if (f w' y).2 then none else some (y, below))
  | _, prunePath c f, w, p, v =>
    match c.collStep w p v with
    | (w', none) => (w', none)
    | (w', some (y, below)) => ((f w' p y).1, if (f w' p y).2 then none else some (y, below))
  | _, pruneDepth c d, w, p, v =>
    match c.collStep w p v with
    | (w', none) => (w', none)
    | (w', some (y, below)) => (w', some (y, below && (p.length - 1 != d)))

theorem collStep_inTree (c : Chain σ V W) (i : Nat) (w : σ) (p : List Nat) (x : V) :
    c.collStep w (i :: p) x = (c.inTree i).step w p x := by
  induction c generalizing w with
  | source => rfl
  | map c f ih =>
    simp only [collStep, inTree, step, ih]
    rcases (inTree i c).step w p x with ⟨w', _ | ⟨y, k⟩⟩ <;> rfl
  | prune c f ih =>
    simp only [collStep, inTree, step, ih]
    rcases (inTree i c).step w p x with ⟨w', _ | ⟨y, k⟩⟩ <;> rfl
  | prunePath c f ih =>
    simp only [collStep, inTree, step, ih]
    rcases (inTree i c).step w p x with ⟨w', _ | ⟨y, k⟩⟩ <;> rfl
  | pruneDepth c d ih =>
    simp only [collStep, inTree, step, ih, List.length_cons, Nat.add_sub_cancel]
    rcases (inTree i c).step w p x with ⟨w', _ | ⟨y, k⟩⟩ <;> rfl

theorem decOf_coll_map (c : Chain σ V W) (f : σ → W → σ × Z) :
    decOf (c.map f).collStep = decStep (mapStep f) (decOf c.collStep) := by
  funext w p x
  simp only [decOf, collStep, decStep, mapStep]
  rcases c.collStep w p x with ⟨w', _ | ⟨y, k⟩⟩ <;> simp

theorem decOf_coll_prunePath (c : Chain σ V W) (f : σ → List Nat → W → σ × Bool) :
    decOf (c.prunePath f).collStep = decStep (pruneStep f) (decOf c.collStep) := by
  funext w p x
  simp only [decOf, collStep, decStep, pruneStep]
  rcases c.collStep w p x with ⟨w', _ | ⟨y, k⟩⟩
  · rfl
  · by_cases h : (f w' p y).2 <;> simp [h]

theorem decOf_coll_prune (c : Chain σ V W) (f : σ → W → σ × Bool) :
    decOf (c.prune f).collStep = decStep (pruneStep fun w _ y => f w y) (decOf c.collStep) := by
  funext w p x
  simp only [decOf, collStep, decStep, pruneStep]
  rcases c.collStep w p x with ⟨w', _ | ⟨y, k⟩⟩
  · rfl
  · by_cases h : (f w' y).2 <;> simp [h]

theorem decOf_coll_pruneDepth (c : Chain σ V W) (d : Nat) :
    decOf (c.pruneDepth d).collStep = decStep (depthStep (fun p => p.length - 1) d) (decOf c.collStep) := by
  funext w p x
  simp only [decOf, collStep, decStep, depthStep]
  rcases c.collStep w p x with ⟨w', _ | ⟨y, k⟩⟩ <;> simp

theorem coll_byDepth (c : Chain σ V W) (hc : c.noPaths = true) : ByDepth c.collStep := by
  intro w p q x hpq
  induction c with
  | source => rfl
  | map c f ih => simp only [collStep, ih hc]
  | prune c f ih => simp only [collStep, ih hc]
  | prunePath c f ih => simp [noPaths] at hc
  | pruneDepth c d ih => simp only [collStep, ih hc, hpq]

theorem collEnum {M : Pipe S V σ} {R : S → List Nat → List (Lab V) → Prop} (hM : Enum M (idVisitor σ V) R)
    (c : Chain σ V W) (hc : c.pathsFirst = true) :
    ∃ (A : Type) (v : Visitor A σ V W) (R' : c.St S → A → List (Lab V) → Prop),
      Enum (c.collPipe M) v R' ∧ Indep v (decOf c.collStep) ∧ LenOk v ∧ (c.keepsAll = true → Through v) ∧
      ∀ s a l, R s a l → (∀ q ∈ Tree.preorderL l, q.1 ≠ []) → ∃ a', R' (c.collInit s) a' l := by
  induction c with
  | source => exact ⟨_, _, _, hM, indep_id, Through.lenOk through_id, fun _ => through_id, fun s a l h _ => ⟨a, h⟩⟩
  | map c f ih =>
    obtain ⟨A, v, R', h1, h2, h3, h4, h5⟩ := ih hc
    refine ⟨_, _, _, h1.map f, ?_, LenOk.map h3 f, fun h => Through.map (h4 h) f, fun s a l h hl => ?_⟩
    · rw [decOf_coll_map]; exact h2.map f
    · obtain ⟨a', h⟩ := h5 s a l h hl
      exact ⟨(a', ()), h⟩
  | prune c f ih =>
    obtain ⟨A, v, R', h1, h2, h3, h4, h5⟩ := ih hc
    refine ⟨_, _, _, h1.prunePath fun w _ y => f w y, ?_, LenOk.prunePath h3 _, by simp [keepsAll], fun s a l h hl => ?_⟩
    · rw [decOf_coll_prune]; exact h2.prune f
    · obtain ⟨a', h⟩ := h5 s a l h hl
      exact ⟨(a', []), ⟨rfl, rfl⟩, h⟩
  | prunePath c f ih =>
    obtain ⟨A, v, R', h1, h2, h3, h4, h5⟩ := ih (c.keepsAll_pathsFirst hc)
    refine ⟨_, _, _, h1.prunePath f, ?_, LenOk.prunePath h3 _, by simp [keepsAll], fun s a l h hl => ?_⟩
    · rw [decOf_coll_prunePath]; exact h2.prunePath (h4 hc) f
    · obtain ⟨a', h⟩ := h5 s a l h hl
      exact ⟨(a', [0]), ⟨rfl, rfl⟩, h⟩
  | pruneDepth c d ih =>
    obtain ⟨A, v, R', h1, h2, h3, h4, h5⟩ := ih hc
    refine ⟨_, _, _, h1.pruneDepth Pipe.collDepth (fun p => p.length - 1) d (fun p => p ≠ []) ?_, ?_,
      LenOk.pruneDepth h3 _ _, fun h => Through.pruneDepth (h4 h) _ _, fun s a l h hl => ?_⟩
    · intro a w p x a' w' y k hp hv
      refine collDepth_ok fun h => hp ?_
      have := h3 hv
      rw [h] at this
      exact List.length_eq_zero_iff.1 this.symm
    · rw [decOf_coll_pruneDepth]; exact h2.pruneDepth h3 _ (fun _ _ h => by rw [h]) d
    · obtain ⟨a', h⟩ := h5 s a l h hl
      exact ⟨(a', ()), h, hl⟩

theorem binCollEnum {M : Pipe S V σ} {R : S → List Nat → List (Lab V) → Prop} (hM : Enum M (idVisitor σ V) R)
    (c : Chain σ V W) :
    ∃ (A : Type) (v : Visitor A σ V W) (R' : S → A → List (Lab V) → Prop),
      Enum (c.binCollPipe M) v R' ∧ Indep v (decOf c.collStep) ∧ Through v ∧
      ∀ s a l, R s a l → (∀ q ∈ Tree.preorderL l, q.1 ≠ []) → ∃ a', R' s a' l := by
  induction c with
  | source => exact ⟨_, _, _, hM, indep_id, through_id, fun s a l h _ => ⟨a, h⟩⟩
  | map c f ih =>
    obtain ⟨A, v, R', h1, h2, h4, h5⟩ := ih
    refine ⟨_, _, _, h1.map f, ?_, Through.map h4 f, fun s a l h hl => ?_⟩
    · rw [decOf_coll_map]; exact h2.map f
    · obtain ⟨a', h⟩ := h5 s a l h hl
      exact ⟨(a', ()), h⟩
  | prune c f ih =>
    obtain ⟨A, v, R', h1, h2, h4, h5⟩ := ih
    refine ⟨_, _, _, h1.binPrune f, ?_, Through.binPrunePath h4 _, fun s a l h hl => ?_⟩
    · rw [decOf_coll_prune]; exact h2.binPrunePath h4 fun w _ y => f w y
    · obtain ⟨a', h⟩ := h5 s a l h hl
      exact ⟨(a', ()), h⟩
  | prunePath c f ih =>
    obtain ⟨A, v, R', h1, h2, h4, h5⟩ := ih
    refine ⟨_, _, _, h1.binPrunePath f, ?_, Through.binPrunePath h4 _, fun s a l h hl => ?_⟩
    · rw [decOf_coll_prunePath]; exact h2.binPrunePath h4 f
    · obtain ⟨a', h⟩ := h5 s a l h hl
      exact ⟨(a', ()), h⟩
  | pruneDepth c d ih =>
    obtain ⟨A, v, R', h1, h2, h4, h5⟩ := ih
    refine ⟨_, _, _, h1.pruneDepth Pipe.collDepth (fun p => p.length - 1) d (fun p => p ≠ []) ?_, ?_,
      Through.pruneDepth h4 _ _, fun s a l h hl => ?_⟩
    · intro a w p x a' w' y k hp hv
      rw [h4 hv]
      exact collDepth_ok hp
    · rw [decOf_coll_pruneDepth]; exact h2.pruneDepth (Through.lenOk h4) _ (fun _ _ h => by rw [h]) d
    · obtain ⟨a', h⟩ := h5 s a l h hl
      exact ⟨(a', ()), h, hl⟩

end Chain

section
variable {U W : Type u} {σ : Type w}

/-- The number of the tree may be left out of the paths. -/
theorem Tree.runS_shift {step step' : σ → List Nat → U → σ × Option (W × Bool)} {i : Nat}
    (h : ∀ w p x, step w (i :: p) x = step' w p x) (t : Tree U) : ∀ (w : σ) (p : List Nat),
    t.runS step w (i :: p) = t.runS step' w p := by
  induction t using Tree.ind with
  | h x cs ih =>
    have key : ∀ ds : List (Tree U), (∀ c ∈ ds, c ∈ cs) → ∀ (w : σ) (p : List Nat) (j : Nat),
        Tree.runSL step w (i :: p) j ds = Tree.runSL step' w p j ds := by
      intro ds
      induction ds with
      | nil => intro _ w p j; simp [Tree.runSL]
      | cons d ds ihd =>
        intro hd w p j
        have h1 := ih d (hd d (by simp)) w (p ++ [j])
        simp only [Tree.runSL, List.cons_append, h1, ihd fun c hc => hd c (by simp [hc])]
    intro w p
    simp only [Tree.runS, h, key cs fun _ h => h]

theorem BinTree.runS_shift {step step' : σ → List Nat → U → σ × Option (W × Bool)} {i : Nat}
    (h : ∀ w p x, step w (i :: p) x = step' w p x) (t : BinTree U) : ∀ (w : σ) (p : List Nat),
    t.runS step w (i :: p) = t.runS step' w p := by
  induction t using BinTree.ind with
  | h x l r ihl ihr =>
    have key : ∀ o : Option (BinTree U), (∀ c ∈ o, ∀ (w : σ) (p : List Nat), c.runS step w (i :: p) = c.runS step' w p) →
        ∀ (w : σ) (p : List Nat), BinTree.runSO step w (i :: p) o = BinTree.runSO step' w p o := by
      intro o ho w p
      cases o with
      | none => rfl
      | some c => exact ho c rfl w p
    intro w p
    simp only [BinTree.runS, h, List.cons_append, key l ihl, key r ihr]

end

theorem eachS_length {A : Type u} {B : Type v} {τ : Type w} (g : τ → Nat → A → τ × Option B) (l : List A) :
    ∀ (t : τ) (i : Nat), (eachS g t i l).2.length ≤ l.length := by
  induction l with
  | nil => intro t i; exact Nat.le_refl _
  | cons a l ih =>
    intro t i
    have h := ih (g t i a).1 (i + 1)
    simp only [eachS, List.length_append, List.length_cons]
    cases (g t i a).2 <;> simp <;> omega

theorem eachS_kept_length {A : Type u} {B : Type v} {τ : Type w} (g : τ → Nat → A → τ × B) (l : List A) : ∀ (t : τ) (i : Nat),
    (eachS (fun t i a => kept (g t i a)) t i l).2.length = l.length := by
  induction l with
  | nil => intro t i; rfl
  | cons a l ih =>
    intro t i
    have h := ih (g t i a).1 (i + 1)
    simp only [kept] at h
    simp [eachS, kept, h]

section
variable {N : Type u} {V W : Type v} [TreeNode N V] {σ : Type w} {τ : Type x} {O : Type y}

theorem Chain.decOf_labs (c : Chain σ V W) (ns : List N) (hn : c.noPaths = true ∨ ∀ n ∈ ns, ArityOk n) (w : σ) :
    ((decOf c.collStep).forest w (CollPipe.labs (fun n p => (treeOf n : Tree V).wpaths p) 0 ns)).1 =
        (c.trees w (ns.map treeOf)).1 ∧
      ((decOf c.collStep).forest w (CollPipe.labs (fun n p => (treeOf n : Tree V).wpaths p) 0 ns)).2.map (Tree.map Prod.fst) =
        (c.trees w (ns.map treeOf)).2 := by
  refine Dec.forest_labs (dec := decOf c.collStep) (lab := fun n p => (treeOf n : Tree V).wpaths p) (tree := treeOf)
    (g := fun w i t => t.runS (c.inTree i).step w []) ns (fun n h w i => ?_) w 0
  rw [← Tree.runS_shift (c.collStep_inTree i)]
  rcases hn with hn | hn
  · exact decOf_wtree (c.coll_byDepth hn) _ w [i] [i] rfl
  · simp only [wpaths_treeOf (hn n h)]
    exact decOf_tree _ _ w [i]

theorem Chain.collTrees (c : Chain σ V W) (hc : c.pathsFirst = true) (ns : List N)
    (hn : c.noPaths = true ∨ ∀ n ∈ ns, ArityOk n) (k : Nat) (w : σ) :
    ∃ r, treesEnd.calls (c.collPipe (Api.collPipe N σ)) k (c.collInit (.new ns), none) w () =
        .ok (seen k (c.trees w (ns.map treeOf)).2, r) ∧
      ((c.trees w (ns.map treeOf)).2.length < k → r = ((c.trees w (ns.map treeOf)).1, ())) := by
  obtain ⟨A, v, R', h1, h2, h3, -, h5⟩ := Chain.collEnum (TreeIter.collEnum (N := N) σ) c hc
  obtain ⟨a', h⟩ := h5 _ _ _ (collRel ns) (labDepth_neL (collDepths ns))
  have h := h1.trees h3 h2 h (collDepths ns) w k
  obtain ⟨k1, k2⟩ := c.decOf_labs ns hn w
  rw [← List.length_map (Tree.map Prod.fst), k1, k2] at h
  exact h

theorem Chain.collFold (c : Chain σ V W) (hc : c.pathsFirst = true) (ns : List N)
    (hn : c.noPaths = true ∨ ∀ n ∈ ns, ArityOk n) (g : τ → List O → W → τ × O) (k : Nat) (w : σ) (t : τ) :
    ∃ r, (foldEnd g).calls (c.collPipe (Api.collPipe N σ)) k (c.collInit (.new ns), none) w t =
        .ok (seen k (eachS (fun t _ b => kept (b.foldS g t)) t 0 (c.trees w (ns.map treeOf)).2).2, r) ∧
      ((c.trees w (ns.map treeOf)).2.length < k →
        r = ((c.trees w (ns.map treeOf)).1, (eachS (fun t _ b => kept (b.foldS g t)) t 0 (c.trees w (ns.map treeOf)).2).1)) := by
  obtain ⟨A, v, R', h1, h2, h3, -, h5⟩ := Chain.collEnum (TreeIter.collEnum (N := N) σ) c hc
  obtain ⟨a', h⟩ := h5 _ _ _ (collRel ns) (labDepth_neL (collDepths ns))
  have h := h1.foldTrees h3 h2 h (collDepths ns) g w t k
  obtain ⟨k1, k2⟩ := c.decOf_labs ns hn w
  rw [k1, k2, foldSL_each g _ t 0, eachS_kept_length] at h
  exact h

theorem Chain.keepsAll_collStep {V Z : Type v} (c : Chain σ V Z) (hc : c.keepsAll = true) : KeepsAll c.collStep := by
  intro w p x
  induction c with
  | source => rfl
  | map c f ih =>
    have := ih hc
    rcases h : c.collStep w p x with ⟨w', _ | ⟨y, k⟩⟩
    · simp [h] at this
    · simp [collStep, h]
  | prune c f ih => simp [keepsAll] at hc
  | prunePath c f ih => simp [keepsAll] at hc
  | pruneDepth c d ih =>
    have := ih hc
    rcases h : c.collStep w p x with ⟨w', _ | ⟨y, k⟩⟩
    · simp [h] at this
    · simp [collStep, h]

theorem Chain.foldPath_labs (c : Chain σ V W) (hc : c.keepsAll = true) (g : τ → List O → List Nat → W → τ × O)
    (ns : List N) : ∀ (w : σ) (t : τ) (i : Nat),
    Tree.foldSL (Pipe.onPaths g) t ((decOf c.collStep).forest w (CollPipe.labs (fun n p => (treeOf n : Tree V).paths p) i ns)).2 =
      eachS (fun t i b => kept (b.foldPathS g t [i])) t i
        (eachS (fun w i t => t.runS (c.inTree i).step w []) w i (ns.map treeOf)).2 := by
  induction ns with
  | nil => intro w t i; simp [CollPipe.labs, Dec.forest, Tree.foldSL, eachS]
  | cons n ns ih =>
    intro w t i
    obtain ⟨h1, h2⟩ := decOf_keepsAll (c.keepsAll_collStep hc) (treeOf n : Tree V) w [i]
    have h3 := (decOf_tree c.collStep (treeOf n : Tree V) w [i]).1
    rw [Tree.runS_shift (c.collStep_inTree i)] at h1 h2 h3
    obtain ⟨b, hb⟩ := Option.isSome_iff_exists.1 h2
    simp only [CollPipe.labs, Dec.forest, List.map_cons, eachS]
    rw [h1, h3, hb]
    simp [Tree.foldSL, foldS_atPaths, ih, eachS, kept]

theorem Chain.collFoldPath (c : Chain σ V W) (hc : c.keepsAll = true) (ns : List N) (hn : ∀ n ∈ ns, ArityOk n)
    (g : τ → List O → List Nat → W → τ × O) (k : Nat) (w : σ) (t : τ) :
    ∃ r, (foldPathEnd g).calls (c.collPipe (Api.collPipe N σ)) k (c.collInit (.new ns), none) w t =
        .ok (seen k (eachS (fun t i b => kept (b.foldPathS g t [i])) t 0 (c.trees w (ns.map treeOf)).2).2, r) ∧
      ((c.trees w (ns.map treeOf)).2.length < k →
        r = ((c.trees w (ns.map treeOf)).1,
          (eachS (fun t i b => kept (b.foldPathS g t [i])) t 0 (c.trees w (ns.map treeOf)).2).1)) := by
  obtain ⟨A, v, R', h1, h2, h3, h4, h5⟩ := Chain.collEnum (TreeIter.collEnum (N := N) σ) c (c.keepsAll_pathsFirst hc)
  obtain ⟨a', h⟩ := h5 _ _ _ (collRel ns) (labDepth_neL (collDepths ns))
  have h := h1.foldPathTrees (h4 hc) h2 h (collPaths ns) g w t k
  obtain ⟨k1, -⟩ := c.decOf_labs ns (.inr hn) w
  rw [k1, collLabs hn, c.foldPath_labs hc, eachS_kept_length] at h
  exact h

end

section
variable {N : Type u} {V W : Type v} [BinNode N V] {σ : Type w} {τ : Type x} {O : Type y}

theorem Chain.decOf_bins (c : Chain σ V W) (w : σ) (ts : List (BinTree V)) :
    (decOf c.collStep).bins w 0 ts = c.numbered w ts := by
  rw [Dec.bins, Chain.numbered]
  congr 1
  funext w i t
  rw [decOf_bin, BinTree.runS_shift (c.collStep_inTree i)]

theorem numbered_snd {A B : Type u} {σ : Type w} (g : σ → Nat → A → σ × Option B) (l : List A) : ∀ (w : σ) (i : Nat),
    (eachS (fun w i a => ((g w i a).1, (g w i a).2.map fun b => (i, b))) w i l).1 = (eachS g w i l).1 ∧
    (eachS (fun w i a => ((g w i a).1, (g w i a).2.map fun b => (i, b))) w i l).2.map Prod.snd = (eachS g w i l).2 := by
  induction l with
  | nil => intro w i; simp [eachS]
  | cons a l ih =>
    intro w i
    obtain ⟨h1, h2⟩ := ih (g w i a).1 (i + 1)
    refine ⟨h1, ?_⟩
    simp only [eachS, List.map_append, h2]
    cases (g w i a).2 <;> rfl

theorem foldNumbered_each {U : Type v} (f : τ → Option O × Option O → List Nat → U → τ × O) (l : List (Nat × BinTree U)) :
    ∀ (t : τ) (i : Nat), foldNumbered f t l = eachS (fun t _ ib => kept (ib.2.foldPathS f t [ib.1])) t i l := by
  induction l with
  | nil => intro t i; rfl
  | cons a l ih => intro t i; simp [foldNumbered, eachS, kept, ih _ (i + 1)]

theorem Chain.binCollTrees (c : Chain σ V W) (ns : List N) (k : Nat) (w : σ) :
    ∃ r, binTreesEnd.calls (c.binCollPipe (Api.binCollPipe N σ)) k (.new ns, none) w () =
        .ok (seen k (c.binTrees w (ns.map binTreeOf)).2, r) ∧
      ((c.binTrees w (ns.map binTreeOf)).2.length < k → r = ((c.binTrees w (ns.map binTreeOf)).1, ())) := by
  obtain ⟨A, v, R', h1, h2, h3, h5⟩ := Chain.binCollEnum (TreeIter.binCollEnum (N := N) σ) c
  obtain ⟨a', h⟩ := h5 _ _ _ (binCollRel ns) (labDepth_neL (binCollDepths ns))
  have h := h1.binTrees (tree := binTreeOf) h3 h2 h w k
  obtain ⟨k1, k2⟩ := numbered_snd (fun w i t => BinTree.runS (c.inTree i).step w [] t) (ns.map (binTreeOf : N → BinTree V)) w 0
  rw [← List.length_map Prod.snd, c.decOf_bins, Chain.numbered, k1, k2] at h
  exact h

theorem Chain.binCollFoldPath (c : Chain σ V W) (ns : List N) (g : τ → Option O × Option O → List Nat → W → τ × O) (k : Nat)
    (w : σ) (t : τ) :
    ∃ r, (binFoldPathEnd g).calls (c.binCollPipe (Api.binCollPipe N σ)) k (.new ns, none) w t =
        .ok (seen k (eachS (fun t _ ib => kept (ib.2.foldPathS g t [ib.1])) t 0 (c.numbered w (ns.map binTreeOf)).2).2, r) ∧
      ((c.numbered w (ns.map binTreeOf)).2.length < k → r = ((c.numbered w (ns.map binTreeOf)).1,
        (eachS (fun t _ ib => kept (ib.2.foldPathS g t [ib.1])) t 0 (c.numbered w (ns.map binTreeOf)).2).1)) := by
  obtain ⟨A, v, R', h1, h2, h3, h5⟩ := Chain.binCollEnum (TreeIter.binCollEnum (N := N) σ) c
  obtain ⟨a', h⟩ := h5 _ _ _ (binCollRel ns) (labDepth_neL (binCollDepths ns))
  have h := h1.binFoldPathTrees (tree := binTreeOf) h3 h2 h g w t k
  rw [c.decOf_bins, foldNumbered_each g _ t 0, eachS_kept_length] at h
  exact h

theorem Chain.binCollFold (c : Chain σ V W) (ns : List N) (g : τ → Option O × Option O → W → τ × O) (k : Nat)
    (w : σ) (t : τ) :
    ∃ r, (binFoldEnd g).calls (c.binCollPipe (Api.binCollPipe N σ)) k (.new ns, none) w t =
        .ok (seen k (eachS (fun t _ b => kept (b.foldS g t)) t 0 (c.binTrees w (ns.map binTreeOf)).2).2, r) ∧
      ((c.binTrees w (ns.map binTreeOf)).2.length < k → r = ((c.binTrees w (ns.map binTreeOf)).1,
        (eachS (fun t _ b => kept (b.foldS g t)) t 0 (c.binTrees w (ns.map binTreeOf)).2).1)) := by
  obtain ⟨A, v, R', h1, h2, h3, h5⟩ := Chain.binCollEnum (TreeIter.binCollEnum (N := N) σ) c
  obtain ⟨a', h⟩ := h5 _ _ _ (binCollRel ns) (labDepth_neL (binCollDepths ns))
  have h := h1.binFoldTrees (tree := binTreeOf) h3 h2 h g w t k
  obtain ⟨k1, k2⟩ := numbered_snd (fun w i t => BinTree.runS (c.inTree i).step w [] t) (ns.map (binTreeOf : N → BinTree V)) w 0
  have key : ∀ (l : List (Nat × BinTree W)) (t : τ) (i : Nat),
      eachS (fun t _ (ib : Nat × BinTree W) => kept (ib.2.foldS g t)) t i l =
        eachS (fun t _ b => kept (BinTree.foldS g t b)) t i (l.map Prod.snd) := by
    intro l
    induction l with
    | nil => intro t i; rfl
    | cons a l ih => intro t i; simp [eachS, ih]
  rw [c.decOf_bins, foldNumbered_each _ _ t 0] at h
  simp only [fold_noPath] at h
  rw [key, eachS_kept_length, Chain.numbered, k1, k2] at h
  exact h

end

/-! ## One stage more -/

section
variable {U W Z : Type v} {σ : Type w}

theorem Chain.stateless_inTree {V : Type v} (c : Chain σ V W) (hc : c.Stateless) (i : Nat) : (c.inTree i).Stateless := by
  induction c with
  | source => trivial
  | map c f ih => exact ⟨ih hc.1, hc.2⟩
  | prune c f ih => exact ⟨ih hc.1, hc.2⟩
  | prunePath c f ih => exact ⟨ih hc.1, fun w p y w' => hc.2 w (i :: p) y w'⟩
  | pruneDepth c d ih => exact ih hc

/-- Two passes over a collection, the first without a state, are one. -/
theorem eachS_comp {A B C : Type v} {g : σ → Nat → A → σ × Option B} {h : σ → B → σ × Option C}
    {gh : σ → Nat → A → σ × Option C} (hg : ∀ w w' i a, g w i a = (w, (g w' i a).2))
    (hgh : ∀ w i a, gh w i a = match (g w i a).2 with | none => (w, none) | some b => h w b) (l : List A) :
    ∀ (w w0 : σ) (i j : Nat), eachS gh w i l = eachS (fun w _ b => h w b) w j (eachS g w0 i l).2 := by
  induction l with
  | nil => intro w w0 i j; rfl
  | cons a l ih =>
    intro w w0 i j
    have h1 : (g w0 i a).2 = (g w i a).2 := by rw [hg w0 w i a]
    simp only [eachS, hgh, h1]
    cases h2 : (g w i a).2 with
    | none => simp [ih _ (g w0 i a).1 (i + 1) j]
    | some b => simp [eachS, ih _ (g w0 i a).1 (i + 1) (j + 1)]

/-- A further stage that depends on the depth at most, after stages without a state. -/
theorem Chain.trees_comp {V : Type v} (c : Chain σ V W) (hs : c.Stateless) (c' : Chain σ V Z)
    {g : σ → List Nat → W → σ × Option (Z × Bool)} (hg : ByDepth g)
    (h : ∀ i s1, (c.inTree i).step = pureStep s1 → (c'.inTree i).step = compStep s1 g) (ts : List (Tree V)) (w w0 : σ) :
    c'.trees w ts = eachS (fun w _ t => t.runS g w []) w 0 (c.trees w0 ts).2 := by
  refine eachS_comp (g := fun w i t => Tree.runS (c.inTree i).step w [] t) (h := fun w t => Tree.runS g w [] t) ?_ ?_ ts w w0 0 0
  · intro w w' i t
    obtain ⟨s1, h1⟩ := (c.inTree i).stateless_step (c.stateless_inTree hs i)
    rw [h1]
    exact runS_pure_state s1 t w w' []
  · intro w i t
    obtain ⟨s1, h1⟩ := (c.inTree i).stateless_step (c.stateless_inTree hs i)
    rw [h i s1 h1, h1, runS_comp s1 hg t w w [] [] rfl]
    rcases (Tree.runS (pureStep s1) w [] t).2 with _ | t <;> rfl

theorem Chain.trees_map {V : Type v} (c : Chain σ V W) (hs : c.Stateless) (f : σ → W → σ × Z) (ts : List (Tree V)) (w w0 : σ) :
    (c.map f).trees w ts = eachS (fun w _ t => kept (Tree.mapS f w t)) w 0 (c.trees w0 ts).2 := by
  rw [c.trees_comp hs (c.map f) (g := fun w _ y => ((f w y).1, some ((f w y).2, true))) (fun _ _ _ _ _ => rfl)
    (fun i s1 h => (c.inTree i).step_map_comp f h) ts w w0]
  simp only [runS_map, kept]

theorem Chain.trees_prune {V : Type v} (c : Chain σ V W) (hs : c.Stateless) (f : σ → W → σ × Bool) (ts : List (Tree V)) (w w0 : σ) :
    (c.prune f).trees w ts = eachS (fun w _ t => t.pruneS f w) w 0 (c.trees w0 ts).2 := by
  rw [c.trees_comp hs (c.prune f) (g := fun w _ y => ((f w y).1, if (f w y).2 then none else some (y, true)))
    (fun _ _ _ _ _ => rfl) (fun i s1 h => (c.inTree i).step_prune_comp f h) ts w w0]
  simp only [runS_prune]

theorem eachS_some {A B : Type v} (g : A → B) (l : List A) : ∀ (w : σ) (i : Nat),
    eachS (fun w _ a => (w, some (g a))) w i l = (w, l.map g) := by
  induction l with
  | nil => intro w i; rfl
  | cons a l ih => intro w i; simp [eachS, ih]

theorem Chain.trees_pruneDepth {V : Type v} (c : Chain σ V W) (hs : c.Stateless) (d : Nat) (ts : List (Tree V)) (w w0 : σ) :
    (c.pruneDepth d).trees w ts = (w, (c.trees w0 ts).2.map (Tree.truncate d)) := by
  rw [c.trees_comp hs (c.pruneDepth d) (g := fun w p y => (w, some (y, p.length != d)))
    (fun _ _ _ _ h => by simp only [h]) (fun i s1 h => (c.inTree i).step_pruneDepth_comp d h) ts w w0]
  simp only [runS_depth]
  exact eachS_some (fun t => Tree.truncate d t) _ w 0

theorem Chain.binTrees_comp {V : Type v} (c : Chain σ V W) (hs : c.Stateless) (c' : Chain σ V Z)
    (g : σ → List Nat → W → σ × Option (Z × Bool))
    (h : ∀ i s1, (c.inTree i).step = pureStep s1 → (c'.inTree i).step = compStep s1 g) (ts : List (BinTree V)) (w w0 : σ) :
    c'.binTrees w ts = eachS (fun w _ t => t.runS g w []) w 0 (c.binTrees w0 ts).2 := by
  refine eachS_comp (g := fun w i t => BinTree.runS (c.inTree i).step w [] t) (h := fun w t => BinTree.runS g w [] t) ?_ ?_ ts
    w w0 0 0
  · intro w w' i t
    obtain ⟨s1, h1⟩ := (c.inTree i).stateless_step (c.stateless_inTree hs i)
    rw [h1]
    exact runS_bin_pure_state s1 t w w' []
  · intro w i t
    obtain ⟨s1, h1⟩ := (c.inTree i).stateless_step (c.stateless_inTree hs i)
    rw [h i s1 h1, h1, runS_bin_comp s1 g t w w []]
    rcases (BinTree.runS (pureStep s1) w [] t).2 with _ | t <;> rfl

theorem Chain.binTrees_map {V : Type v} (c : Chain σ V W) (hs : c.Stateless) (f : σ → W → σ × Z) (ts : List (BinTree V)) (w w0 : σ) :
    (c.map f).binTrees w ts = eachS (fun w _ t => kept (BinTree.mapS f w t)) w 0 (c.binTrees w0 ts).2 := by
  rw [c.binTrees_comp hs (c.map f) (fun w _ y => ((f w y).1, some ((f w y).2, true)))
    (fun i s1 h => (c.inTree i).step_map_comp f h) ts w w0]
  simp only [runS_bin_map, kept]

theorem Chain.binTrees_prune {V : Type v} (c : Chain σ V W) (hs : c.Stateless) (f : σ → W → σ × Bool) (ts : List (BinTree V))
    (w w0 : σ) : (c.prune f).binTrees w ts = eachS (fun w _ t => t.pruneS f w) w 0 (c.binTrees w0 ts).2 := by
  rw [c.binTrees_comp hs (c.prune f) (fun w _ y => ((f w y).1, if (f w y).2 then none else some (y, true)))
    (fun i s1 h => (c.inTree i).step_prune_comp f h) ts w w0]
  simp only [runS_bin_prune]

theorem Chain.binTrees_pruneDepth {V : Type v} (c : Chain σ V W) (hs : c.Stateless) (d : Nat) (ts : List (BinTree V))
    (w w0 : σ) : (c.pruneDepth d).binTrees w ts = (w, (c.binTrees w0 ts).2.map (BinTree.truncate d)) := by
  rw [c.binTrees_comp hs (c.pruneDepth d) (fun w p y => (w, some (y, p.length != d)))
    (fun i s1 h => (c.inTree i).step_pruneDepth_comp d h) ts w w0]
  simp only [runS_bin_depth]
  exact eachS_some (fun t => BinTree.truncate d t) _ w 0

theorem map_treeOf_tree {V : Type v} (ts : List (Tree V)) : ts.map treeOf = ts := by
  rw [show (treeOf : Tree V → Tree V) = id from funext fun t => treeOf_tree t, List.map_id]

theorem map_binTreeOf_bin {V : Type v} (ts : List (BinTree V)) : ts.map binTreeOf = ts := by
  rw [show (binTreeOf : BinTree V → BinTree V) = id from funext fun t => binTreeOf_binTree t, List.map_id]

end

end TreeIter
