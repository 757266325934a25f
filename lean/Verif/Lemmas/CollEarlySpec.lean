import Verif.Lemmas.CollEarly
import Verif.Lemmas.CollChain

/-! # The state of the stages of an early dropped pipeline, in terms of the trees -/

universe u v w x y

namespace TreeIter

/-! ## What `quitS` says when every tree is kept -/

section
variable {A : Type u} {B : Type v} {σ : Type w}

theorem stopS_kept (root : σ → Nat → A → σ) (g : σ → Nat → A → σ × B) (as : List A) : ∀ (k : Nat) (w : σ) (i : Nat),
    stopS (fun w i a => (root w i a, true)) (fun w i a => kept (g w i a)) k w i as =
      match as[k]? with
      | none => (eachS (fun w i a => kept (g w i a)) w i (as.take k)).1
      | some a => root (eachS (fun w i a => kept (g w i a)) w i (as.take k)).1 (i + k) a := by
  induction as with
  | nil => intro k w i; simp [stopS, eachS]
  | cons a as ih =>
    intro k w i
    cases k with
    | zero => simp [stopS, eachS]
    | succ k =>
      have := ih k (g w i a).1 (i + 1)
      simp only [stopS, kept, Option.isSome_some, if_true, List.getElem?_cons_succ, List.take_succ_cons, eachS] at this ⊢
      rw [this, Nat.add_right_comm i 1 k, Nat.add_assoc i k 1]

end

/-! ## From the labelled trees to the trees -/

section
variable {N : Type u} {V : Type v} [TreeNode N V]

theorem id_labs {σ : Type w} (ns : List N) (w : σ) : (Dec.forest decId w (CollPipe.labs (fun n p => (treeOf n : Tree V).wpaths p) 0 ns)).2.map
    (Tree.map Prod.fst) = ns.map treeOf := by
  rw [id_forest, List.map_map]
  have : ∀ (ns : List N) (i : Nat),
      (CollPipe.labs (fun n p => (treeOf n : Tree V).wpaths p) i ns).map (Tree.map Prod.fst ∘ Tree.map Prod.swap) =
        ns.map treeOf := by
    intro ns
    induction ns with
    | nil => intro i; rfl
    | cons n ns ih =>
      intro i
      have h := wpaths_snd (treeOf n : Tree V) [i]
      simp only [CollPipe.labs, List.map_cons, ih, Function.comp, Tree.map_map]
      rw [show (Prod.fst ∘ Prod.swap : List Nat × V → V) = Prod.snd from rfl, h]
  exact this ns 0

theorem labs_take {N : Type u} {U : Type v} (lab : N → List Nat → Lab U) (ns : List N) : ∀ (i k : Nat),
    (CollPipe.labs lab i ns).take k = CollPipe.labs lab i (ns.take k) := by
  induction ns with
  | nil => intro i k; simp [CollPipe.labs]
  | cons n ns ih =>
    intro i k
    cases k with
    | zero => simp [CollPipe.labs]
    | succ k => simp [CollPipe.labs, ih]

theorem eachS_numbered_take {A : Type u} (as : List A) : ∀ (i k : Nat),
    (eachS (fun (w : Unit) i (t : A) => (w, some (i, t))) () i as).2.take k =
      (eachS (fun (w : Unit) i (t : A) => (w, some (i, t))) () i (as.take k)).2 := by
  induction as with
  | nil => intro i k; simp [eachS]
  | cons a as ih =>
    intro i k
    cases k with
    | zero => simp [eachS]
    | succ k =>
      have := ih (i + 1) k
      simp [eachS, this]

end

theorem Chain.decOf_root {σ : Type w} {V W : Type v} (c : Chain σ V W) (w : σ) (i : Nat) (v : V) (cs : List (Lab V)) :
    (decOf c.collStep).root w (.node ([i], v) cs) = c.rootS w i v := by
  rw [Dec.root, decOf, c.collStep_inTree i w [] v, rootS]
  rcases (c.inTree i).step w [] v with ⟨w', _ | ⟨y, k⟩⟩ <;> rfl

theorem Chain.quit_labs {N : Type u} {V W : Type v} [TreeNode N V] {σ : Type w} (c : Chain σ V W) (ns : List N)
    (hn : c.noPaths = true ∨ ∀ n ∈ ns, ArityOk n) (k : Nat) (w : σ) :
    (decOf c.collStep).quit k w (CollPipe.labs (fun n p => (treeOf n : Tree V).wpaths p) 0 ns) =
      quitS (fun w i t => c.rootS w i t.value) (fun w i t => t.runS (c.inTree i).step w []) k w (ns.map treeOf) := by
  refine Dec.quit_labs ns (fun n _ w i => ?_) (fun n h w i => ?_) k w
  · rcases (treeOf n : Tree V) with ⟨v, cs⟩
    rw [Tree.wpaths]
    exact c.decOf_root w i v _
  · rw [← Tree.runS_shift (c.collStep_inTree i), ← Option.isSome_map (f := Tree.map Prod.fst)]
    rcases hn with hn | hn
    · obtain ⟨h1, h2⟩ := decOf_wtree (c.coll_byDepth hn) (treeOf n : Tree V) w [i] [i] rfl
      exact ⟨h1, by rw [h2]⟩
    · simp only [wpaths_treeOf (hn n h)]
      obtain ⟨h1, h2⟩ := decOf_tree c.collStep (treeOf n : Tree V) w [i]
      exact ⟨h1, by rw [h2]⟩

theorem Chain.binQuit_labs {N : Type u} {V W : Type v} [BinNode N V] {σ : Type w} (c : Chain σ V W) (ns : List N)
    (k : Nat) (w : σ) :
    (decOf c.collStep).quit k w (CollPipe.labs (fun n p => (binTreeOf n : BinTree V).paths p) 0 ns) =
      quitS (fun w i t => c.rootS w i t.value) (fun w i t => t.runS (c.inTree i).step w []) k w (ns.map binTreeOf) := by
  refine Dec.quit_labs ns (fun n _ w i => ?_) (fun n h w i => ?_) k w
  · rcases (binTreeOf n : BinTree V) with ⟨v, l, r⟩
    rw [BinTree.paths]
    exact c.decOf_root w i v _
  · rw [Dec.tree_paths, decOf_bin, BinTree.runS_shift (c.collStep_inTree i), Option.isSome_map]
    exact ⟨rfl, rfl⟩

theorem Chain.foldPath_labs_take {N : Type u} {V W : Type v} [TreeNode N V] {σ : Type w} {τ : Type x} {O : Type y} (c : Chain σ V W)
    (hc : c.keepsAll = true) (g : τ → List O → List Nat → W → τ × O) (ns : List N) : ∀ (w : σ) (t : τ) (i k : Nat),
    Tree.foldSL (Pipe.onPaths g) t
        (((decOf c.collStep).forest w (CollPipe.labs (fun n p => (treeOf n : Tree V).paths p) i ns)).2.take k) =
      eachS (fun t i b => kept (b.foldPathS g t [i])) t i
        ((eachS (fun w i t => t.runS (c.inTree i).step w []) w i (ns.map treeOf)).2.take k) := by
  induction ns with
  | nil => intro w t i k; simp [CollPipe.labs, Dec.forest, Tree.foldSL, eachS]
  | cons n ns ih =>
    intro w t i k
    obtain ⟨h1, h2⟩ := decOf_keepsAll (c.keepsAll_collStep hc) (treeOf n : Tree V) w [i]
    have h3 := (decOf_tree c.collStep (treeOf n : Tree V) w [i]).1
    rw [Tree.runS_shift (c.collStep_inTree i)] at h1 h2 h3
    obtain ⟨b, hb⟩ := Option.isSome_iff_exists.1 h2
    simp only [CollPipe.labs, Dec.forest, List.map_cons, eachS]
    rw [h1, h3, hb]
    cases k with
    | zero => simp [Tree.foldSL, eachS]
    | succ k => simp [Tree.foldSL, foldS_atPaths, ih, eachS, kept]

theorem eachS_second {T : Type u} {τ : Type v} {O : Type w} (f : τ → T → τ × O) (l : List (Nat × T)) : ∀ (t : τ) (i : Nat),
    eachS (fun t _ (ib : Nat × T) => kept (f t ib.2)) t i l = eachS (fun t _ b => kept (f t b)) t i (l.map Prod.snd) := by
  induction l with
  | nil => intro t i; rfl
  | cons a l ih => intro t i; simp [eachS, ih]

end TreeIter
