import Verif.Model.PathBuf
import Verif.Spec.PathBuf
import Verif.Lemmas.PipeSources

/-! # The memory of the path of `map_path` -/

universe u v w

namespace TreeIter

/-! ## Depths -/

namespace Tree
variable {α : Type u}

mutual
/-- The depths of the nodes in preorder, the root having depth `d`. -/
def depthsFrom (d : Nat) : Tree α → List Nat
  | .node _ cs => d :: depthsFromL (d + 1) cs
/-- The depths of the nodes of a forest. -/
def depthsFromL (d : Nat) : List (Tree α) → List Nat
  | [] => []
  | t :: ts => t.depthsFrom d ++ depthsFromL d ts
end

theorem depthsFromL_append (d : Nat) (l r : List (Tree α)) :
    depthsFromL d (l ++ r) = depthsFromL d l ++ depthsFromL d r := by
  induction l with
  | nil => rfl
  | cons t l ih => simp [depthsFromL, ih]

theorem depthsFrom_withPos (t : Tree α) (p : List Nat) (anc : List α) :
    ((t.withPos p anc).preorder.map fun q => q.path.length) = t.depthsFrom p.length := by
  induction t using Tree.ind generalizing p anc with
  | h x cs ih =>
    rw [withPos, depthsFrom, preorder, List.map_cons]
    congr 1
    have key : ∀ (cs : List (Tree α)) (i : Nat) (anc : List α),
        (∀ c ∈ cs, ∀ (p : List Nat) (anc : List α),
          ((c.withPos p anc).preorder.map fun q => q.path.length) = c.depthsFrom p.length) →
        ((preorderL (withPosL p anc i cs)).map fun q => q.path.length) = depthsFromL (p.length + 1) cs := by
      intro cs
      induction cs with
      | nil => intros; rfl
      | cons c cs ihc =>
        intro i anc h
        rw [withPosL, preorderL, List.map_append, h c (by simp), ihc _ _ fun c hc => h c (by simp [hc]), depthsFromL]
        simp
    exact key cs 0 _ ih

theorem depths_eq (t : Tree α) : t.depths = t.depthsFrom 0 := t.depthsFrom_withPos [] []

mutual
theorem depthsFrom_wpaths (t : Tree α) (p : List Nat) :
    ((t.wpaths p).preorder.map fun q => q.1.length) = t.depthsFrom p.length := by
  cases t with
  | node x cs => rw [wpaths, depthsFrom, preorder, List.map_cons, depthsFromL_wpaths cs p _]
theorem depthsFromL_wpaths (cs : List (Tree α)) (p : List Nat) (i : Nat) :
    ((preorderL (wpathsL p i cs)).map fun q => q.1.length) = depthsFromL (p.length + 1) cs := by
  cases cs with
  | nil => rfl
  | cons c cs =>
    rw [wpathsL, preorderL, List.map_append, depthsFrom_wpaths c, depthsFromL_wpaths cs p _, depthsFromL]
    simp
end

mutual
theorem depthsFrom_succ (t : Tree α) (d : Nat) : t.depthsFrom (d + 1) = (t.depthsFrom d).map (· + 1) := by
  cases t with
  | node x cs => rw [depthsFrom, depthsFrom, List.map_cons, depthsFromL_succ cs]
theorem depthsFromL_succ (cs : List (Tree α)) (d : Nat) : depthsFromL (d + 1) cs = (depthsFromL d cs).map (· + 1) := by
  cases cs with
  | nil => rfl
  | cons c cs => rw [depthsFromL, depthsFromL, List.map_append, depthsFrom_succ c, depthsFromL_succ cs]
end

end Tree

namespace BinTree
variable {α : Type u}

theorem depthsFrom_withPos (t : BinTree α) (p : List Nat) (anc : List α) :
    ((t.withPos p anc).toTree.preorder.map fun q => q.path.length) = t.toTree.depthsFrom p.length := by
  induction t using BinTree.ind generalizing p anc with
  | h x l r ihl ihr =>
    rw [withPos, toTree, toTree, Tree.depthsFrom, Tree.preorder, List.map_cons, Tree.depthsFromL_append, Tree.preorderL_eq,
      List.flatMap_append, List.map_append]
    congr 2
    · cases l with
      | none => rfl
      | some l =>
        have := ihl l rfl (p ++ [0]) (anc ++ [x])
        simpa [withPosO, slotTrees, Tree.depthsFromL] using this
    · cases r with
      | none => rfl
      | some r =>
        have := ihr r rfl (p ++ [1]) (anc ++ [x])
        simpa [withPosO, slotTrees, Tree.depthsFromL] using this

theorem depths_eq (t : BinTree α) : t.depths = t.toTree.depthsFrom 0 := t.depthsFrom_withPos [] []

theorem depthsFrom_paths (t : BinTree α) (p : List Nat) :
    ((t.paths p).preorder.map fun q => q.1.length) = t.toTree.depthsFrom p.length := by
  induction t using BinTree.ind generalizing p with
  | h x l r ihl ihr =>
    rw [paths, toTree, Tree.depthsFrom, Tree.preorder, List.map_cons, Tree.depthsFromL_append, Tree.preorderL_eq,
      List.flatMap_append, List.map_append]
    congr 2
    · cases l with
      | none => rfl
      | some l =>
        have := ihl l rfl (p ++ [0])
        simpa [pathsO, slotTrees, Tree.depthsFromL] using this
    · cases r with
      | none => rfl
      | some r =>
        have := ihr r rfl (p ++ [1])
        simpa [pathsO, slotTrees, Tree.depthsFromL] using this

end BinTree

/-! ## Calls -/

theorem nthCallE_ok_zero {S : Type u} {O : Type v} {next : S → Except Panic (Option O × S)} {s s' : S} {o : Option O}
    (h : next s = .ok (o, s')) : nthCallE next 0 s = .ok o := by
  simp [nthCallE, stateAfterE, h]

theorem nthCallE_ok_succ {S : Type u} {O : Type v} {next : S → Except Panic (Option O × S)} {s s' : S} {o : Option O}
    (h : next s = .ok (o, s')) (k : Nat) : nthCallE next (k + 1) s = nthCallE next k s' := by
  simp [nthCallE, stateAfterE, h]

/-! ## Sources whose path lengths are known -/

namespace Spied
variable {S : Type u} {V : Type v} {N : Type w}

/-- `R s ds`: the source is about to give nodes at the depths `ds`. -/
structure Walks (P : Spied S V) (R : S → List Nat → Prop) : Prop where
  none : ∀ {s}, R s [] → ∃ s', P.next s = .ok (none, s') ∧ R s' []
  some : ∀ {s d ds}, R s (d :: ds) → ∃ v s', P.next s = .ok (some v, s') ∧ R s' ds ∧ P.len s' = d ∧ P.pushes s' = true

variable {P : Spied S V} {R : S → List Nat → Prop} (grow : Nat → Nat)

theorem mapPath_ended (h : Walks P R) (k : Nat) : ∀ {s b}, R s [] → nthCallE (P.mapPath grow) k (s, b) = .ok none := by
  induction k with
  | zero =>
    intro s b hs
    obtain ⟨s', h1, -⟩ := h.none hs
    exact nthCallE_ok_zero (s' := (s', P.after grow s b)) (by simp [mapPath, h1])
  | succ k ih =>
    intro s b hs
    obtain ⟨s', h1, h2⟩ := h.none hs
    rw [nthCallE_ok_succ (o := Option.none) (s' := (s', P.after grow s b)) (by simp [mapPath, h1]), ih h2]

/-- What the calls of the closure get, seen as `dangles`. -/
def Gives (next : S → Except Panic (Option Slice × S)) (s : S) (bs : List Bool) : Prop :=
  ∃ L : List Slice, (∀ k, nthCallE next k s = .ok L[k]?) ∧ L.map Slice.dangles = bs

theorem Gives.nil {next : S → Except Panic (Option Slice × S)} {s : S} (h : ∀ k, nthCallE next k s = .ok none) :
    Gives next s [] := ⟨[], by simpa using h, rfl⟩

theorem Gives.cons {next : S → Except Panic (Option Slice × S)} {s s' : S} {x : Slice} {bs : List Bool}
    (h : next s = .ok (some x, s')) (h' : Gives next s' bs) : Gives next s (x.dangles :: bs) := by
  obtain ⟨L, h1, h2⟩ := h'
  refine ⟨x :: L, fun k => ?_, by simp [h2]⟩
  cases k with
  | zero => simpa using nthCallE_ok_zero h
  | succ k => rw [nthCallE_ok_succ h, h1]; simp

theorem Gives.eq {next : S → Except Panic (Option Slice × S)} {s : S} {bs cs : List Bool} (h : Gives next s bs)
    (e : bs = cs) : Gives next s cs := e ▸ h

/-- The buffer after a push, and whether the slice taken before it dangles. -/
theorem dangles_push (b : Buf) (d : Nat) :
    (Slice.mk b.id d (b.push grow d).id).dangles = (decide (0 < d) && decide (¬ d < b.cap)) := by
  unfold Slice.dangles Buf.push
  split <;> rename_i h
  · simp [h]
  · cases d <;> simp [h]

theorem moves_cons (b : Buf) (d e : Nat) (ds : List Nat) :
    moves grow b.cap (d :: e :: ds) =
      (Slice.mk b.id d (b.push grow d).id).dangles :: moves grow (b.push grow d).cap (e :: ds) := by
  rw [dangles_push, moves, Buf.push]
  split <;> rename_i h <;> simp [h]

theorem mapPath_walk (h : Walks P R) (ds : List Nat) : ∀ {s b}, R s ds → P.pushes s = true →
    Gives (P.mapPath grow) (s, b) (moves grow b.cap (P.len s :: ds)) := by
  induction ds with
  | nil => intro s b hs _; exact .nil fun k => mapPath_ended grow h k hs
  | cons d ds ih =>
    intro s b hs hp
    obtain ⟨v, s', h1, h2, h3, h4⟩ := h.some hs
    have := ih (b := b.push grow (P.len s)) h2 h4
    rw [h3] at this
    rw [moves_cons]
    exact .cons (by simp [mapPath, h1, after, hp]) this

/-- The calls on a tree whose root has the empty path. -/
theorem mapPath_tree (h : Walks P R) {s : S} {ds : List Nat} (hs : R s (0 :: ds)) (hp : P.pushes s = false) (hl : P.len s = 0) :
    Gives (P.mapPath grow) (s, Buf.none) (false :: moves grow 0 (0 :: ds)) := by
  obtain ⟨v, s', h1, h2, h3, h4⟩ := h.some hs
  have := mapPath_walk grow h ds (b := Buf.none) h2 h4
  rw [h3] at this
  exact .cons (x := ⟨0, 0, 0⟩) (by simp [mapPath, h1, after, hp, hl, Buf.none]) this

/-! ## Collections -/

variable {start : N → List Nat → S} {dep : N → List Nat}

/-- What is known of the source on a fresh tree of a collection; `dep` gives the lengths of the paths after the root's. -/
structure Starts (P : Spied S V) (R : S → List Nat → Prop) (start : N → List Nat → S) (dep : N → List Nat) : Prop where
  rel : ∀ n i, R (start n [i]) (1 :: dep n)
  pushes : ∀ n i, P.pushes (start n [i]) = false

theorem collMapPath_ended (h : Walks P R) (k : Nat) : ∀ {c : S} {b : Buf} {i : Nat}, R c [] →
    nthCallE (P.collMapPath grow start) k (⟨[], i, some c⟩, b) = .ok none := by
  induction k with
  | zero =>
    intro c b i hc
    obtain ⟨s', h1, -⟩ := h.none hc
    exact nthCallE_ok_zero (s' := (⟨[], i, some s'⟩, P.after grow c b)) (by simp [collMapPath, collAdvance, h1])
  | succ k ih =>
    intro c b i hc
    obtain ⟨s', h1, h2⟩ := h.none hc
    rw [nthCallE_ok_succ (o := Option.none) (s' := (⟨[], i, some s'⟩, P.after grow c b))
      (by simp [collMapPath, collAdvance, h1]), ih h2]

theorem collMapPath_walk (h : Walks P R) (hst : Starts P R start dep) (ns : List N) :
    ∀ (ds : List Nat) {c : S} {b : Buf} (i : Nat), R c ds → P.pushes c = true → P.len c ≠ 0 →
      (∀ d ∈ ds, d ≠ 0) →
      (∀ n ∈ ns, ∀ d ∈ dep n, d ≠ 0) →
      Gives (P.collMapPath grow start) (⟨ns, i, some c⟩, b)
        (moves grow b.cap (P.len c :: ds) ++ ns.flatMap fun n => true :: moves grow (grow 0) (1 :: dep n)) := by
  induction ns with
  | nil =>
    intro ds
    induction ds with
    | nil =>
      intro c b i hc _ _ _ _
      exact .nil fun k => collMapPath_ended grow h k hc
    | cons d ds ih =>
      intro c b i hc hp hl hds hns
      obtain ⟨v, s', h1, h2, h3, h4⟩ := h.some hc
      have := ih (b := b.push grow (P.len c)) i h2 h4 (by rw [h3]; exact hds d (by simp))
        (fun d hd => hds d (by simp [hd])) hns
      rw [h3] at this
      rw [moves_cons, List.cons_append]
      exact .cons (by simp [collMapPath, h1, after, hp]) this
  | cons n ns ihn =>
    intro ds
    induction ds with
    | nil =>
      intro c b i hc hp hl _ hns
      obtain ⟨s', h1, -⟩ := h.none hc
      obtain ⟨v, s'', i1, i2, i3, i4⟩ := h.some (hst.rel n i)
      have := ihn (dep n) (b := (P.after grow c b).renew grow) (i + 1) i2 i4 (by simp [i3])
        (hns n (by simp)) (fun m hm => hns m (by simp [hm]))
      rw [i3] at this
      simp only [moves, List.nil_append, List.flatMap_cons, List.cons_append]
      have hd : (Slice.mk b.id (P.len c) ((P.after grow c b).renew grow).id).dangles = true := by
        have : b.id ≤ (P.after grow c b).id := by
          simp only [after, hp, if_true, Buf.push]
          split
          · exact Nat.le_refl _
          · exact Nat.le_succ _
        simp [Slice.dangles, Buf.renew, hl]
        omega
      refine Gives.eq ?_ (congrArg (· :: _) hd)
      refine .cons (s' := (⟨ns, i + 1, some s''⟩, (P.after grow c b).renew grow)) ?_ this
      simp only [collMapPath, h1, collAdvance, i1]
      simp [after, hst.pushes n i]
    | cons d ds ih =>
      intro c b i hc hp hl hds hns
      obtain ⟨v, s', h1, h2, h3, h4⟩ := h.some hc
      have := ih (b := b.push grow (P.len c)) i h2 h4 (by rw [h3]; exact hds d (by simp))
        (fun d hd => hds d (by simp [hd])) hns
      rw [h3] at this
      rw [moves_cons, List.cons_append]
      exact .cons (by simp [collMapPath, h1, after, hp]) this

/-- The calls on a collection. -/
theorem collMapPath_trees (h : Walks P R) (hst : Starts P R start dep) (n : N) (ns : List N)
    (hns : ∀ n, ∀ d ∈ dep n, d ≠ 0) :
    Gives (P.collMapPath grow start) (.new (n :: ns), Buf.none)
      (false :: moves grow (grow 0) (1 :: dep n) ++ ns.flatMap fun n => true :: moves grow (grow 0) (1 :: dep n)) := by
  obtain ⟨v, s'', i1, i2, i3, i4⟩ := h.some (hst.rel n 0)
  have := collMapPath_walk grow h hst ns (dep n) (b := Buf.none.renew grow) 1 i2 i4 (by simp [i3])
    (hns n) (fun m _ => hns m)
  rw [i3] at this
  refine .cons (x := ⟨0, 0, 1⟩) (s' := (⟨ns, 1, some s''⟩, Buf.none.renew grow)) ?_ this
  simp only [collMapPath, CollPipe.State.new, collAdvance, i1]
  simp [after, hst.pushes n 0, Buf.none, Buf.renew]

theorem collMapPath_empty (P : Spied S V) (start : N → List Nat → S) :
    Gives (P.collMapPath grow start) (.new [], Buf.none) [] := by
  refine .nil fun k => ?_
  induction k with
  | zero => rfl
  | succ k ih => exact ih

end Spied

/-! ## The sources -/

namespace Track

section General
variable {N : Type u} {V : Type v} [TreeNode N V]

theorem loop_pushes {st : List (List N)} {path : List Nat} {v : V} {s' : State N (List N) N}
    (h : loop st path = .ok (some v, s')) : spied.pushes s' = true := by
  fun_induction loop st path with
  | case1 => simp at h
  | case2 => simp at h
  | case3 c cs rest p ps =>
    simp only [Except.ok.injEq, Prod.mk.injEq] at h
    rw [← h.2]
    rfl
  | case4 rest path ih => exact ih h

theorem next_pushes {s : State N (List N) N} {v : V} {s' : State N (List N) N}
    (h : next s = .ok (some v, s')) : spied.pushes s' = true := by
  obtain ⟨root, path, onDeck, stack⟩ := s
  rcases root with _ | r
  · rcases onDeck with _ | cs
    · exact loop_pushes (show loop stack path = _ from h)
    · exact loop_pushes (show loop (cs :: stack) _ = _ from h)
  · simp only [next, Except.ok.injEq, Prod.mk.injEq] at h
    rw [← h.2]
    rfl

/-- The source is about to give nodes at these depths. -/
def AtDepths (s : State N (List N) N) (ds : List Nat) : Prop :=
  ∃ (a : List Nat) (l : List (Lab V)), Rel s a l ∧ ds = (Tree.preorderL l).map fun q => q.1.length

theorem walks : Spied.Walks (spied (N := N)) (AtDepths (V := V)) where
  none := by
    rintro s ⟨a, l, h, hd⟩
    cases l with
    | cons t l => obtain ⟨⟨p, x⟩, cs⟩ := t; simp [Tree.preorderL, Tree.preorder] at hd
    | nil =>
      obtain ⟨s', a', h1, h2⟩ := (enum Unit).next_none (w := ()) h (by rw [visitNext])
      simp only [pipe] at h1
      split at h1
      · simp at h1
      · next h3 =>
        simp only [Except.ok.injEq, Prod.mk.injEq] at h1
        rw [h1.1, h1.2.1] at h3
        exact ⟨s', h3, a', [], h2, rfl⟩
  some := by
    rintro s d ds ⟨a, l, h, hd⟩
    cases l with
    | nil => simp [Tree.preorderL] at hd
    | cons t l =>
      obtain ⟨⟨p, x⟩, cs⟩ := t
      obtain ⟨s', h1, h2, -⟩ := (enum Unit).next_some (w := ()) (y := x) (cs := cs) (rest := l) (a' := p) (w' := ()) h
        (by simp [visitNext, idVisitor])
      simp only [pipe] at h1
      split at h1
      · simp at h1
      · next h3 =>
        simp only [Except.ok.injEq, Prod.mk.injEq] at h1
        rw [h1.1, h1.2.1] at h3
        simp only [Tree.preorderL, Tree.preorder, List.cons_append, List.map_cons, List.cons.injEq] at hd
        refine ⟨x, s', h3, ⟨p, cs ++ l, h2, ?_⟩, ?_, next_pushes h3⟩
        · rw [hd.2, Tree.preorderL_eq, Tree.preorderL_eq, Tree.preorderL_eq, List.flatMap_append]
        · rw [hd.1, h2.1]; simp [spied]

theorem atDepths_new (n : N) (p : List Nat) : AtDepths (V := V) (State.new n p.reverse) ((treeOf n).depthsFrom p.length) :=
  ⟨p, _, rel_new n p, by rw [← Tree.depthsFrom_wpaths]; simp [Tree.preorderL]⟩

end General

section Binary
variable {N : Type u} {V : Type v} [BinNode N V]

theorem binLoop_pushes {st : List (List (Option N))} {path : List Nat} {v : V} {s' : State N (Option N × Option N) (Option N)}
    (h : binLoop st path = .ok (some v, s')) : binSpied.pushes s' = true := by
  fun_induction binLoop st path with
  | case1 => simp at h
  | case2 => simp at h
  | case3 c cs rest p ps =>
    simp only [Except.ok.injEq, Prod.mk.injEq] at h
    rw [← h.2]
    rfl
  | case4 cs rest p ps ih => exact ih h
  | case5 rest path ih => exact ih h

theorem binNext_pushes {s : State N (Option N × Option N) (Option N)} {v : V} {s' : State N (Option N × Option N) (Option N)}
    (h : binNext s = .ok (some v, s')) : binSpied.pushes s' = true := by
  obtain ⟨root, path, onDeck, stack⟩ := s
  rcases root with _ | r
  · rcases onDeck with _ | cs
    · exact binLoop_pushes (show binLoop stack path = _ from h)
    · exact binLoop_pushes (show binLoop ([cs.1, cs.2] :: stack) _ = _ from h)
  · simp only [binNext, Except.ok.injEq, Prod.mk.injEq] at h
    rw [← h.2]
    rfl

/-- The source is about to give nodes at these depths. -/
def BinAtDepths (s : State N (Option N × Option N) (Option N)) (ds : List Nat) : Prop :=
  ∃ (a : List Nat) (l : List (Lab V)), BinRel s a l ∧ ds = (Tree.preorderL l).map fun q => q.1.length

theorem binWalks : Spied.Walks (binSpied (N := N)) (BinAtDepths (V := V)) where
  none := by
    rintro s ⟨a, l, h, hd⟩
    cases l with
    | cons t l => obtain ⟨⟨p, x⟩, cs⟩ := t; simp [Tree.preorderL, Tree.preorder] at hd
    | nil =>
      obtain ⟨s', a', h1, h2⟩ := (binEnum Unit).next_none (w := ()) h (by rw [visitNext])
      simp only [binPipe] at h1
      split at h1
      · simp at h1
      · next h3 =>
        simp only [Except.ok.injEq, Prod.mk.injEq] at h1
        rw [h1.1, h1.2.1] at h3
        exact ⟨s', h3, a', [], h2, rfl⟩
  some := by
    rintro s d ds ⟨a, l, h, hd⟩
    cases l with
    | nil => simp [Tree.preorderL] at hd
    | cons t l =>
      obtain ⟨⟨p, x⟩, cs⟩ := t
      obtain ⟨s', h1, h2, -⟩ := (binEnum Unit).next_some (w := ()) (y := x) (cs := cs) (rest := l) (a' := p) (w' := ()) h
        (by simp [visitNext, idVisitor])
      simp only [binPipe] at h1
      split at h1
      · simp at h1
      · next h3 =>
        simp only [Except.ok.injEq, Prod.mk.injEq] at h1
        rw [h1.1, h1.2.1] at h3
        simp only [Tree.preorderL, Tree.preorder, List.cons_append, List.map_cons, List.cons.injEq] at hd
        refine ⟨x, s', h3, ⟨p, cs ++ l, h2, ?_⟩, ?_, binNext_pushes h3⟩
        · rw [hd.2, Tree.preorderL_eq, Tree.preorderL_eq, Tree.preorderL_eq, List.flatMap_append]
        · rw [hd.1, h2.1]; simp [binSpied]

theorem binAtDepths_new (n : N) (p : List Nat) :
    BinAtDepths (V := V) (State.new n p.reverse) ((binTreeOf n).toTree.depthsFrom p.length) :=
  ⟨p, _, binRel_new n p, by rw [← BinTree.depthsFrom_paths]; simp [Tree.preorderL]⟩

end Binary

end Track

/-! ## When some call dangles -/

theorem moves_mem {grow : Nat → Nat} (ds : List Nat) : ∀ {c : Nat}, 0 < c →
    (true ∈ moves grow c ds ↔ ∃ d ∈ ds.dropLast, c ≤ d) := by
  induction ds with
  | nil => simp [moves]
  | cons d ds ih =>
    intro c hc
    cases ds with
    | nil => simp [moves]
    | cons e ds =>
      rw [moves, List.dropLast_cons_of_ne_nil (by simp)]
      split <;> rename_i h
      · simp [ih hc, show ¬ c ≤ d by omega]
      · simp [show 0 < d by omega, show c ≤ d by omega]

end TreeIter
