import Verif.Lemmas.PipeStages

/-! # The sources of pipelines -/

universe u v w x y z

namespace TreeIter

/-! ## Labels -/

namespace Tree
variable {α : Type u}

mutual
/-- Every node with its path, the root being at `p`. -/
def paths (p : List Nat) : Tree α → Tree (List Nat × α)
  | .node a cs => .node (p, a) (pathsL p 0 cs)
/-- A forest whose first tree is child number `i` of the node at `p`. -/
def pathsL (p : List Nat) (i : Nat) : List (Tree α) → List (Tree (List Nat × α))
  | [] => []
  | t :: ts => t.paths (p ++ [i]) :: pathsL p (i + 1) ts
end

mutual
/-- As `paths`, with path segments that wrap around as a `usize` does. -/
def wpaths (p : List Nat) : Tree α → Tree (List Nat × α)
  | .node a cs => .node (p, a) (wpathsL p usizeMax cs)
/-- A forest whose first tree comes after child number `i` of the node at `p`. -/
def wpathsL (p : List Nat) (i : Nat) : List (Tree α) → List (Tree (List Nat × α))
  | [] => []
  | t :: ts => t.wpaths (p ++ [wrapSucc i]) :: wpathsL p (wrapSucc i) ts
end

end Tree

namespace BinTree
variable {α : Type u}

mutual
/-- The tree of nodes with their paths; left steps are `0`, right steps are `1`. -/
def paths (p : List Nat) : BinTree α → Tree (List Nat × α)
  | .node a l r => .node (p, a) (pathsO (p ++ [0]) l ++ pathsO (p ++ [1]) r)
/-- The trees in a slot. -/
def pathsO (p : List Nat) : Option (BinTree α) → List (Tree (List Nat × α))
  | none => []
  | some t => [t.paths p]
end

end BinTree

/-- The visitor of a source: emit every node; the state is the path of the last node. -/
def idVisitor (σ : Type w) (U : Type v) : Visitor (List Nat) σ U U where
  visit _ w p x := (p, w, .emit x true)
  path a := a

namespace Track

section General
variable {N : Type u} {V : Type v} [TreeNode N V]

/-- The nodes still to come from the stack of child iterators. -/
def stackF : List (List N) → List Nat → List (Lab V)
  | [], _ => []
  | _ :: _, [] => []
  | cs :: st, i :: ps => Tree.wpathsL ps.reverse i (cs.map treeOf) ++ stackF st ps

/-- The nodes still to come. -/
def restF (s : State N (List N) N) : List (Lab V) :=
  Tree.wpathsL s.path.reverse usizeMax ((s.onDeck.getD []).map treeOf) ++ stackF s.stack s.path

/-- The state of the path-tracking iterator, the last path and the nodes still to come. -/
def Rel (s : State N (List N) N) (a : List Nat) (l : List (Lab V)) : Prop :=
  a = s.path.reverse ∧ s.stack.length ≤ s.path.length ∧
    match s.root with
    | some r => s.onDeck = none ∧ s.stack = [] ∧ l = [(treeOf r).wpaths s.path.reverse]
    | none => l = restF s

theorem treeOf_eq (n : N) : treeOf n = .node (val n) ((kids n).map treeOf) := by
  rw [treeOf, unfold_eq, Tree.map_node, List.map_map]
  rfl

theorem loop_nil {st : List (List N)} {path : List Nat} (hl : st.length ≤ path.length) (h : stackF st path = []) :
    ∃ path', loop st path = .ok (none, ⟨none, path', none, []⟩) := by
  fun_induction loop st path with
  | case1 path => exact ⟨path, rfl⟩
  | case2 => simp at hl
  | case3 c cs rest p ps => simp [stackF, Tree.wpathsL] at h
  | case4 rest path ih =>
    cases path with
    | nil => simp at hl
    | cons i ps => exact ih (by simpa using hl) (by simpa [stackF, Tree.wpathsL] using h)

theorem loop_cons {st : List (List N)} {path : List Nat} {p : List Nat} {x : V} {cs rest : List (Lab V)}
    (hl : st.length ≤ path.length) (h : stackF st path = .node (p, x) cs :: rest) :
    ∃ s', loop st path = .ok (some x, s') ∧ Rel s' p (cs ++ rest) ∧ Rel { s' with onDeck := none } p rest := by
  fun_induction loop st path with
  | case1 path => simp [stackF] at h
  | case2 => simp at hl
  | case3 c ds st' i ps =>
    simp only [stackF, List.map_cons, Tree.wpathsL, List.cons_append, List.cons.injEq] at h
    obtain ⟨h1, h2⟩ := h
    rw [treeOf_eq, Tree.wpaths] at h1
    simp only [Tree.node.injEq, Prod.mk.injEq] at h1
    obtain ⟨⟨rfl, rfl⟩, rfl⟩ := h1
    refine ⟨_, rfl, ⟨by simp, by simpa using hl, ?_⟩, ⟨by simp, by simpa using hl, ?_⟩⟩
    · simp [restF, stackF, h2]
    · simp [restF, stackF, h2, Tree.wpathsL]
  | case4 st' path ih =>
    cases path with
    | nil => simp at hl
    | cons i ps => exact ih (by simpa using hl) (by simpa [stackF, Tree.wpathsL] using h)

theorem enum (σ : Type w) : Enum (pipe (N := N) σ) (idVisitor σ V) Rel where
  path h := h.1.symm
  next_none := by
    rintro ⟨root, path, onDeck, stack⟩ a l w a' w' ⟨rfl, hl, h⟩ hv
    cases l with
    | cons t ts => obtain ⟨⟨p, x⟩, cs⟩ := t; simp [visitNext, idVisitor] at hv
    | nil =>
      simp only [visitNext, Prod.mk.injEq, true_and] at hv
      obtain ⟨-, rfl⟩ := hv
      dsimp only at hl h
      cases root with
      | some r => simp at h
      | none =>
        cases onDeck with
        | none =>
          obtain ⟨path', h1⟩ := loop_nil hl (by simpa [restF, Tree.wpathsL] using h.symm)
          refine ⟨_, path'.reverse, by simp only [pipe, next, h1]; rfl, rfl, by simp, ?_⟩
          simp [restF, stackF, Tree.wpathsL]
        | some cs =>
          obtain ⟨path', h1⟩ := loop_nil (st := cs :: stack) (path := usizeMax :: path) (by simpa using hl)
            (by simpa [restF, stackF] using h.symm)
          refine ⟨_, path'.reverse, by simp only [pipe, next, h1]; rfl, rfl, by simp, ?_⟩
          simp [restF, stackF, Tree.wpathsL]
  next_some := by
    rintro ⟨root, path, onDeck, stack⟩ a l w y cs rest a' w' ⟨rfl, hl, h⟩ hv
    cases l with
    | nil => simp [visitNext] at hv
    | cons t ts =>
      obtain ⟨⟨p, x⟩, ds⟩ := t
      simp only [visitNext, idVisitor, if_true, Prod.mk.injEq, Option.some.injEq] at hv
      obtain ⟨⟨rfl, rfl, rfl⟩, rfl, rfl⟩ := hv
      dsimp only at hl h
      cases root with
      | some r =>
        obtain ⟨rfl, rfl, h⟩ := h
        rw [treeOf_eq, Tree.wpaths] at h
        simp only [List.cons.injEq, Tree.node.injEq, Prod.mk.injEq] at h
        obtain ⟨⟨⟨rfl, rfl⟩, rfl⟩, rfl⟩ := h
        refine ⟨⟨none, path, some (kids r), []⟩, by simp only [pipe, next], ⟨rfl, by simp, ?_⟩, rfl, by simp [pipe], ?_⟩
        · simp [restF, stackF]
        · simp [restF, stackF, Tree.wpathsL, pipe]
      | none =>
        cases onDeck with
        | none =>
          obtain ⟨s', h1, h2, h3⟩ := loop_cons hl (by simpa [restF, Tree.wpathsL] using h.symm)
          exact ⟨s', by simp only [pipe, next, h1], h2, h3⟩
        | some cs =>
          obtain ⟨s', h1, h2, h3⟩ := loop_cons (st := cs :: stack) (path := usizeMax :: path) (by simpa using hl)
            (by simpa [restF, stackF] using h.symm)
          exact ⟨s', by simp only [pipe, next, h1], h2, h3⟩

theorem rel_new (n : N) (path : List Nat) : Rel (State.new n path.reverse) path [(treeOf n).wpaths path] := by
  simp [Rel, State.new]

end General

section Binary
variable {N : Type u} {V : Type v} [BinNode N V]

/-- The trees in the remaining slots of a node at `p`, slot number `i` having been visited last. -/
def slotsF (p : List Nat) (i : Nat) : List (Option N) → List (Lab V)
  | [] => []
  | o :: os => BinTree.pathsO (p ++ [wrapSucc i]) (o.map binTreeOf) ++ slotsF p (wrapSucc i) os

/-- The nodes still to come from the stack of child iterators. -/
def binStackF : List (List (Option N)) → List Nat → List (Lab V)
  | [], _ => []
  | _ :: _, [] => []
  | cs :: st, i :: ps => slotsF ps.reverse i cs ++ binStackF st ps

/-- The nodes still to come. -/
def binRestF (s : State N (Option N × Option N) (Option N)) : List (Lab V) :=
  (s.onDeck.map fun c => slotsF s.path.reverse usizeMax [c.1, c.2]).getD [] ++ binStackF s.stack s.path

/-- The state of the path-tracking iterator, the last path and the nodes still to come. -/
def BinRel (s : State N (Option N × Option N) (Option N)) (a : List Nat) (l : List (Lab V)) : Prop :=
  a = s.path.reverse ∧ s.stack.length ≤ s.path.length ∧
    match s.root with
    | some r => s.onDeck = none ∧ s.stack = [] ∧ l = [(binTreeOf r).paths s.path.reverse]
    | none => l = binRestF s

theorem binTreeOf_eq (n : N) :
    binTreeOf n = .node (val2 n) ((split2 n).2.1.map binTreeOf) ((split2 n).2.2.map binTreeOf) := by
  rw [binTreeOf, unfold2_eq, BinTree.map, BinTree.mapO_eq, BinTree.mapO_eq, Option.map_map, Option.map_map]
  rfl

theorem slotsF_new (p : List Nat) (l r : Option N) :
    slotsF p usizeMax [l, r] =
      BinTree.pathsO (p ++ [0]) (l.map binTreeOf) ++ BinTree.pathsO (p ++ [1]) (r.map binTreeOf) := by
  have h1 : wrapSucc usizeMax = 0 := by decide
  have h2 : wrapSucc 0 = 1 := by decide
  simp [slotsF, h1, h2]

theorem paths_binTreeOf (n : N) (p : List Nat) :
    (binTreeOf n).paths p = .node (p, val2 n) (slotsF p usizeMax [(split2 n).2.1, (split2 n).2.2]) := by
  rw [binTreeOf_eq, BinTree.paths, slotsF_new]

theorem binLoop_nil {st : List (List (Option N))} {path : List Nat} (hl : st.length ≤ path.length)
    (h : binStackF st path = []) :
    ∃ path', binLoop st path = .ok (none, ⟨none, path', none, []⟩) := by
  fun_induction binLoop st path with
  | case1 path => exact ⟨path, rfl⟩
  | case2 => simp at hl
  | case3 c cs rest p ps => simp [binStackF, slotsF, BinTree.pathsO] at h
  | case4 cs rest p ps ih => exact ih hl (by simpa [binStackF, slotsF, BinTree.pathsO] using h)
  | case5 rest path ih =>
    cases path with
    | nil => simp at hl
    | cons i ps => exact ih (by simpa using hl) (by simpa [binStackF, slotsF] using h)

theorem binLoop_cons {st : List (List (Option N))} {path : List Nat} {p : List Nat} {x : V} {cs rest : List (Lab V)}
    (hl : st.length ≤ path.length) (h : binStackF st path = .node (p, x) cs :: rest) :
    ∃ s', binLoop st path = .ok (some x, s') ∧ BinRel s' p (cs ++ rest) ∧ BinRel { s' with onDeck := none } p rest := by
  fun_induction binLoop st path with
  | case1 path => simp [binStackF] at h
  | case2 => simp at hl
  | case3 c ds st' i ps =>
    simp only [binStackF, slotsF, Option.map_some, BinTree.pathsO, List.cons_append, List.nil_append,
      List.cons.injEq, paths_binTreeOf] at h
    obtain ⟨h1, h2⟩ := h
    simp only [Tree.node.injEq, Prod.mk.injEq] at h1
    obtain ⟨⟨rfl, rfl⟩, rfl⟩ := h1
    refine ⟨_, rfl, ⟨by simp, by simpa using hl, ?_⟩, ⟨by simp, by simpa using hl, ?_⟩⟩
    · simp [binRestF, binStackF, slotsF, ← h2]
    · simp [binRestF, binStackF, h2]
  | case4 cs rest p ps ih => exact ih hl (by simpa [binStackF, slotsF, BinTree.pathsO] using h)
  | case5 st' path ih =>
    cases path with
    | nil => simp at hl
    | cons i ps => exact ih (by simpa using hl) (by simpa [binStackF, slotsF] using h)

theorem binEnum (σ : Type w) : Enum (binPipe (N := N) σ) (idVisitor σ V) BinRel where
  path h := h.1.symm
  next_none := by
    rintro ⟨root, path, onDeck, stack⟩ a l w a' w' ⟨rfl, hl, h⟩ hv
    cases l with
    | cons t ts => obtain ⟨⟨p, x⟩, cs⟩ := t; simp [visitNext, idVisitor] at hv
    | nil =>
      simp only [visitNext, Prod.mk.injEq, true_and] at hv
      obtain ⟨-, rfl⟩ := hv
      dsimp only at hl h
      cases root with
      | some r => simp at h
      | none =>
        cases onDeck with
        | none =>
          obtain ⟨path', h1⟩ := binLoop_nil hl (by simpa [binRestF] using h.symm)
          refine ⟨_, path'.reverse, by simp only [binPipe, binNext, h1]; rfl, rfl, by simp, ?_⟩
          simp [binRestF, binStackF]
        | some cs =>
          obtain ⟨path', h1⟩ := binLoop_nil (st := [cs.1, cs.2] :: stack) (path := usizeMax :: path) (by simpa using hl)
            (by simpa [binRestF, binStackF] using h.symm)
          refine ⟨_, path'.reverse, by simp only [binPipe, binNext, h1]; rfl, rfl, by simp, ?_⟩
          simp [binRestF, binStackF]
  next_some := by
    rintro ⟨root, path, onDeck, stack⟩ a l w y cs rest a' w' ⟨rfl, hl, h⟩ hv
    cases l with
    | nil => simp [visitNext] at hv
    | cons t ts =>
      obtain ⟨⟨p, x⟩, ds⟩ := t
      simp only [visitNext, idVisitor, if_true, Prod.mk.injEq, Option.some.injEq] at hv
      obtain ⟨⟨rfl, rfl, rfl⟩, rfl, rfl⟩ := hv
      dsimp only at hl h
      cases root with
      | some r =>
        obtain ⟨rfl, rfl, h⟩ := h
        rw [paths_binTreeOf] at h
        simp only [List.cons.injEq, Tree.node.injEq, Prod.mk.injEq] at h
        obtain ⟨⟨⟨rfl, rfl⟩, rfl⟩, rfl⟩ := h
        refine ⟨⟨none, path, some (split2 r).2, []⟩, by simp only [binPipe, binNext], ⟨rfl, by simp, ?_⟩, rfl,
          by simp [binPipe], ?_⟩
        · simp [binRestF, binStackF]
        · simp [binRestF, binStackF, binPipe]
      | none =>
        cases onDeck with
        | none =>
          obtain ⟨s', h1, h2, h3⟩ := binLoop_cons hl (by simpa [binRestF] using h.symm)
          exact ⟨s', by simp only [binPipe, binNext, h1], h2, h3⟩
        | some cs =>
          obtain ⟨s', h1, h2, h3⟩ := binLoop_cons (st := [cs.1, cs.2] :: stack) (path := usizeMax :: path) (by simpa using hl)
            (by simpa [binRestF, binStackF] using h.symm)
          exact ⟨s', by simp only [binPipe, binNext, h1], h2, h3⟩

theorem binRel_new (n : N) (path : List Nat) : BinRel (State.new n path.reverse) path [(binTreeOf n).paths path] := by
  simp [BinRel, State.new]

end Binary

end Track

/-! ## Wrapping path segments -/

section
variable {N : Type u} {V : Type v} [TreeNode N V]

theorem ArityOk.kid {n c : N} (h : ArityOk n) (hc : c ∈ kids n) : ArityOk c := by
  intro m hm
  refine h m ?_
  rw [unfold_eq, Tree.preorder_node, List.flatMap_map]
  exact List.mem_cons_of_mem _ (List.mem_flatMap.2 ⟨c, hc, hm⟩)

theorem ArityOk.self {n : N} (h : ArityOk n) : (kids n).length ≤ 2 ^ 64 :=
  h n (by rw [unfold_eq, Tree.preorder]; simp)

/-- If no node has more than `2 ^ 64` children, path segments do not wrap around. -/
theorem wpaths_treeOf {n : N} (h : ArityOk n) (p : List Nat) : (treeOf n).wpaths p = (treeOf n).paths p := by
  induction n using node_ind generalizing p with
  | h n ih =>
    rw [Track.treeOf_eq, Tree.wpaths, Tree.paths]
    congr 1
    have key : ∀ (cs : List N) (i j : Nat), wrapSucc j = i % 2 ^ 64 → i + cs.length ≤ 2 ^ 64 → (∀ c ∈ cs, c ∈ kids n) →
        Tree.wpathsL p j (cs.map treeOf) = Tree.pathsL p i (cs.map treeOf) := by
      intro cs
      induction cs with
      | nil => intros; rfl
      | cons c cs ihc =>
        intro i j hj hi hcs
        have hlt : i < 2 ^ 64 := by simp at hi; omega
        simp only [List.map_cons, Tree.wpathsL, Tree.pathsL]
        rw [hj, Nat.mod_eq_of_lt hlt]
        rw [ih c (hcs c (by simp)) (h.kid (hcs c (by simp)))]
        congr 1
        refine ihc (i + 1) i rfl (by simp at hi; omega) fun c hc => hcs c (by simp [hc])
    exact key (kids n) 0 usizeMax (by decide) (by simpa using h.self) fun c hc => hc

end

end TreeIter
