import Verif.Lemmas.Lazy
import Verif.Model.AtPath

/-!
# Positions in cut trees
-/

universe u v

namespace TreeIter

variable {N : Type u} {V : Type v} {β : Type u}

/-- From a node to its children `g` grows by at most one. -/
inductive Graded (g : β → Nat) : Tree β → Prop
  | mk (a : β) (cs : List (Tree β)) (h : ∀ c ∈ cs, g c.value ≤ g a + 1) (h' : ∀ c ∈ cs, Graded g c) :
    Graded g (.node a cs)

theorem Graded.bfsF {g : β → Nat} (ts : List (Tree β)) (M : Nat) (h : ∀ t ∈ ts, Graded g t ∧ g t.value ≤ M) (k : Nat)
    (b : β) (hb : (bfsF ts)[k]? = some b) : g b ≤ M + k := by
  induction k generalizing ts M with
  | zero =>
    cases ts with
    | nil => simp at hb
    | cons t ts =>
      obtain ⟨a, cs⟩ := t
      rw [bfsF_cons] at hb
      simp only [List.getElem?_cons_zero, Option.some.injEq] at hb
      subst hb
      exact (h _ (List.mem_cons_self ..)).2
  | succ k ih =>
    cases ts with
    | nil => simp at hb
    | cons t ts =>
      obtain ⟨a, cs⟩ := t
      rw [bfsF_cons, List.getElem?_cons_succ] at hb
      have := ih (ts ++ cs) (M + 1) (fun t ht => ?_) hb
      · omega
      · rcases List.mem_append.1 ht with ht | ht
        · have := h t (List.mem_cons_of_mem _ ht)
          exact ⟨this.1, by omega⟩
        · obtain ⟨h1, h2⟩ := h _ (List.mem_cons_self ..)
          cases h1 with
          | mk _ _ h3 h4 =>
            have := h3 t ht
            simp only [Tree.value] at h2
            exact ⟨h4 t ht, by omega⟩

theorem Graded.preF {g : β → Nat} (ts : List (Tree β)) (M : Nat) (h : ∀ t ∈ ts, Graded g t ∧ g t.value ≤ M) (k : Nat)
    (b : β) (hb : (ts.flatMap Tree.preorder)[k]? = some b) : g b ≤ M + k := by
  induction k generalizing ts M with
  | zero =>
    cases ts with
    | nil => simp at hb
    | cons t ts =>
      obtain ⟨a, cs⟩ := t
      simp only [List.flatMap_cons, Tree.preorder, List.cons_append, List.getElem?_cons_zero, Option.some.injEq] at hb
      subst hb
      exact (h _ (List.mem_cons_self ..)).2
  | succ k ih =>
    cases ts with
    | nil => simp at hb
    | cons t ts =>
      obtain ⟨a, cs⟩ := t
      simp only [List.flatMap_cons, Tree.preorder, List.cons_append, List.getElem?_cons_succ] at hb
      have := ih (cs ++ ts) (M + 1) (fun t ht => ?_) (by simpa [Tree.preorderL_eq] using hb)
      · omega
      · rcases List.mem_append.1 ht with ht | ht
        · obtain ⟨h1, h2⟩ := h _ (List.mem_cons_self ..)
          cases h1 with
          | mk _ _ h3 h4 =>
            have := h3 t ht
            simp only [Tree.value] at h2
            exact ⟨h4 t ht, by omega⟩
        · have := h t (List.mem_cons_of_mem _ ht)
          exact ⟨this.1, by omega⟩

theorem withPosL_root (cs : List (Tree β)) (path : List Nat) (anc : List β) (i : Nat) :
    ∀ t ∈ Tree.withPosL path anc i cs, ∃ c ∈ cs, ∃ j, t = c.withPos (path ++ [j]) anc := by
  induction cs generalizing i with
  | nil => simp [Tree.withPosL]
  | cons c cs ih =>
    intro t ht
    rw [Tree.withPosL] at ht
    rcases List.mem_cons.1 ht with rfl | ht
    · exact ⟨c, List.mem_cons_self .., i, rfl⟩
    · obtain ⟨d, hd, j, rfl⟩ := ih _ t ht
      exact ⟨d, List.mem_cons_of_mem _ hd, j, rfl⟩

theorem withPos_value_path (t : Tree β) (path : List Nat) (anc : List β) : (t.withPos path anc).value.path = path := by
  cases t
  rfl

theorem withPos_graded (t : Tree β) (path : List Nat) (anc : List β) :
    Graded (fun p : Pos β => p.path.length) (t.withPos path anc) := by
  induction t using Tree.ind generalizing path anc with
  | h a cs ih =>
    rw [Tree.withPos]
    refine .mk _ _ ?_ ?_
    · intro c hc
      obtain ⟨d, _, j, rfl⟩ := withPosL_root cs path _ 0 c hc
      simp [withPos_value_path]
    · intro c hc
      obtain ⟨d, hd, j, rfl⟩ := withPosL_root cs path _ 0 c hc
      exact ih d hd _ _

/-- Before a node at depth `d` there are at least `d` others. -/
theorem preorder_path_le (t : Tree β) (k : Nat) (p : Pos β) (h : t.located.preorder[k]? = some p) :
    p.path.length ≤ k := by
  have := Graded.preF (g := fun p : Pos β => p.path.length) [t.located] 0
    (by simp [Tree.located, withPos_graded, withPos_value_path]) k p (by simpa using h)
  omega

theorem levelOrder_path_le (t : Tree β) (k : Nat) (p : Pos β) (h : t.located.levelOrder[k]? = some p) :
    p.path.length ≤ k := by
  have := Graded.bfsF (g := fun p : Pos β => p.path.length) [t.located] 0
    (by simp [Tree.located, withPos_graded, withPos_value_path]) k p (by simpa [bfsF_singleton] using h)
  omega

/-- The budget left at a position of a cut tree. -/
theorem Cut.budget_pos [SplitNode N V] (n : N) (d : Nat) (path : List Nat) (anc : List (Cut N)) :
    ∀ p ∈ ((unfold (⟨n, d⟩ : Cut N)).withPos path anc).preorder, p.item.budget + p.path.length = d + path.length := by
  induction d generalizing n path anc with
  | zero =>
    rw [unfold_eq, Cut.kids_zero]
    simp [Tree.withPos, Tree.withPosL, Tree.preorder, Tree.preorderL]
  | succ d ih =>
    rw [unfold_eq, Cut.kids_succ, Tree.withPos, Tree.preorder, Tree.preorderL_eq]
    intro p hp
    rcases List.mem_cons.1 hp with rfl | hp
    · rfl
    · obtain ⟨t, ht, hp⟩ := List.mem_flatMap.1 hp
      obtain ⟨c, hc, j, rfl⟩ := withPosL_root _ _ _ _ t ht
      simp only [List.map_map, List.mem_map] at hc
      obtain ⟨c, _, rfl⟩ := hc
      have := ih c _ _ p hp
      simp only [List.length_append, List.length_cons, List.length_nil] at this
      omega

/-- Contexts in a cut tree, at positions above the cut, are those of the whole tree. -/
theorem Cut.ctx_strip [SplitNode N V] (p : Pos (Cut N)) (h : 1 ≤ p.item.budget) :
    (Pos.ctx p).strip = Pos.ctx (p.map Cut.node) := by
  simp only [Pos.ctx, Ctx.strip, Pos.map, Option.map_some, Cut.kids_node _ h, List.map_map, Ctx.mk.injEq, true_and,
    and_true]
  exact List.map_congr_left fun t _ => Cut.val_eq t

theorem Cut.arity [SplitNode N V] (n : N) (d b : Nat) (h : ∀ m ∈ (cut d n).preorder, (kids m).length ≤ b) :
    ∀ t ∈ (unfold (⟨n, d⟩ : Cut N)).preorder, (kids t).length ≤ b := by
  intro t ht
  have : t.node ∈ (cut d n).preorder := by
    rw [← Cut.unfold_node, Tree.preorder_map]
    exact List.mem_map_of_mem ht
  have := h _ this
  obtain ⟨m, _ | e⟩ := t
  · simp [Cut.kids_zero]
  · simpa [Cut.kids_succ] using this

/-! ## Levels do not change when the cut is moved down -/

theorem atDepth_cut [SplitNode N V] (j d e : Nat) (hd : j ≤ d) (he : j ≤ e) (n : N) (path : List Nat) (anc : List N) :
    ((cut d n).withPos path anc).atDepth j = ((cut e n).withPos path anc).atDepth j := by
  induction j generalizing d e n path anc with
  | zero => cases d <;> cases e <;> rfl
  | succ j ih =>
    obtain ⟨d, rfl⟩ : ∃ d', d = d' + 1 := ⟨d - 1, by omega⟩
    obtain ⟨e, rfl⟩ : ∃ e', e = e' + 1 := ⟨e - 1, by omega⟩
    simp only [cut, Tree.withPos, atDepth_succ, Tree.children]
    generalize kids n = cs
    generalize anc ++ [n] = anc'
    suffices ∀ i, (Tree.withPosL path anc' i (cs.map (cut d))).flatMap (Tree.atDepth j) =
        (Tree.withPosL path anc' i (cs.map (cut e))).flatMap (Tree.atDepth j) from this 0
    induction cs with
    | nil => simp
    | cons c cs ihc =>
      intro i
      simp only [List.map_cons, Tree.withPosL, List.flatMap_cons, ihc, ih d e (by omega) (by omega) c]

theorem height_withPos (t : Tree β) (path : List Nat) (anc : List β) : (t.withPos path anc).height = t.height := by
  have h := congrArg Tree.height (map_item_withPos t path anc)
  rwa [Tree.height_map] at h

theorem height_cut [SplitNode N V] (d : Nat) (n : N) : (cut d n).height ≤ d + 1 := by
  induction d generalizing n with
  | zero => simp [cut, Tree.height, Tree.heightL]
  | succ d ih =>
    rw [cut, Tree.height]
    generalize kids n = cs
    have : Tree.heightL (cs.map (cut d)) ≤ d + 1 := by
      induction cs with
      | nil => simp [Tree.heightL]
      | cons c cs ihc =>
        rw [List.map_cons, Tree.heightL]
        exact Nat.max_le.2 ⟨ih c, ihc⟩
    omega

theorem levelOrder_cut [SplitNode N V] (d e : Nat) (h : d ≤ e) (n : N) :
    (cut d n).located.levelOrder <+: (cut e n).located.levelOrder := by
  have key : ∀ f, (cut f n).located.levelOrder = (List.range (f + 1)).flatMap (fun j => (cut f n).located.atDepth j) := by
    intro f
    rw [← bfsF_singleton, bfsF_eq_levels (f + 1) _ (by
      intro t ht
      rw [List.mem_singleton.1 ht, Tree.located, height_withPos]
      exact height_cut f n)]
    simp
  obtain ⟨k, rfl⟩ := Nat.exists_eq_add_of_le h
  have e : List.range (d + k + 1) = List.range (d + 1) ++ (List.range k).map (d + 1 + ·) := by
    rw [← List.range_add]
    congr 1
    omega
  rw [key, key, e, List.flatMap_append]
  rw [show (List.range (d + 1)).flatMap (fun j => (cut d n).located.atDepth j) =
      (List.range (d + 1)).flatMap (fun j => (cut (d + k) n).located.atDepth j) from
    List.flatMap_congr fun j hj => by
      have := List.mem_range.1 hj
      exact atDepth_cut j d (d + k) (by omega) (by omega) n [] []]
  exact List.prefix_append _ _

/-- A node at depth `d` is a position of the cut at any depth from `d` on. -/
theorem mem_cut [SplitNode N V] (n m : N) (p : List Nat) (h : below n p = some m) :
    ∃ q ∈ (cut p.length n).located.levelOrder, q.path = p ∧ q.item = m := by
  suffices ∀ (path : List Nat) (anc : List N), ∃ q ∈ ((cut p.length n).withPos path anc).preorder,
      q.path = path ++ p ∧ q.item = m by
    obtain ⟨q, h1, h2, h3⟩ := this [] []
    exact ⟨q, (levelOrder_perm_preorder _).mem_iff.2 h1, by simpa using h2, h3⟩
  induction p generalizing n with
  | nil =>
    intro path anc
    simp only [below, Option.some.injEq] at h
    subst h
    refine ⟨⟨path, anc ++ [n], n⟩, ?_, by simp, rfl⟩
    simp [cut, Tree.withPos, Tree.preorder]
  | cons i p ih =>
    intro path anc
    rw [below] at h
    obtain ⟨c, hc, h⟩ := Option.bind_eq_some_iff.1 h
    have hmem : (cut p.length c).withPos (path ++ [i]) (anc ++ [n]) ∈
        Tree.withPosL path (anc ++ [n]) 0 ((kids n).map (cut p.length)) := by
      suffices ∀ (cs : List N) (i0 i : Nat), cs[i]? = some c → (cut p.length c).withPos (path ++ [i0 + i]) (anc ++ [n]) ∈
          Tree.withPosL path (anc ++ [n]) i0 (cs.map (cut p.length)) by
        simpa using this (kids n) 0 i hc
      intro cs
      induction cs with
      | nil => simp
      | cons e cs ihc =>
        intro i0 i hi
        rw [List.map_cons, Tree.withPosL]
        cases i with
        | zero =>
          simp only [List.getElem?_cons_zero, Option.some.injEq] at hi
          subst hi
          exact List.mem_cons_self ..
        | succ i =>
          refine List.mem_cons_of_mem _ ?_
          have := ihc (i0 + 1) i (by simpa using hi)
          rwa [show i0 + (i + 1) = i0 + 1 + i by omega]
    obtain ⟨q, h1, h2, h3⟩ := ih c h (path ++ [i]) (anc ++ [n])
    refine ⟨q, ?_, by simpa using h2, h3⟩
    simp only [List.length_cons, cut, Tree.withPos, Tree.preorder, Tree.preorderL_eq]
    exact List.mem_cons_of_mem _ (List.mem_flatMap.2 ⟨_, hmem, h1⟩)

end TreeIter
