import Verif.Lemmas.Memory
import Verif.Lemmas.Bfs
import Verif.Lemmas.LazyPos
import Verif.Lemmas.Positions

/-! # Lemmas about the size of the breadth-first queue -/

universe u v w x

namespace TreeIter

namespace Bfs

variable {N : Type u} {V : Type v}

/-- The nodes at a depth. -/
def lvl [TreeNode N V] (n : N) : Nat → List N
  | 0 => [n]
  | d + 1 => (lvl n d).flatMap kids

/-- The number of nodes above a depth. -/
def above [TreeNode N V] (n : N) (d : Nat) : Nat := ((List.range d).map fun i => (lvl n i).length).sum

theorem above_succ [TreeNode N V] (n : N) (d : Nat) : above n (d + 1) = above n d + (lvl n d).length := by
  simp [above, List.range_succ]

theorem lvl_shift [TreeNode N V] (n : N) (d : Nat) : lvl n (d + 1) = (kids n).flatMap fun c => lvl c d := by
  induction d with
  | zero => simp [lvl]
  | succ d ih => rw [lvl, ih, List.flatMap_assoc]; rfl

theorem lvl_val [TreeNode N V] (d : Nat) : ∀ n : N, (lvl n d).map val = (treeOf n).atDepth d := by
  induction d with
  | zero => intro n; rw [treeOf_eq, atDepth_zero]; rfl
  | succ d ih =>
    intro n
    rw [lvl_shift, atDepth_succ, treeOf_eq, Tree.children, List.map_flatMap, List.flatMap_map]
    simp only [ih]

/-- The queue between two nodes: the iterator of `y` has yielded `q` and still holds `p`; after it come the iterators of
the nodes `Y` that follow `y` at its depth, and those of the nodes one level down that have been returned. -/
def Between [TreeNode N V] (n : N) (k : Nat) (queue : List (List N)) (d : Nat) (X : List N) (y : N)
    (Y q p : List N) : Prop :=
  lvl n d = X ++ y :: Y ∧ kids y = q ++ p ∧ queue = p :: (Y ++ (X.flatMap kids ++ q)).map kids ∧
    k = above n (d + 1) + (X.flatMap kids ++ q).length

theorem loop_between [TreeNode N V] (n : N) (k : Nat) (queue : List (List N)) :
    ∀ d X y Y q p, Between n k queue d X y Y q p →
      loop (N := N) queue = (none, ⟨none, []⟩) ∨
        ∃ d X y Y q c p queue', loop queue = (some (val c), ⟨none, queue'⟩) ∧
          Between n (k + 1) queue' d X y Y (q ++ [c]) p := by
  induction queue with
  | nil =>
    rintro d X y Y q p ⟨-, -, h, -⟩
    simp at h
  | cons it rest ih =>
    rintro d X y Y q p ⟨h1, h2, h3, h4⟩
    rw [List.cons.injEq] at h3
    obtain ⟨rfl, rfl⟩ := h3
    cases it with
    | cons c p =>
      refine .inr ⟨d, X, y, Y, q, c, p, _, rfl, h1, by simp [h2], ?_, ?_⟩
      · simp
      · simp only [List.length_append, List.length_cons, List.length_nil] at h4 ⊢
        omega
    | nil =>
      rw [loop]
      rw [List.append_nil] at h2
      cases Y with
      | cons y' Y =>
        refine ih d (X ++ [y]) y' Y [] (kids y') ⟨by simp [h1], by simp, ?_, ?_⟩
        · simp [h2]
        · rw [h4]; simp [h2]
      | nil =>
        have hl : lvl n (d + 1) = X.flatMap kids ++ q := by rw [lvl, h1]; simp [h2]
        rw [List.nil_append, ← hl] at ih ⊢
        cases hv : lvl n (d + 1) with
        | nil => left; rfl
        | cons v V =>
          rw [hv] at ih
          refine ih (d + 1) [] v V [] (kids v) ⟨by simp [hv], by simp, by simp, ?_⟩
          rw [above_succ, h4, ← hl]
          simp

/-- The queue after a call that returned a node below the root. -/
def AfterCall [TreeNode N V] (n : N) (k : Nat) (s : State N) (o : Option V) : Prop :=
  s.root = none ∧ ((s.queue = [] ∧ o = none) ∨ ∃ d X y Y q c p, o = some (val c) ∧ Between n k s.queue d X y Y (q ++ [c]) p)

theorem bfs_after [TreeNode N V] (n : N) (k : Nat) :
    AfterCall n (k + 2) (stateAfter next (k + 2) (new n)) (nthCall next (k + 1) (new n)) := by
  have step : ∀ (k : Nat) (s : State N) (o : Option V), AfterCall n k s o → AfterCall n (k + 1) (next s).2 (next s).1 := by
    rintro k ⟨root, queue⟩ o ⟨rfl, h⟩
    rcases h with ⟨rfl, -⟩ | ⟨d, X, y, Y, q, c, p, -, h⟩
    · exact ⟨rfl, .inl ⟨rfl, rfl⟩⟩
    · rcases loop_between n k queue _ _ _ _ _ _ h with h | ⟨d, X, y, Y, q, c, p, queue', h1, h2⟩
      · simp only [next, h]
        exact ⟨rfl, .inl ⟨rfl, rfl⟩⟩
      · simp only [next, h1]
        exact ⟨rfl, .inr ⟨d, X, y, Y, q, c, p, rfl, h2⟩⟩
  induction k with
  | zero =>
    have h0 : Between n 1 [kids n] 0 [] n [] [] (kids n) := ⟨rfl, rfl, rfl, by simp [above, lvl]⟩
    simp only [stateAfter, nthCall, next, new, List.nil_append]
    rcases loop_between n 1 [kids n] _ _ _ _ _ _ h0 with h | ⟨d, X, y, Y, q, c, p, queue', h1, h2⟩
    · rw [h]
      exact ⟨rfl, .inl ⟨rfl, rfl⟩⟩
    · rw [h1]
      exact ⟨rfl, .inr ⟨d, X, y, Y, q, c, p, rfl, h2⟩⟩
  | succ k ih =>
    have := step _ _ _ ih
    rw [stateAfter_snoc]
    simpa [nthCall] using this

/-! ## Transport along maps of nodes -/

theorem next_hom {N' : Type w} {V' : Type x} [TreeNode N V] [TreeNode N' V'] (h : N → N')
    (hk : ∀ n, kids (h n) = (kids n).map h) (root : Option N) (queue : List (List N)) :
    (next (V := V') ⟨root.map h, queue.map (List.map h)⟩).2.root = (next (V := V) ⟨root, queue⟩).2.root.map h ∧
      (next (V := V') ⟨root.map h, queue.map (List.map h)⟩).2.queue = (next (V := V) ⟨root, queue⟩).2.queue.map (List.map h) := by
  cases root with
  | some r => simp [next, hk]
  | none =>
    simp only [next, Option.map_none]
    induction queue with
    | nil => simp [loop]
    | cons it rest ih =>
      cases it with
      | nil => simpa [loop] using ih
      | cons n ns => simp [loop, hk]

theorem stateAfter_hom {N' : Type w} {V' : Type x} [TreeNode N V] [TreeNode N' V'] (h : N → N')
    (hk : ∀ n, kids (h n) = (kids n).map h) (n : N) (k : Nat) :
    (stateAfter next k (new (h n))).queue = (stateAfter next k (new n)).queue.map (List.map h) := by
  have key : ∀ k, (stateAfter next k (new (h n))).root = (stateAfter next k (new n)).root.map h ∧
      (stateAfter next k (new (h n))).queue = (stateAfter next k (new n)).queue.map (List.map h) := by
    intro k
    induction k with
    | zero => exact ⟨rfl, rfl⟩
    | succ k ih =>
      rw [stateAfter_snoc, stateAfter_snoc]
      generalize hs' : stateAfter next k (new (h n)) = s' at ih ⊢
      generalize stateAfter next k (new n) = s at ih ⊢
      obtain ⟨root, queue⟩ := s
      obtain ⟨root', queue'⟩ := s'
      obtain ⟨rfl, rfl⟩ := ih
      exact next_hom h hk root queue
  exact (key k).2

end Bfs

variable {N : Type u} {V : Type v}

theorem val_tree (t : Tree V) : val t = t.value := by
  cases t
  rfl

theorem Bfs.lvl_lt_height [TreeNode N V] (d : Nat) : ∀ n : N, Bfs.lvl n d ≠ [] → d < (treeOf n).height := by
  induction d with
  | zero => intro n _; exact height_pos _
  | succ d ih =>
    intro n h
    rw [Bfs.lvl_shift] at h
    obtain ⟨c, hc, h⟩ : ∃ c ∈ kids n, Bfs.lvl c d ≠ [] := by
      by_contra hh
      push Not at hh
      exact h (List.flatMap_eq_nil_iff.2 hh)
    by_contra hlt
    have := height_children (treeOf n) d (by omega) (treeOf c) (by
      rw [treeOf_eq, Tree.children]; exact List.mem_map_of_mem hc)
    have := ih c h
    omega

theorem Bfs.levelOrder_at [TreeNode N V] (n : N) (d : Nat) (X Y : List N) (y : N) (h : Bfs.lvl n d = X ++ y :: Y) :
    (treeOf n).levelOrder[Bfs.above n d + X.length]? = some (val y) := by
  have hd := Bfs.lvl_lt_height d n (by simp [h])
  have ha : ∀ d, Bfs.above n d = ((List.range d).flatMap fun i => (treeOf n).atDepth i).length := by
    intro d
    rw [List.length_flatMap, Bfs.above]
    congr 2
    funext i
    rw [← Bfs.lvl_val, List.length_map]
  obtain ⟨m, hm⟩ := Nat.exists_eq_add_of_lt hd
  rw [Tree.levelOrder, hm, show d + m + 1 = (d + 1) + m by omega, List.range_add, List.range_succ]
  simp only [List.flatMap_append, List.flatMap_cons, List.flatMap_nil, List.append_nil, List.append_assoc]
  rw [ha, List.getElem?_append_right (by omega), ← Bfs.lvl_val d, h]
  simp

theorem Bfs.lvl_located (t : Tree V) (d : Nat) :
    ∀ y ∈ Bfs.lvl t.located d, ∃ (s : Tree V) (path : List Nat) (anc : List V), y = s.withPos path anc := by
  induction d with
  | zero => simp [Bfs.lvl, Tree.located]; exact ⟨t, [], [], rfl⟩
  | succ d ih =>
    intro y hy
    rw [Bfs.lvl, List.mem_flatMap] at hy
    obtain ⟨z, hz, hy⟩ := hy
    obtain ⟨s, path, anc, rfl⟩ := ih z hz
    cases s with
    | node a cs =>
      obtain ⟨c, -, j, rfl⟩ := withPosL_root cs path (anc ++ [a]) 0 y hy
      exact ⟨c, _, _, rfl⟩

theorem Bfs.queue_located [TreeNode N V] (n : N) (k : Nat) :
    (stateAfter Bfs.next k (Bfs.new n)).queue.length =
      (stateAfter Bfs.next k (Bfs.new (treeOf n).located)).queue.length := by
  have h1 := Bfs.stateAfter_hom (V := V) (V' := V) (treeOf : N → Tree V) (by
    intro m; rw [treeOf_eq]; rfl) n k
  have h2 := Bfs.stateAfter_hom (V := Pos V) (V' := V) (Tree.map Pos.item) (by
    intro m; cases m; rw [Tree.map_node]; rfl) (treeOf n).located k
  rw [map_item_located] at h2
  have h3 := congrArg List.length (h1.symm.trans h2)
  simpa using h3

theorem deepest_withPos (t : Tree V) : ∀ (path : List Nat) (anc : List V),
    ∃ p ∈ (t.withPos path anc).preorder, p.ancestors.length = anc.length + t.height := by
  have key : ∀ (h : Nat) (t : Tree V), t.height = h + 1 → ∀ (path : List Nat) (anc : List V),
      ∃ p ∈ (t.withPos path anc).preorder, p.ancestors.length = anc.length + (h + 1) := by
    intro h
    induction h with
    | zero =>
      rintro ⟨a, cs⟩ - path anc
      exact ⟨⟨path, anc ++ [a], a⟩, by rw [Tree.withPos, Tree.preorder_node]; simp, by simp⟩
    | succ h ih =>
      rintro ⟨a, cs⟩ ht path anc
      obtain ⟨c, hc, hh⟩ : ∃ c ∈ cs, c.height = h + 1 := by
        by_contra hno
        push Not at hno
        have hle := height_children (.node a cs) (h + 1) (by omega)
        have : (Tree.node a cs).height ≤ h + 1 := by
          have e : ∀ c ∈ cs, c.height ≤ h := by
            intro c hc
            have := hno c hc
            have := hle c hc
            omega
          rw [Tree.height]
          have : ∀ cs : List (Tree V), (∀ c ∈ cs, c.height ≤ h) → Tree.heightL cs ≤ h := by
            intro cs
            induction cs with
            | nil => simp [Tree.heightL]
            | cons c cs ih =>
              intro hc
              rw [Tree.heightL]
              have := ih fun x hx => hc x (List.mem_cons_of_mem _ hx)
              have := hc c List.mem_cons_self
              omega
          have := this cs e
          omega
        omega
      obtain ⟨i, hi⟩ : ∃ i, c.withPos (path ++ [i]) (anc ++ [a]) ∈ Tree.withPosL path (anc ++ [a]) 0 cs := by
        have : ∀ (cs : List (Tree V)) (j : Nat), c ∈ cs →
            ∃ i, c.withPos (path ++ [i]) (anc ++ [a]) ∈ Tree.withPosL path (anc ++ [a]) j cs := by
          intro cs
          induction cs with
          | nil => simp
          | cons x xs ih =>
            intro j hx
            rw [Tree.withPosL]
            rcases List.mem_cons.1 hx with rfl | hx
            · exact ⟨j, List.mem_cons_self⟩
            · obtain ⟨i, hi⟩ := ih (j + 1) hx
              exact ⟨i, List.mem_cons_of_mem _ hi⟩
        exact this cs 0 hc
      obtain ⟨p, hp, hlen⟩ := ih c hh (path ++ [i]) (anc ++ [a])
      refine ⟨p, ?_, by rw [hlen, List.length_append, List.length_singleton]; omega⟩
      rw [Tree.withPos, Tree.preorder_node, List.mem_cons, List.mem_flatMap]
      exact .inr ⟨_, hi, hp⟩
  intro path anc
  obtain ⟨h, hh⟩ : ∃ h, t.height = h + 1 := ⟨t.height - 1, by have := height_pos t; omega⟩
  rw [hh]
  exact key h t hh path anc

end TreeIter
