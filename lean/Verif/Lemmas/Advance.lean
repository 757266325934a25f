import Verif.Lemmas.Chain
import Verif.Model.Advance
import Verif.Spec.Advance

/-! # Pipelines advanced by hand: lemmas -/

universe u v w x y z z'

namespace TreeIter

/-! ## Attaching -/

section
variable {V : Type u}

theorem attachL_append (d : Nat) (v : V) (t : Tree V) (cs : List (Tree V)) :
    Tree.attachL d v (cs ++ [t]) = cs ++ [t.attach d v] := by
  induction cs with
  | nil => rw [List.nil_append, Tree.attachL]; rfl
  | cons c cs ih =>
    cases cs with
    | nil => simp [Tree.attachL]
    | cons c' cs =>
      rw [List.cons_append, List.cons_append, Tree.attachL, ← List.cons_append, ih]
      rfl

theorem preorder_attach (v : V) (t : Tree V) : ∀ d, (t.attach d v).preorder = t.preorder ++ [v] := by
  induction t using Tree.ind with
  | h a cs ih =>
    intro d
    rw [Tree.attach]
    split
    · simp [Tree.preorder_node]
    · rcases List.eq_nil_or_concat cs with rfl | ⟨cs', c, rfl⟩
      · simp [Tree.attachL, Tree.preorder_node]
      · rw [List.concat_eq_append] at *
        rw [attachL_append]
        simp [Tree.preorder_node, ih c (by simp) (d - 1)]

theorem preorder_regroup (l : List (Nat × V)) : ((regroup l).map Tree.preorder).getD [] = l.map Prod.snd := by
  cases l with
  | nil => rfl
  | cons x l =>
    obtain ⟨d, v⟩ := x
    have key : ∀ (l : List (Nat × V)) (t : Tree V),
        (l.foldl (fun t x => t.attach x.1 x.2) t).preorder = t.preorder ++ l.map Prod.snd := by
      intro l
      induction l with
      | nil => intro t; simp
      | cons x l ih => intro t; rw [List.foldl_cons, ih, preorder_attach]; simp
    simp [regroup, key, Tree.preorder_node]

/-- The trees of a stack, the root first, become one tree: each the last child of the one before. -/
def plug : List (Tree V) → Tree V → Tree V
  | [], t => t
  | .node a cs :: r, t => .node a (cs ++ [plug r t])

theorem plug_append (r : List (Tree V)) (a : V) (cs : List (Tree V)) (t : Tree V) :
    plug (r ++ [.node a cs]) t = plug r (.node a (cs ++ [t])) := by
  induction r with
  | nil => rfl
  | cons b r ih =>
    obtain ⟨b, bs⟩ := b
    simp [plug, ih]

/-- The lower part of a stack as one tree. -/
def plugged (t : Tree V) : List (Tree V) → Tree V
  | [] => t
  | .node b cs :: r => .node b (cs ++ [plug r t])

theorem attach_plug (v x : V) (r : List (Tree V)) : ∀ d, 1 ≤ d →
    (plug r (.node x [])).attach d v = plug (r.take (d - 1)) (match plugged (.node x []) (r.drop (d - 1)) with
      | .node b cs => .node b (cs ++ [.node v []])) := by
  induction r with
  | nil =>
    intro d hd
    simp only [plug, List.take_nil, List.drop_nil, plugged, Tree.attach]
    split <;> simp [Tree.attachL]
  | cons b r ih =>
    intro d hd
    obtain ⟨b, bs⟩ := b
    rw [plug, Tree.attach]
    by_cases h : d ≤ 1
    · obtain rfl : d = 1 := by omega
      simp [plug, plugged]
    · obtain ⟨e, rfl⟩ : ∃ e, d = e + 2 := ⟨d - 2, by omega⟩
      rw [if_neg h, attachL_append]
      have := ih (e + 1) (by omega)
      simp only [Nat.add_sub_cancel] at this
      simp [this, plug]

theorem collapse_plug (d : Nat) (hd : 1 ≤ d) (rest : List (Tree V)) : ∀ (t : Tree V),
    Pipe.collapse d (t :: rest) = .ok (plugged t (rest.reverse.drop (d - 1)) :: (rest.reverse.take (d - 1)).reverse) := by
  induction rest with
  | nil =>
    intro t
    rw [Pipe.collapse_le (by simpa using hd)]
    simp [plugged]
  | cons u rest ih =>
    intro t
    obtain ⟨a, cs⟩ := u
    by_cases h : rest.length + 2 > d
    · rw [Pipe.collapse, if_pos h, ih, List.reverse_cons]
      have hle : d - 1 ≤ rest.reverse.length := by simp; omega
      rw [List.take_append_of_le_length hle, List.drop_append_of_le_length hle]
      congr 2
      cases rest.reverse.drop (d - 1) with
      | nil => simp [plugged, plug]
      | cons b r =>
        obtain ⟨b, bs⟩ := b
        simp [plugged, plug_append]
    · rw [Pipe.collapse_le (by simp; omega), List.drop_eq_nil_of_le (by simp; omega), List.take_of_length_le (by simp; omega)]
      simp [plugged]

theorem collectList_regroup (l : List (V × List Nat)) (hl : ∀ x ∈ l, x.2 ≠ []) : ∀ (x : V) (rest : List (Tree V)),
    ∃ y rest', Pipe.collectList l (.node x [] :: rest) = .ok (.node y [] :: rest') ∧
      plug rest'.reverse (.node y []) =
        (l.map fun x => (x.2.length, x.1)).foldl (fun t x => t.attach x.1 x.2) (plug rest.reverse (.node x [])) := by
  induction l with
  | nil => intro x rest; exact ⟨x, rest, rfl, rfl⟩
  | cons z l ih =>
    intro x rest
    obtain ⟨v, p⟩ := z
    have hp : 1 ≤ p.length := by
      have := hl (v, p) (by simp)
      cases p with
      | nil => exact absurd rfl this
      | cons i p => simp
    obtain ⟨y, rest', h1, h2⟩ := ih (fun x hx => hl x (by simp [hx])) v
      (plugged (.node x []) (rest.reverse.drop (p.length - 1)) :: (rest.reverse.take (p.length - 1)).reverse)
    refine ⟨y, rest', ?_, ?_⟩
    · rw [Pipe.collectList, collapse_plug _ hp]
      exact h1
    · rw [h2, List.map_cons, List.foldl_cons]
      congr 1
      simp only
      rw [attach_plug _ _ _ _ hp, List.reverse_cons, List.reverse_reverse]
      rcases plugged (.node x []) (rest.reverse.drop (p.length - 1)) with ⟨b, cs⟩
      rw [plug_append]

theorem collectList_all (l : List (V × List Nat)) (hl : ∀ x ∈ l.tail, x.2 ≠ []) :
    ∃ keep, Pipe.collectList l [] = .ok keep ∧
      Pipe.collapse 1 keep = .ok (regroup (l.map fun x => (x.2.length, x.1))).toList := by
  cases l with
  | nil => exact ⟨[], rfl, by simp [Pipe.collapse, regroup]⟩
  | cons z l =>
    obtain ⟨x, p⟩ := z
    obtain ⟨y, rest, h1, h2⟩ := collectList_regroup l hl x []
    refine ⟨.node y [] :: rest, ?_, ?_⟩
    · rw [Pipe.collectList, Pipe.collapse_le (by simp)]
      exact h1
    · rw [collapse_plug 1 (Nat.le_refl 1)]
      simp only [Nat.sub_self, List.drop_zero, List.take_zero, List.reverse_nil, List.map_cons, regroup, Option.toList_some]
      rw [List.reverse_nil, plug] at h2
      rw [← h2]
      congr 1
      cases hr : rest.reverse with
      | nil => rfl
      | cons b r =>
        obtain ⟨b, bs⟩ := b
        rfl

end

/-! ## Folding -/

section
variable {V : Type u} {O : Type v} {τ : Type w}

theorem foldSL_append (f : τ → List O → V → τ × O) (l l' : List (Tree V)) (r : τ) :
    Tree.foldSL f r (l ++ l') = ((Tree.foldSL f (Tree.foldSL f r l).1 l').1,
      (Tree.foldSL f r l).2 ++ (Tree.foldSL f (Tree.foldSL f r l).1 l').2) := by
  induction l generalizing r with
  | nil => simp [Tree.foldSL]
  | cons c l ih => simp [Tree.foldSL, ih]

/-- What `fold_tree` holds when `collect_tree` holds a stack of trees. -/
def foldStack (f : τ → List O → V → τ × O) (r : τ) : List (Tree V) → List V × List (List O) × τ
  | [] => ([], [], r)
  | .node a cs :: rest =>
    (a :: (foldStack f r rest).1, (Tree.foldSL f (foldStack f r rest).2.2 cs).2 :: (foldStack f r rest).2.1,
      (Tree.foldSL f (foldStack f r rest).2.2 cs).1)

theorem foldStack_length (f : τ → List O → V → τ × O) (r : τ) (keep : List (Tree V)) :
    (foldStack f r keep).2.1.length = keep.length := by
  induction keep with
  | nil => rfl
  | cons t keep ih =>
    obtain ⟨a, cs⟩ := t
    simp [foldStack, ih]

theorem foldCollapse_stack (f : τ → List O → V → τ × O) (r : τ) (d : Nat) (keep : List (Tree V)) :
    ∀ keep', Pipe.collapse d keep = .ok keep' →
    Pipe.foldCollapse f d (foldStack f r keep).1 (foldStack f r keep).2.1 (foldStack f r keep).2.2 =
      .ok (foldStack f r keep') := by
  fun_induction Pipe.collapse d keep with
  | case1 =>
    intro keep' h
    cases h
    simp [foldStack, Pipe.foldCollapse]
  | case2 => intro keep' h; cases h
  | case3 t h1 =>
    intro keep' h
    cases h
    rw [Pipe.foldCollapse_le (by rw [foldStack_length]; simp only [List.length_cons, List.length_nil]; omega)]
  | case4 t a cs rest h1 ih =>
    intro keep' h
    rw [← ih keep' h]
    obtain ⟨b, bs⟩ := t
    simp only [foldStack]
    rw [Pipe.foldCollapse, if_pos (by simp [foldStack_length]; omega)]
    simp [foldSL_append, Tree.foldSL, Tree.foldS]
  | case5 t a cs rest h1 =>
    intro keep' h
    cases h
    rw [Pipe.foldCollapse_le (by rw [foldStack_length]; simp; omega)]

theorem foldList_stack (f : τ → List O → V → τ × O) (r : τ) (l : List (V × List Nat)) : ∀ keep keep',
    Pipe.collectList l keep = .ok keep' →
    Pipe.foldList f l (foldStack f r keep).1 (foldStack f r keep).2.1 (foldStack f r keep).2.2 =
      .ok (foldStack f r keep') := by
  induction l with
  | nil => intro keep keep' h; cases h; rfl
  | cons z l ih =>
    intro keep keep' h
    obtain ⟨x, p⟩ := z
    rw [Pipe.collectList] at h
    split at h
    · cases h
    · next k hk =>
      rw [Pipe.foldList, foldCollapse_stack f r _ _ _ hk]
      exact ih _ _ h

end

section
variable {S : Type u} {V : Type v} {O : Type x} {σ : Type w} {τ : Type y}

theorem Pipe.collectTree_advanced {M : Pipe S V σ} {s : S} {w w' : σ} {l : List (V × List Nat)} (h : M.emits s w = .ok (l, w'))
    (hl : ∀ x ∈ l.tail, x.2 ≠ []) : M.collectTree s w = .ok (regroup (l.map fun x => (x.2.length, x.1)), w') := by
  obtain ⟨keep, h1, h2⟩ := collectList_all l hl
  rw [collectTree, collectLoop_eq [] h, h1]
  simp only [h2]
  cases regroup (l.map fun x => (x.2.length, x.1)) <;> rfl

theorem Pipe.foldTree_advanced {M : Pipe S V σ} {s : S} {w w' : σ} {l : List (V × List Nat)} (h : M.emits s w = .ok (l, w'))
    (hl : ∀ x ∈ l.tail, x.2 ≠ []) (f : τ → List O → V → τ × O) (r : τ) :
    M.foldTree f s w r = .ok ((foldO (Tree.foldS f) r (regroup (l.map fun x => (x.2.length, x.1)))).2,
      (foldO (Tree.foldS f) r (regroup (l.map fun x => (x.2.length, x.1)))).1, w') := by
  obtain ⟨keep, h1, h2⟩ := collectList_all l hl
  have h3 := foldList_stack f r l [] keep h1
  have h4 := foldCollapse_stack f r 1 keep _ h2
  rw [foldTree, foldLoop_eq [] [] r h]
  simp only [foldStack] at h3
  rw [h3]
  simp only [h4]
  cases regroup (l.map fun x => (x.2.length, x.1)) with
  | none => rfl
  | some t =>
    obtain ⟨a, cs⟩ := t
    rfl

end

section
variable {S : Type u} {A : Type v} {σ : Type w} {U : Type x} {W : Type y} {τ : Type z} {O : Type z'}
variable {M : Pipe S W σ} {v : Visitor A σ U W} {R : S → A → List (Lab U) → Prop}

theorem Enum.advance (hM : Enum M v R) (k : Nat) : ∀ {s : S} {a : A} {l : List (Lab U)} (w : σ), R s a l →
    ∃ s' w', M.advance k s w = .ok (s', w') ∧
      M.emits s' w' = .ok ((Tree.preorderL (visitL v a w l).1).drop k, (visitL v a w l).2.2) := by
  induction k with
  | zero => intro s a l w h; exact ⟨s, w, rfl, hM.emits w h⟩
  | succ k ih =>
    intro s a l w h
    rcases hv : visitNext v a w l with ⟨o, a', w'⟩
    rcases o with _ | ⟨y, cs, rest⟩
    · obtain ⟨s'', a'', h1, h2⟩ := hM.next_none h hv
      obtain ⟨s3, w3, h3, h4⟩ := ih w' h2
      refine ⟨s3, w3, ?_, ?_⟩
      · rw [Pipe.advance, h1]; exact h3
      · rw [h4, visitL_preorder_none hv]
        simp [visitL, Tree.preorderL]
    · obtain ⟨s', h1, h2, -⟩ := hM.next_some h hv
      obtain ⟨h3, h4⟩ := visitL_preorder_some hv
      obtain ⟨s3, w3, h5, h6⟩ := ih w' h2
      refine ⟨s3, w3, ?_, ?_⟩
      · rw [Pipe.advance, h1]; exact h5
      · rw [h6, h3, h4]; rfl

end

section
variable {W : Type u}

theorem DepthOk.levels {t : Tree (W × List Nat)} : ∀ {d : Nat}, DepthOk d t →
    (t.preorder.map fun x => (x.2.length, x.1)) = (t.map Prod.fst).levels d := by
  induction t using Tree.ind with
  | h a cs ih =>
    intro d h
    obtain ⟨y, p⟩ := a
    simp only [DepthOk] at h
    rw [Tree.preorder_node, Tree.map_node, Tree.levels, List.map_cons, h.1]
    congr 1
    have key : ∀ ds : List (Tree (W × List Nat)), (∀ c ∈ ds, c ∈ cs) →
        ((ds.flatMap Tree.preorder).map fun x => (x.2.length, x.1)) = Tree.levelsL (d + 1) (ds.map (Tree.map Prod.fst)) := by
      intro ds
      induction ds with
      | nil => intro _; rfl
      | cons c ds ihd =>
        intro hds
        rw [List.flatMap_cons, List.map_append, ih c (hds c (by simp)) (h.2 c (hds c (by simp))),
          ihd fun c hc => hds c (by simp [hc])]
        rfl
    exact key cs fun _ h => h

theorem DepthOk.ne_nil {t : Tree (W × List Nat)} : ∀ {d : Nat}, DepthOk (d + 1) t → ∀ x ∈ t.preorder, x.2 ≠ [] := by
  induction t using Tree.ind with
  | h a cs ih =>
    intro d h x hx
    obtain ⟨y, p⟩ := a
    simp only [DepthOk] at h
    rw [Tree.preorder_node] at hx
    rcases List.mem_cons.1 hx with rfl | hx
    · intro h0; simp only at h0; rw [h0] at h; simp at h
    · obtain ⟨c, hc, hx⟩ := List.mem_flatMap.1 hx
      exact ih c hc (h.2 c hc) x hx

theorem DepthOk.tail_ne_nil {t : Tree (W × List Nat)} (h : DepthOk 0 t) : ∀ x ∈ t.preorder.tail, x.2 ≠ [] := by
  obtain ⟨⟨y, p⟩, cs⟩ := t
  simp only [DepthOk] at h
  intro x hx
  rw [Tree.preorder_node, List.tail_cons] at hx
  obtain ⟨c, hc, hx⟩ := List.mem_flatMap.1 hx
  exact (h.2 c hc).ne_nil x hx

theorem tail_drop_mem {x : W} {l : List W} {k : Nat} (h : x ∈ (l.drop k).tail) : x ∈ l.tail := by
  rw [List.tail_drop] at h
  cases l with
  | nil => simp at h
  | cons a l => exact List.mem_of_mem_drop h

end

section
variable {N : Type u} {V W : Type v} [TreeNode N V] {σ : Type w} {τ : Type x} {O : Type y}

/-- What a chain emits after `k` calls of `next()`. -/
theorem Chain.advanced (c : Chain σ V W) (hc : c.pathsFirst = true) (n : N) (hn : c.noPaths = true ∨ ArityOk n)
    (k : Nat) (w : σ) : ∃ s' w' l, (c.pipe (Track.pipe σ)).advance k (c.init (Api.start n)) w = .ok (s', w') ∧
      (c.pipe (Track.pipe σ)).emits s' w' = .ok (l, ((treeOf n).runS c.step w []).1) ∧ (∀ x ∈ l.tail, x.2 ≠ []) ∧
      (l.map fun x => (x.2.length, x.1)) =
        ((((treeOf n).runS c.step w []).2.map (Tree.levels 0)).getD []).drop k := by
  obtain ⟨A, v, R', h1, h2, h3, -, h5⟩ := Chain.enum (Track.enum (N := N) σ) c hc
  obtain ⟨a', h⟩ := h5 _ _ _ (rel_start n)
  obtain ⟨s', w', k1, k2⟩ := h1.advance k w h
  obtain ⟨o, g1, g2, g3, g4⟩ := visitT_indep h3 h2 _ a' w (labDepth_start n)
  simp only [visitL, g1, List.append_nil, g2] at k2
  obtain ⟨e1, e2⟩ := c.decOf_start n hn w
  rw [e1] at k2
  refine ⟨s', w', _, k1, k2, ?_, ?_⟩
  · intro x hx
    have := tail_drop_mem hx
    cases o with
    | none => simp [Tree.preorderL] at this
    | some t => exact (g4 t rfl).tail_ne_nil x (by simpa [Tree.preorderL_eq] using this)
  · rw [← e2, ← g3, List.map_drop]
    cases o with
    | none => simp [Tree.preorderL]
    | some t => simp [Tree.preorderL_eq, (g4 t rfl).levels]

end

end TreeIter
