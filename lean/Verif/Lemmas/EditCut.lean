import Verif.Spec.Edit
import Verif.Lemmas.Decor
import Verif.Lemmas.LevelOrder
import Verif.Lemmas.Positions
import Verif.Lemmas.BfsCtx

/-! # Clients that only remove children -/

universe u v w

namespace TreeIter

variable {N : Type u} {V : Type v} {σ : Type w}

theorem Tree.cutL_eq {α : Type u} (p : α → Bool) (ts : List (Tree α)) : Tree.cutL p ts = ts.map (Tree.cut p) := by
  induction ts with
  | nil => rfl
  | cons t ts ih => rw [Tree.cutL, ih, List.map_cons]

section General
variable [TreeNode N V] {p : Ctx V (List N) → Bool}

/-- What is left at a node waiting to be visited. -/
def cutT (p : Ctx V (List N) → Bool) (sp : Spot N V) : Tree (Ctx V (List N)) := (ctxT sp.path sp.above (unfold sp.node)).cut p

theorem ctxTL_spots (path : List Nat) (anc : List V) (i : Nat) (ns : List N) :
    ctxTL path anc i (ns.map unfold) = (spots path anc i ns).map fun sp => ctxT sp.path sp.above (unfold sp.node) := by
  induction ns generalizing i with
  | nil => rfl
  | cons n ns ih => rw [List.map_cons, ctxTL, ih, spots, List.map_cons]

theorem cutT_eq (sp : Spot N V) : cutT p sp = .node (ctxAt sp.path sp.above sp.node)
    (if p (ctxAt sp.path sp.above sp.node) then [] else
      (spots sp.path (sp.above ++ [val sp.node]) 0 (kids sp.node)).map (cutT p)) := by
  rw [cutT, unfold_eq, ctxT, Tree.cut, ctxTL_spots, Tree.cutL_eq, List.map_map]
  rfl

theorem editPre_cut {e : σ → Ctx V (List N) → σ × List V × List N}
    (he : ∀ w c, e w c = (w, c.ancestors, if p c then [] else c.children.getD [])) (w : σ) (n : N) (h : ArityOk n) :
    ∀ path anc, EditPre e path 0 (if p (ctxAt path anc n) then [] else kids n) (w, anc ++ [val n]) (w, anc ++ [val n])
      ((cutT p ⟨path, anc, n⟩).children.flatMap Tree.preorder) := by
  induction n using node_ind with
  | h n ih =>
    intro path anc
    rw [cutT_eq, Tree.children]
    have h' := (arityOk_iff n).1 h
    by_cases hp : p (ctxAt path anc n)
    · simp only [hp, if_true]
      exact .nil
    · simp only [hp]
      have key : ∀ ns : List N, (∀ c ∈ ns, c ∈ kids n) → ∀ i, EditPre e path i ns (w, anc ++ [val n]) (w, anc ++ [val n])
          (((spots path (anc ++ [val n]) i ns).map (cutT p)).flatMap Tree.preorder) := by
        intro ns
        induction ns with
        | nil => exact fun _ _ => .nil
        | cons c ns ihn =>
          intro hns i
          have hc := hns c (by simp)
          have h1 := ih c hc (h'.2 c hc) (path ++ [i]) (anc ++ [val n])
          have h2 := ihn (fun c hc => hns c (by simp [hc])) (i + 1)
          have h3 := EditPre.cons (e := e) (n := c) (w := w) (anc := anc ++ [val n]) (he _ _) (by simp [ctxAt]) ?_ h1
            (by simpa using h2)
          · simpa [spots, cutT_eq, Tree.children, Tree.preorder, Tree.preorderL_eq] using h3
          · split
            · simp
            · simpa [ctxAt] using ((arityOk_iff c).1 (h'.2 c hc)).1
      exact key _ (fun _ h => h) 0

theorem editRoot_cut {e : σ → Ctx V (List N) → σ × List V × List N}
    (he : ∀ w c, e w c = (w, c.ancestors, if p c then [] else c.children.getD [])) (w : σ) (n : N) (h : ArityOk n) :
    EditRoot e n w w (cutT p ⟨[], [], n⟩).preorder := by
  have h1 := EditRoot.mk (e := e) (n := n) (w := w) (he _ _) (by simp [ctxAt]) ?_ (editPre_cut he w n h [] [])
  · simpa [cutT_eq, Tree.children, Tree.preorder, Tree.preorderL_eq] using h1
  · split
    · simp
    · simpa [ctxAt] using ((arityOk_iff n).1 h).1

omit [TreeNode N V] in
theorem mem_spots {path : List Nat} {anc : List V} {i : Nat} {ns : List N} {sp : Spot N V} (h : sp ∈ spots path anc i ns) :
    sp.node ∈ ns := by
  induction ns generalizing i with
  | nil => simp [spots] at h
  | cons n ns ih =>
    rw [spots, List.mem_cons] at h
    rcases h with rfl | h
    · simp
    · simp [ih h]

theorem editLevel_cut {e : σ → Ctx V (List N) → σ × List N}
    (he : ∀ w c, e w c = (w, if p c then [] else c.children.getD [])) (w : σ) (level : List (Spot N V)) :
    editLevel e w level = (w, level.map fun sp => ctxAt sp.path sp.above sp.node,
      level.flatMap fun sp => spots sp.path (sp.above ++ [val sp.node]) 0
        (if p (ctxAt sp.path sp.above sp.node) then [] else kids sp.node)) := by
  induction level with
  | nil => rfl
  | cons sp sps ih =>
    rw [editLevel, he, ih]
    rfl

/-- A client that only removes children never sees the end of the path counter. -/
theorem levelOk_of {e : σ → Ctx V (List N) → σ × List N}
    (he : ∀ w c cs, c.children = some cs → (e w c).2.length ≤ cs.length) (level : List (Spot N V))
    (h : ∀ sp ∈ level, (kids sp.node).length < 2 ^ 64) (w : σ) : levelOk e w level := by
  induction level generalizing w with
  | nil => trivial
  | cons sp sps ih =>
    refine ⟨Nat.lt_of_le_of_lt (he w _ (kids sp.node) rfl) (h sp (by simp)), ih (fun sp hsp => h sp (by simp [hsp])) _⟩

theorem editBfs_cut {e : σ → Ctx V (List N) → σ × List N}
    (he : ∀ w c, e w c = (w, if p c then [] else c.children.getD [])) (w : σ) (b : Nat) :
    ∀ level : List (Spot N V), (∀ sp ∈ level, TreeNode.size sp.node < b) → (∀ sp ∈ level, ArityLt sp.node) →
    EditBfs e w level w (bfsF (level.map (cutT p))) := by
  induction b with
  | zero =>
    intro level h _
    have : level = [] := List.eq_nil_iff_forall_not_mem.2 fun sp hsp => absurd (h sp hsp) (by omega)
    subst this
    simpa using EditBfs.nil
  | succ b ih =>
    intro level h ha
    by_cases hl : level = []
    · subst hl
      simpa using EditBfs.nil
    · have h1 := editLevel_cut he w level
      have h2 : ∀ sp ∈ (editLevel e w level).2.2, ∃ sp' ∈ level, sp.node ∈ kids sp'.node := by
        intro sp hsp
        rw [h1] at hsp
        obtain ⟨sp', h3, h4⟩ := List.mem_flatMap.1 hsp
        refine ⟨sp', h3, ?_⟩
        split at h4
        · simp [spots] at h4
        · exact mem_spots h4
      have h3 := ih (editLevel e w level).2.2 (fun sp hsp => by
        obtain ⟨sp', h4, h5⟩ := h2 sp hsp
        have := h sp' h4
        have := TreeNode.size_lt h5
        omega) (fun sp hsp => by
        obtain ⟨sp', h4, h5⟩ := h2 sp hsp
        exact ((Bfs.arityLt_iff _).1 (ha sp' h4)).2 _ h5)
      have h4 := EditBfs.level hl (levelOk_of (e := e) (fun w c cs hc => by
        rw [he]
        split <;> simp [hc]) level (fun sp hsp => ((Bfs.arityLt_iff _).1 (ha sp hsp)).1) w) (by
          rw [show (editLevel e w level).1 = w by rw [h1]]
          exact h3)
      rw [bfsF_step]
      rw [h1] at h4
      have e1 : (level.map (cutT p)).map Tree.value = level.map fun sp => ctxAt sp.path sp.above sp.node := by
        simp [cutT_eq, Tree.value]
      have e2 : (level.map (cutT p)).flatMap Tree.children =
          (level.flatMap fun sp => spots sp.path (sp.above ++ [val sp.node]) 0
            (if p (ctxAt sp.path sp.above sp.node) then [] else kids sp.node)).map (cutT p) := by
        rw [List.flatMap_map, List.map_flatMap]
        refine List.flatMap_congr fun sp _ => ?_
        rw [cutT_eq, Tree.children]
        split <;> simp [spots]
      rw [e1, e2]
      exact h4

/-! ### Any client that only removes children comes to an end -/

theorem editPre_ends {e : σ → Ctx V (List N) → σ × List V × List N}
    (hlen : ∀ w c, (e w c).2.1.length = c.ancestors.length)
    (hsub : ∀ w c cs, c.children = some cs → (∀ x ∈ (e w c).2.2, x ∈ cs) ∧ (e w c).2.2.length ≤ cs.length)
    (n : N) (h : ArityOk n) :
    ∀ (ns : List N), (∀ c ∈ ns, c ∈ kids n) → ∀ path i w anc, ∃ s out, EditPre e path i ns (w, anc) s out ∧ s.2.length = anc.length := by
  induction n using node_ind with
  | h n ih =>
    have h' := (arityOk_iff n).1 h
    intro ns
    induction ns with
    | nil => exact fun _ path i w anc => ⟨_, _, .nil, rfl⟩
    | cons c ns ihn =>
      intro hns path i w anc
      have hc := hns c (by simp)
      obtain ⟨s1, s2⟩ := hsub w (ctxAt (path ++ [i]) anc c) (kids c) rfl
      obtain ⟨⟨w2, anc2⟩, out1, h1, h2⟩ := ih c hc (h'.2 c hc) _ s1 (path ++ [i]) 0
        (e w (ctxAt (path ++ [i]) anc c)).1 (e w (ctxAt (path ++ [i]) anc c)).2.1
      obtain ⟨s, out2, h3, h4⟩ := ihn (fun c hc => hns c (by simp [hc])) path (i + 1) w2 anc2.dropLast
      have h5 := hlen w (ctxAt (path ++ [i]) anc c)
      refine ⟨s, _, .cons rfl (by simpa [ctxAt] using h5) (Nat.le_trans s2 ((arityOk_iff c).1 (h'.2 c hc)).1) h1 h3, ?_⟩
      simp only [ctxAt, List.length_append, List.length_cons, List.length_nil] at h2 h4 h5
      rw [h4, List.length_dropLast, h2, h5]
      omega

theorem editRoot_ends {e : σ → Ctx V (List N) → σ × List V × List N}
    (hlen : ∀ w c, (e w c).2.1.length = c.ancestors.length)
    (hsub : ∀ w c cs, c.children = some cs → (∀ x ∈ (e w c).2.2, x ∈ cs) ∧ (e w c).2.2.length ≤ cs.length)
    (n : N) (h : ArityOk n) (w : σ) : ∃ wf out, EditRoot e n w wf out := by
  obtain ⟨s1, s2⟩ := hsub w (ctxAt [] [] n) (kids n) rfl
  obtain ⟨⟨w2, anc2⟩, out1, h1, -⟩ := editPre_ends hlen hsub n h _ s1 [] 0 (e w (ctxAt [] [] n)).1 (e w (ctxAt [] [] n)).2.1
  exact ⟨_, _, .mk rfl (by simpa [ctxAt] using hlen w (ctxAt [] [] n)) (Nat.le_trans s2 ((arityOk_iff n).1 h).1) h1⟩

theorem editLevel_mem {e : σ → Ctx V (List N) → σ × List N}
    (hsub : ∀ w c cs, c.children = some cs → ∀ x ∈ (e w c).2, x ∈ cs) (level : List (Spot N V)) (w : σ) :
    ∀ sp ∈ (editLevel e w level).2.2, ∃ sp' ∈ level, sp.node ∈ kids sp'.node := by
  induction level generalizing w with
  | nil => simp [editLevel]
  | cons sp' sps ih =>
    intro sp hsp
    rw [editLevel] at hsp
    rcases List.mem_append.1 hsp with hsp | hsp
    · exact ⟨sp', by simp, hsub _ _ _ rfl _ (mem_spots hsp)⟩
    · obtain ⟨sp', h1, h2⟩ := ih _ _ hsp
      exact ⟨sp', by simp [h1], h2⟩

theorem editBfs_ends {e : σ → Ctx V (List N) → σ × List N}
    (hsub : ∀ w c cs, c.children = some cs → (∀ x ∈ (e w c).2, x ∈ cs) ∧ (e w c).2.length ≤ cs.length) (b : Nat) :
    ∀ level : List (Spot N V), (∀ sp ∈ level, TreeNode.size sp.node < b) → (∀ sp ∈ level, ArityLt sp.node) → ∀ w,
    ∃ wf out, EditBfs e w level wf out := by
  induction b with
  | zero =>
    intro level h _ w
    have : level = [] := List.eq_nil_iff_forall_not_mem.2 fun sp hsp => absurd (h sp hsp) (by omega)
    subst this
    exact ⟨_, _, .nil⟩
  | succ b ih =>
    intro level h ha w
    by_cases hl : level = []
    · subst hl
      exact ⟨_, _, .nil⟩
    · have h2 := editLevel_mem (fun w c cs hc => (hsub w c cs hc).1) level w
      obtain ⟨wf, out, h3⟩ := ih (editLevel e w level).2.2 (fun sp hsp => by
        obtain ⟨sp', h4, h5⟩ := h2 sp hsp
        have := h sp' h4
        have := TreeNode.size_lt h5
        omega) (fun sp hsp => by
        obtain ⟨sp', h4, h5⟩ := h2 sp hsp
        exact ((Bfs.arityLt_iff _).1 (ha sp' h4)).2 _ h5) (editLevel e w level).1
      exact ⟨_, _, .level hl (levelOk_of (fun w c cs hc => (hsub w c cs hc).2) level
        (fun sp hsp => ((Bfs.arityLt_iff _).1 (ha sp hsp)).1) w) h3⟩

end General

section Binary
variable [BinNode N V] {p : Ctx V (Option N × Option N) → Bool}

/-- What is left at a binary node waiting to be visited. -/
def cutB (p : Ctx V (Option N × Option N) → Bool) (sp : Spot N V) : Tree (Ctx V (Option N × Option N)) :=
  (ctxB sp.path sp.above (unfold2 sp.node)).toTree.cut p

theorem cutB_eq (sp : Spot N V) : cutB p sp = .node (ctxAt2 sp.path sp.above sp.node)
    (if p (ctxAt2 sp.path sp.above sp.node) then [] else
      (slotSpots sp.path (sp.above ++ [val2 sp.node]) 0 (slots sp.node)).map (cutB p)) := by
  rw [cutB, unfold2_eq, ctxB, BinTree.toTree, Tree.cut, Tree.cutL_eq, slots]
  cases (split2 sp.node).2.1 <;> cases (split2 sp.node).2.2 <;>
    simp [ctxBO, BinTree.slotTrees, slotSpots, cutB, ctxAt2]

/-- The slots left by a client that cuts. -/
theorem slots_cut (b : Bool) (n : N) :
    [(if b then (none, none) else (split2 n).2 : Option N × Option N).1, (if b then (none, none) else (split2 n).2 : Option N × Option N).2] =
      if b then [none, none] else slots n := by
  cases b <;> rfl

theorem editPre2_cut {e : σ → Ctx V (Option N × Option N) → σ × List V × Option N × Option N}
    (he : ∀ w c, e w c = (w, c.ancestors, if p c then (none, none) else c.children.getD (none, none))) (w : σ) (n : N) :
    ∀ path anc, EditPre2 e path 0 (if p (ctxAt2 path anc n) then [none, none] else slots n) (w, anc ++ [val2 n])
      (w, anc ++ [val2 n]) ((cutB p ⟨path, anc, n⟩).children.flatMap Tree.preorder) := by
  induction n using binNode_ind with
  | h n ihl ihr =>
    intro path anc
    rw [cutB_eq, Tree.children]
    by_cases hp : p (ctxAt2 path anc n)
    · simp only [hp, if_true]
      exact .none (.none .nil)
    · simp only [hp]
      have ih : ∀ c, some c ∈ slots n → _ := fun c hc => (by
        simp only [slots, List.mem_cons, List.not_mem_nil, or_false] at hc
        exact hc.elim (fun h => ihl c h.symm) fun h => ihr c h.symm)
      have key : ∀ ss : List (Option N), (∀ c ∈ ss, c ∈ slots n) → ∀ i, EditPre2 e path i ss (w, anc ++ [val2 n]) (w, anc ++ [val2 n])
          (((slotSpots path (anc ++ [val2 n]) i ss).map (cutB p)).flatMap Tree.preorder) := by
        intro ss
        induction ss with
        | nil => exact fun _ _ => .nil
        | cons o ss ihn =>
          intro hns i
          have h2 := ihn (fun c hc => hns c (by simp [hc])) (i + 1)
          cases o with
          | none => exact .none h2
          | some c =>
            have h1 := ih c (hns _ (by simp)) (path ++ [i]) (anc ++ [val2 n])
            have h3 := EditPre2.some (e := e) (n := c) (w := w) (anc := anc ++ [val2 n]) (ss := ss)
              (l := (if p (ctxAt2 (path ++ [i]) (anc ++ [val2 n]) c) then (none, none) else (split2 c).2).1)
              (r := (if p (ctxAt2 (path ++ [i]) (anc ++ [val2 n]) c) then (none, none) else (split2 c).2).2)
              (he _ _) (by simp [ctxAt2]) (by rw [slots_cut]; exact h1) (by simpa using h2)
            simpa [slotSpots, cutB_eq, Tree.children, Tree.preorder, Tree.preorderL_eq] using h3
      exact key _ (fun _ h => h) 0

theorem editRoot2_cut {e : σ → Ctx V (Option N × Option N) → σ × List V × Option N × Option N}
    (he : ∀ w c, e w c = (w, c.ancestors, if p c then (none, none) else c.children.getD (none, none))) (w : σ) (n : N) :
    EditRoot2 e n w w (cutB p ⟨[], [], n⟩).preorder := by
  have h1 := EditRoot2.mk (e := e) (n := n) (w := w)
    (l := (if p (ctxAt2 [] [] n) then (none, none) else (split2 n).2).1)
    (r := (if p (ctxAt2 [] [] n) then (none, none) else (split2 n).2).2)
    (he _ _) (by simp [ctxAt2]) (by rw [slots_cut]; exact editPre2_cut he w n [] [])
  simpa [cutB_eq, Tree.children, Tree.preorder, Tree.preorderL_eq] using h1

omit [BinNode N V] in
theorem mem_slotSpots {path : List Nat} {anc : List V} {i : Nat} {ss : List (Option N)} {sp : Spot N V}
    (h : sp ∈ slotSpots path anc i ss) : some sp.node ∈ ss := by
  induction ss generalizing i with
  | nil => simp [slotSpots] at h
  | cons o ss ih =>
    cases o with
    | none =>
      rw [slotSpots] at h
      simp [ih h]
    | some n =>
      rw [slotSpots, List.mem_cons] at h
      rcases h with rfl | h
      · simp
      · simp [ih h]

theorem editLevel2_cut {e : σ → Ctx V (Option N × Option N) → σ × Option N × Option N}
    (he : ∀ w c, e w c = (w, if p c then (none, none) else c.children.getD (none, none))) (w : σ) (level : List (Spot N V)) :
    editLevel2 e w level = (w, level.map fun sp => ctxAt2 sp.path sp.above sp.node,
      level.flatMap fun sp => slotSpots sp.path (sp.above ++ [val2 sp.node]) 0
        (if p (ctxAt2 sp.path sp.above sp.node) then [none, none] else slots sp.node)) := by
  induction level with
  | nil => rfl
  | cons sp sps ih =>
    rw [editLevel2, he, List.flatMap_cons, ← slots_cut, ih]
    rfl

theorem editBfs2_cut {e : σ → Ctx V (Option N × Option N) → σ × Option N × Option N}
    (he : ∀ w c, e w c = (w, if p c then (none, none) else c.children.getD (none, none))) (w : σ) (b : Nat) :
    ∀ level : List (Spot N V), (∀ sp ∈ level, BinNode.size2 sp.node < b) →
    EditBfs2 e w level w (bfsF (level.map (cutB p))) := by
  induction b with
  | zero =>
    intro level h
    have : level = [] := List.eq_nil_iff_forall_not_mem.2 fun sp hsp => absurd (h sp hsp) (by omega)
    subst this
    simpa using EditBfs2.nil
  | succ b ih =>
    intro level h
    by_cases hl : level = []
    · subst hl
      simpa using EditBfs2.nil
    · have h1 := editLevel2_cut he w level
      have h2 : ∀ sp ∈ (editLevel2 e w level).2.2, ∃ sp' ∈ level, some sp.node ∈ slots sp'.node := by
        intro sp hsp
        rw [h1] at hsp
        obtain ⟨sp', h3, h4⟩ := List.mem_flatMap.1 hsp
        refine ⟨sp', h3, ?_⟩
        split at h4
        · simp [slotSpots] at h4
        · exact mem_slotSpots h4
      have h3 := ih (editLevel2 e w level).2.2 (fun sp hsp => by
        obtain ⟨sp', h4, h5⟩ := h2 sp hsp
        have := h sp' h4
        simp only [slots, List.mem_cons, List.not_mem_nil, or_false] at h5
        rcases h5 with h5 | h5
        · have := BinNode.size2_left h5.symm
          omega
        · have := BinNode.size2_right h5.symm
          omega)
      have h4 := EditBfs2.level hl (by
          rw [show (editLevel2 e w level).1 = w by rw [h1]]
          exact h3)
      rw [bfsF_step]
      rw [h1] at h4
      have e1 : (level.map (cutB p)).map Tree.value = level.map fun sp => ctxAt2 sp.path sp.above sp.node := by
        simp [cutB_eq, Tree.value]
      have e2 : (level.map (cutB p)).flatMap Tree.children =
          (level.flatMap fun sp => slotSpots sp.path (sp.above ++ [val2 sp.node]) 0
            (if p (ctxAt2 sp.path sp.above sp.node) then [none, none] else slots sp.node)).map (cutB p) := by
        rw [List.flatMap_map, List.map_flatMap]
        refine List.flatMap_congr fun sp _ => ?_
        rw [cutB_eq, Tree.children]
        split <;> simp [slotSpots]
      rw [e1, e2]
      exact h4

omit [BinNode N V] in
theorem SlotsSub.mem {s t : Option N × Option N} (h : SlotsSub s t) : ∀ x, some x ∈ [s.1, s.2] → x ∈ t.1 ∨ x ∈ t.2 := by
  intro x hx
  simp only [List.mem_cons, List.not_mem_nil, or_false] at hx
  exact hx.elim (fun e => h.1 x e.symm) fun e => h.2 x e.symm

theorem editPre2_ends {e : σ → Ctx V (Option N × Option N) → σ × List V × Option N × Option N}
    (hlen : ∀ w c, (e w c).2.1.length = c.ancestors.length)
    (hsub : ∀ w c cs, c.children = some cs → SlotsSub (e w c).2.2 cs) (n : N) :
    ∀ (ss : List (Option N)), (∀ c, some c ∈ ss → c ∈ (split2 n).2.1 ∨ c ∈ (split2 n).2.2) → ∀ path i w anc,
      ∃ s out, EditPre2 e path i ss (w, anc) s out ∧ s.2.length = anc.length := by
  induction n using binNode_ind with
  | h n ihl ihr =>
    intro ss
    induction ss with
    | nil => exact fun _ path i w anc => ⟨_, _, .nil, rfl⟩
    | cons o ss ihn =>
      intro hns path i w anc
      have ihn' := ihn fun c hc => hns c (by simp [hc])
      cases o with
      | none =>
        obtain ⟨s, out, h1, h2⟩ := ihn' path (i + 1) w anc
        exact ⟨s, out, .none h1, h2⟩
      | some c =>
        have hs := (hsub w (ctxAt2 (path ++ [i]) anc c) (split2 c).2 rfl).mem
        have ih := (hns c (by simp)).elim (fun h => ihl c h) fun h => ihr c h
        obtain ⟨⟨w2, anc2⟩, out1, h1, h2⟩ := ih _ hs (path ++ [i]) 0
          (e w (ctxAt2 (path ++ [i]) anc c)).1 (e w (ctxAt2 (path ++ [i]) anc c)).2.1
        obtain ⟨s, out2, h3, h4⟩ := ihn' path (i + 1) w2 anc2.dropLast
        have h5 := hlen w (ctxAt2 (path ++ [i]) anc c)
        refine ⟨s, _, .some rfl (by simpa [ctxAt2] using h5) h1 h3, ?_⟩
        simp only [ctxAt2, List.length_append, List.length_cons, List.length_nil] at h2 h4 h5
        rw [h4, List.length_dropLast, h2, h5]
        omega

theorem editRoot2_ends {e : σ → Ctx V (Option N × Option N) → σ × List V × Option N × Option N}
    (hlen : ∀ w c, (e w c).2.1.length = c.ancestors.length)
    (hsub : ∀ w c cs, c.children = some cs → SlotsSub (e w c).2.2 cs) (n : N) (w : σ) :
    ∃ wf out, EditRoot2 e n w wf out := by
  obtain ⟨⟨w2, anc2⟩, out1, h1, -⟩ := editPre2_ends hlen hsub n _ (hsub w (ctxAt2 [] [] n) (split2 n).2 rfl).mem [] 0
    (e w (ctxAt2 [] [] n)).1 (e w (ctxAt2 [] [] n)).2.1
  exact ⟨_, _, .mk rfl (by simpa [ctxAt2] using hlen w (ctxAt2 [] [] n)) h1⟩

theorem editLevel2_mem {e : σ → Ctx V (Option N × Option N) → σ × Option N × Option N}
    (hsub : ∀ w c cs, c.children = some cs → SlotsSub (e w c).2 cs) (level : List (Spot N V)) (w : σ) :
    ∀ sp ∈ (editLevel2 e w level).2.2, ∃ sp' ∈ level, sp.node ∈ (split2 sp'.node).2.1 ∨ sp.node ∈ (split2 sp'.node).2.2 := by
  induction level generalizing w with
  | nil => simp [editLevel2]
  | cons sp' sps ih =>
    intro sp hsp
    rw [editLevel2] at hsp
    rcases List.mem_append.1 hsp with hsp | hsp
    · exact ⟨sp', by simp, (hsub _ _ _ rfl).mem _ (mem_slotSpots hsp)⟩
    · obtain ⟨sp', h1, h2⟩ := ih _ _ hsp
      exact ⟨sp', by simp [h1], h2⟩

theorem editBfs2_ends {e : σ → Ctx V (Option N × Option N) → σ × Option N × Option N}
    (hsub : ∀ w c cs, c.children = some cs → SlotsSub (e w c).2 cs) (b : Nat) :
    ∀ level : List (Spot N V), (∀ sp ∈ level, BinNode.size2 sp.node < b) → ∀ w, ∃ wf out, EditBfs2 e w level wf out := by
  induction b with
  | zero =>
    intro level h w
    have : level = [] := List.eq_nil_iff_forall_not_mem.2 fun sp hsp => absurd (h sp hsp) (by omega)
    subst this
    exact ⟨_, _, .nil⟩
  | succ b ih =>
    intro level h w
    by_cases hl : level = []
    · subst hl
      exact ⟨_, _, .nil⟩
    · have h2 := editLevel2_mem hsub level w
      obtain ⟨wf, out, h3⟩ := ih (editLevel2 e w level).2.2 (fun sp hsp => by
        obtain ⟨sp', h4, h5⟩ := h2 sp hsp
        have := h sp' h4
        rcases h5 with h5 | h5
        · have := BinNode.size2_left h5
          omega
        · have := BinNode.size2_right h5
          omega) (editLevel2 e w level).1
      exact ⟨_, _, .level hl h3⟩

end Binary
end TreeIter
