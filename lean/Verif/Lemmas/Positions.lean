import Verif.Model.AtPath
import Verif.Lemmas.Located
import Verif.Lemmas.LevelOrder
import Mathlib.Data.List.Perm.Basic
import Mathlib.Data.List.Nodup

/-! # Positions of a tree: distinct, complete, and consistent with `at_path` -/

universe u v w

namespace TreeIter

variable {N : Type u} {V : Type v} {α : Type w}

open AtPath

/-! ## The four orders are permutations of one another -/

theorem postorder_perm_preorder (t : Tree α) : t.postorder.Perm t.preorder := by
  induction t using Tree.ind with
  | h a cs ih =>
    rw [Tree.postorder_node, Tree.preorder_node]
    refine (List.perm_append_comm).trans ?_
    simp only [List.singleton_append]
    refine List.Perm.cons a ?_
    exact List.Perm.flatMap_left _ ih

theorem bfsF_perm_preorder (ts : List (Tree α)) : (bfsF ts).Perm (ts.flatMap Tree.preorder) := by
  fun_induction bfsF ts with
  | case1 => simp
  | case2 a cs ts ih =>
    rw [List.flatMap_cons, Tree.preorder_node, List.cons_append]
    refine List.Perm.cons a (ih.trans ?_)
    rw [List.flatMap_append]
    exact List.perm_append_comm

theorem levelOrder_perm_preorder (t : Tree α) : t.levelOrder.Perm t.preorder := by
  rw [← bfsF_singleton]
  simpa using bfsF_perm_preorder [t]

theorem inorder_perm_preorder (t : BinTree α) : t.inorder.Perm t.toTree.preorder := by
  induction t using BinTree.ind with
  | h a l r ihl ihr =>
    rw [BinTree.inorder, BinTree.toTree, Tree.preorder_node]
    refine List.perm_middle.trans (List.Perm.cons a ?_)
    cases l <;> cases r <;> simp_all [BinTree.inorderO, BinTree.slotTrees]
    exact List.Perm.append (ihl) (ihr)

/-! ## Membership in the located tree -/

/-- Values of the nodes on the way down a path, the start included. -/
def alongN [TreeNode N V] (n : N) : List Nat → List N
  | [] => [n]
  | i :: p =>
    match (kids n)[i]? with
    | none => [n]
    | some c => n :: alongN c p

theorem mem_withPosL [TreeNode N V] (ns : List N) (pos : Pos N) (path : List Nat) (anc : List N)
    (i : Nat) :
    pos ∈ (Tree.withPosL path anc i (ns.map unfold)).flatMap Tree.preorder ↔
      ∃ j, ∃ h : j < ns.length, pos ∈ ((unfold ns[j]).withPos (path ++ [i + j]) anc).preorder := by
  induction ns generalizing i with
  | nil => simp [Tree.withPosL]
  | cons m ms ih =>
    rw [List.map_cons, Tree.withPosL, List.flatMap_cons, List.mem_append, ih]
    constructor
    · rintro (h | ⟨j, hj, h⟩)
      · exact ⟨0, by simp, by simpa using h⟩
      · refine ⟨j + 1, by simpa using hj, ?_⟩
        have : i + (j + 1) = i + 1 + j := by omega
        simpa [this] using h
    · rintro ⟨j, hj, h⟩
      cases j with
      | zero => exact Or.inl (by simpa using h)
      | succ j =>
        refine Or.inr ⟨j, by simpa using hj, ?_⟩
        have : i + (j + 1) = i + 1 + j := by omega
        simpa [this] using h

theorem mem_withPos [TreeNode N V] (n : N) (pos : Pos N) (path : List Nat) (anc : List N) :
    pos ∈ ((unfold n).withPos path anc).preorder ↔
      ∃ q, pos.path = path ++ q ∧ atPath n q = some pos.item ∧ pos.ancestors = anc ++ alongN n q := by
  induction n using node_ind generalizing path anc with
  | h n ih =>
    rw [unfold_eq, Tree.withPos, Tree.preorder_node, List.mem_cons, mem_withPosL]
    constructor
    · rintro (rfl | ⟨j, hj, h⟩)
      · exact ⟨[], by simp, rfl, rfl⟩
      · rw [ih _ (by simp)] at h
        obtain ⟨q, h1, h2, h3⟩ := h
        refine ⟨j :: q, by simp [h1], ?_, ?_⟩
        · simp [atPath, List.getElem?_eq_getElem hj, h2]
        · simp [alongN, List.getElem?_eq_getElem hj, h3]
    · rintro ⟨q, h1, h2, h3⟩
      cases q with
      | nil =>
        left
        obtain ⟨p, a, m⟩ := pos
        simp only [atPath, Option.some.injEq, alongN] at h1 h2 h3
        simp [h1, h2, h3]
      | cons j q =>
        right
        by_cases hj : j < (kids n).length
        · refine ⟨j, hj, ?_⟩
          rw [ih _ (by simp)]
          refine ⟨q, by simp [h1], ?_, ?_⟩
          · simpa [atPath, List.getElem?_eq_getElem hj] using h2
          · simpa [alongN, List.getElem?_eq_getElem hj] using h3
        · simp [atPath, List.getElem?_eq_none (Nat.le_of_not_lt hj)] at h2

theorem mem_located [TreeNode N V] (n : N) (pos : Pos N) :
    pos ∈ (unfold n).located.preorder ↔
      atPath n pos.path = some pos.item ∧ pos.ancestors = alongN n pos.path := by
  rw [Tree.located, mem_withPos]
  constructor
  · rintro ⟨q, h1, h2, h3⟩
    simp only [List.nil_append] at h1 h3
    rw [h1]
    exact ⟨h2, h3⟩
  · rintro ⟨h1, h2⟩
    exact ⟨pos.path, rfl, h1, h2⟩

theorem alongN_get [TreeNode N V] (n m : N) (p : List Nat) (h : atPath n p = some m) :
    (alongN n p).length = p.length + 1 ∧ (alongN n p).getLast? = some m ∧
      ∀ i, i ≤ p.length → (alongN n p)[i]? = atPath n (p.take i) := by
  induction p generalizing n with
  | nil =>
    simp only [atPath, Option.some.injEq] at h
    simp [alongN, h, atPath]
  | cons j p ih =>
    cases hj : (kids n)[j]? with
    | none => simp [atPath, hj] at h
    | some c =>
      simp only [atPath, hj] at h
      obtain ⟨h1, h2, h3⟩ := ih c h
      simp only [alongN, hj]
      refine ⟨by simp [h1], ?_, ?_⟩
      · rw [List.getLast?_cons, h2]; rfl
      · intro i hi
        cases i with
        | zero => simp [atPath]
        | succ i => simpa [atPath, hj] using h3 i (by simpa using hi)

/-! ## Paths are distinct -/

theorem withPos_prefix (t : Tree α) (path : List Nat) (anc : List α) :
    ∀ p ∈ (t.withPos path anc).preorder, path <+: p.path := by
  induction t using Tree.ind generalizing path anc with
  | h a cs ih =>
    rw [Tree.withPos, Tree.preorder_node]
    intro p hp
    rcases List.mem_cons.1 hp with rfl | hp
    · exact List.prefix_refl _
    · clear * - ih hp
      generalize 0 = i at hp
      generalize anc ++ [a] = anc' at hp
      induction cs generalizing i with
      | nil => simp [Tree.withPosL] at hp
      | cons c cs ih' =>
        rw [Tree.withPosL, List.flatMap_cons, List.mem_append] at hp
        rcases hp with hp | hp
        · exact (List.prefix_append path [i]).trans (ih c (by simp) _ _ p hp)
        · exact ih' (fun c hc => ih c (by simp [hc])) _ hp

theorem withPosL_prefix (cs : List (Tree α)) (path : List Nat) (anc : List α) (i : Nat) :
    ∀ p ∈ (Tree.withPosL path anc i cs).flatMap Tree.preorder, ∃ j, i ≤ j ∧ path ++ [j] <+: p.path := by
  induction cs generalizing i with
  | nil => simp [Tree.withPosL]
  | cons c cs ih =>
    intro p hp
    rw [Tree.withPosL, List.flatMap_cons, List.mem_append] at hp
    rcases hp with hp | hp
    · exact ⟨i, Nat.le_refl _, withPos_prefix _ _ _ p hp⟩
    · obtain ⟨j, h1, h2⟩ := ih (i + 1) p hp
      exact ⟨j, by omega, h2⟩

theorem withPos_nodup (t : Tree α) (path : List Nat) (anc : List α) :
    ((t.withPos path anc).preorder.map Pos.path).Nodup := by
  induction t using Tree.ind generalizing path anc with
  | h a cs ih =>
    rw [Tree.withPos, Tree.preorder_node, List.map_cons, List.nodup_cons]
    constructor
    · intro h
      obtain ⟨p, hp, he⟩ := List.mem_map.1 h
      obtain ⟨j, _, hj⟩ := withPosL_prefix cs path (anc ++ [a]) 0 p hp
      have := hj.length_le
      simp only [he, List.length_append, List.length_cons, List.length_nil] at this
      omega
    · generalize 0 = i
      generalize anc ++ [a] = anc'
      induction cs generalizing i with
      | nil => simp [Tree.withPosL]
      | cons c cs ih' =>
        rw [Tree.withPosL, List.flatMap_cons, List.map_append, List.nodup_append]
        refine ⟨ih c (by simp) _ _, ih' (fun c hc => ih c (by simp [hc])) _, ?_⟩
        intro x hx y hy he
        subst he
        obtain ⟨p, hp, rfl⟩ := List.mem_map.1 hx
        obtain ⟨q, hq, he⟩ := List.mem_map.1 hy
        have h1 := withPos_prefix _ _ _ p hp
        obtain ⟨j, hij, h2⟩ := withPosL_prefix cs path anc' (i + 1) q hq
        rw [he] at h2
        have h3 : path ++ [i] = path ++ [j] :=
          (List.prefix_of_prefix_length_le h1 h2 (by simp)).eq_of_length (by simp)
        have : i = j := by simpa using h3
        omega

theorem located_nodup (t : Tree α) : (t.located.preorder.map Pos.path).Nodup := withPos_nodup t [] []

/-! ## Binary nodes -/

/-- Nodes on the way down a path of slots, the start included. -/
def alongN2 [BinNode N V] (n : N) : List Nat → List N
  | [] => [n]
  | i :: p =>
    match (slots n)[i]? with
    | none => [n]
    | some none => [n]
    | some (some c) => n :: alongN2 c p

theorem preorder_withPos2 [BinNode N V] (n : N) (path : List Nat) (anc : List N) :
    ((unfold2 n).withPos path anc).toTree.preorder =
      ⟨path, anc ++ [n], n⟩ ::
        (((split2 n).2.1.toList.flatMap fun c =>
            ((unfold2 c).withPos (path ++ [0]) (anc ++ [n])).toTree.preorder) ++
          ((split2 n).2.2.toList.flatMap fun c =>
            ((unfold2 c).withPos (path ++ [1]) (anc ++ [n])).toTree.preorder)) := by
  rw [unfold2_eq, BinTree.withPos, BinTree.toTree, Tree.preorder_node]
  cases (split2 n).2.1 <;> cases (split2 n).2.2 <;> simp [BinTree.withPosO, BinTree.slotTrees]

theorem mem_withPos2 [BinNode N V] (n : N) (pos : Pos N) (path : List Nat) (anc : List N) :
    pos ∈ ((unfold2 n).withPos path anc).toTree.preorder ↔
      ∃ q, pos.path = path ++ q ∧ atPath2 n q = some pos.item ∧ pos.ancestors = anc ++ alongN2 n q := by
  induction n using binNode_ind generalizing path anc with
  | h n ihl ihr =>
    rw [preorder_withPos2, List.mem_cons, List.mem_append]
    have hl : (pos ∈ (split2 n).2.1.toList.flatMap fun c =>
        ((unfold2 c).withPos (path ++ [0]) (anc ++ [n])).toTree.preorder) ↔
        ∃ c, (split2 n).2.1 = some c ∧ ∃ q, pos.path = path ++ 0 :: q ∧ atPath2 c q = some pos.item ∧
          pos.ancestors = anc ++ n :: alongN2 c q := by
      cases h : (split2 n).2.1 with
      | none => simp
      | some c => simp [ihl c h]
    have hr : (pos ∈ (split2 n).2.2.toList.flatMap fun c =>
        ((unfold2 c).withPos (path ++ [1]) (anc ++ [n])).toTree.preorder) ↔
        ∃ c, (split2 n).2.2 = some c ∧ ∃ q, pos.path = path ++ 1 :: q ∧ atPath2 c q = some pos.item ∧
          pos.ancestors = anc ++ n :: alongN2 c q := by
      cases h : (split2 n).2.2 with
      | none => simp
      | some c => simp [ihr c h]
    rw [hl, hr]
    constructor
    · rintro (rfl | ⟨c, hc, q, h1, h2, h3⟩ | ⟨c, hc, q, h1, h2, h3⟩)
      · exact ⟨[], by simp, rfl, rfl⟩
      · exact ⟨0 :: q, h1, by simpa [atPath2, slots, hc] using h2, by simpa [alongN2, slots, hc] using h3⟩
      · exact ⟨1 :: q, h1, by simpa [atPath2, slots, hc] using h2, by simpa [alongN2, slots, hc] using h3⟩
    · rintro ⟨q, h1, h2, h3⟩
      match q with
      | [] =>
        left
        obtain ⟨p, a, m⟩ := pos
        simp only [atPath2, Option.some.injEq, alongN2] at h1 h2 h3
        simp [h1, h2, h3]
      | 0 :: q =>
        right; left
        cases hc : (split2 n).2.1 with
        | none => simp [atPath2, slots, hc] at h2
        | some c =>
          exact ⟨c, rfl, q, h1, by simpa [atPath2, slots, hc] using h2, by simpa [alongN2, slots, hc] using h3⟩
      | 1 :: q =>
        right; right
        cases hc : (split2 n).2.2 with
        | none => simp [atPath2, slots, hc] at h2
        | some c =>
          exact ⟨c, rfl, q, h1, by simpa [atPath2, slots, hc] using h2, by simpa [alongN2, slots, hc] using h3⟩
      | (i + 2) :: q => simp [atPath2, slots] at h2

theorem mem_located2 [BinNode N V] (n : N) (pos : Pos N) :
    pos ∈ (unfold2 n).located.toTree.preorder ↔
      atPath2 n pos.path = some pos.item ∧ pos.ancestors = alongN2 n pos.path := by
  rw [BinTree.located, mem_withPos2]
  constructor
  · rintro ⟨q, h1, h2, h3⟩
    simp only [List.nil_append] at h1 h3
    rw [h1]
    exact ⟨h2, h3⟩
  · rintro ⟨h1, h2⟩
    exact ⟨pos.path, rfl, h1, h2⟩

theorem alongN2_get [BinNode N V] (n m : N) (p : List Nat) (h : atPath2 n p = some m) :
    (alongN2 n p).length = p.length + 1 ∧ (alongN2 n p).getLast? = some m ∧
      ∀ i, i ≤ p.length → (alongN2 n p)[i]? = atPath2 n (p.take i) := by
  induction p generalizing n with
  | nil =>
    simp only [atPath2, Option.some.injEq] at h
    simp [alongN2, h, atPath2]
  | cons j p ih =>
    match hj : (slots n)[j]? with
    | none => simp [atPath2, hj] at h
    | some none => simp [atPath2, hj] at h
    | some (some c) =>
      simp only [atPath2, hj] at h
      obtain ⟨h1, h2, h3⟩ := ih c h
      simp only [alongN2, hj]
      refine ⟨by simp [h1], ?_, ?_⟩
      · rw [List.getLast?_cons, h2]; rfl
      · intro i hi
        cases i with
        | zero => simp [atPath2]
        | succ i => simpa [atPath2, hj] using h3 i (by simpa using hi)

theorem withPos2_prefix (t : BinTree α) (path : List Nat) (anc : List α) :
    ∀ p ∈ (t.withPos path anc).toTree.preorder, path <+: p.path := by
  induction t using BinTree.ind generalizing path anc with
  | h a l r ihl ihr =>
    rw [BinTree.withPos, BinTree.toTree, Tree.preorder_node]
    intro p hp
    rcases List.mem_cons.1 hp with rfl | hp
    · exact List.prefix_refl _
    · have hl := fun t ht => ihl t ht (path ++ [0]) (anc ++ [a]) p
      have hr := fun t ht => ihr t ht (path ++ [1]) (anc ++ [a]) p
      have h0 : path <+: path ++ [0] := List.prefix_append _ _
      have h1 : path <+: path ++ [1] := List.prefix_append _ _
      cases l <;> cases r <;>
        simp only [BinTree.withPosO, BinTree.slotTrees, List.flatMap_nil, List.flatMap_cons,
          List.append_nil, List.nil_append, List.cons_append, List.mem_append, List.not_mem_nil] at hp
      · exact h1.trans (hr _ rfl hp)
      · exact h0.trans (hl _ rfl hp)
      · rcases hp with hp | hp
        · exact h0.trans (hl _ rfl hp)
        · exact h1.trans (hr _ rfl hp)

theorem withPos2_nodup (t : BinTree α) (path : List Nat) (anc : List α) :
    ((t.withPos path anc).toTree.preorder.map Pos.path).Nodup := by
  induction t using BinTree.ind generalizing path anc with
  | h a l r ihl ihr =>
    rw [BinTree.withPos, BinTree.toTree, Tree.preorder_node, List.map_cons, List.nodup_cons]
    have pl := fun (t : BinTree α) => withPos2_prefix t (path ++ [0]) (anc ++ [a])
    have pr := fun (t : BinTree α) => withPos2_prefix t (path ++ [1]) (anc ++ [a])
    have hl := fun t ht => ihl t ht (path ++ [0]) (anc ++ [a])
    have hr := fun t ht => ihr t ht (path ++ [1]) (anc ++ [a])
    have no : ∀ (i : Nat) (q : List Nat), path ++ [i] <+: q → path ≠ q := by
      rintro i q h rfl
      have := h.length_le
      simp only [List.length_append, List.length_cons, List.length_nil] at this
      omega
    constructor
    · intro h
      obtain ⟨p, hp, he⟩ := List.mem_map.1 h
      cases l <;> cases r <;>
        simp only [BinTree.withPosO, BinTree.slotTrees, List.flatMap_nil, List.flatMap_cons,
          List.append_nil, List.nil_append, List.cons_append, List.mem_append, List.not_mem_nil] at hp
      · exact no _ _ (pr _ p hp) he.symm
      · exact no _ _ (pl _ p hp) he.symm
      · rcases hp with hp | hp
        · exact no _ _ (pl _ p hp) he.symm
        · exact no _ _ (pr _ p hp) he.symm
    · cases l with
      | none =>
        cases r with
        | none => simp [BinTree.withPosO, BinTree.slotTrees]
        | some r => simpa [BinTree.withPosO, BinTree.slotTrees] using hr r rfl
      | some l =>
        cases r with
        | none => simpa [BinTree.withPosO, BinTree.slotTrees] using hl l rfl
        | some r =>
          simp only [BinTree.withPosO, BinTree.slotTrees, List.flatMap_nil, List.flatMap_cons,
            List.append_nil, List.nil_append, List.cons_append, List.map_append]
          rw [List.nodup_append]
          refine ⟨hl l rfl, hr r rfl, ?_⟩
          intro x hx y hy he
          subst he
          obtain ⟨p, hp, rfl⟩ := List.mem_map.1 hx
          obtain ⟨q, hq, he⟩ := List.mem_map.1 hy
          have h1 := pl _ p hp
          have h2 := pr _ q hq
          rw [he] at h2
          have h3 : path ++ [0] = path ++ [1] :=
            (List.prefix_of_prefix_length_le h1 h2 (by simp)).eq_of_length (by simp)
          simp at h3

theorem located2_nodup (t : BinTree α) : (t.located.toTree.preorder.map Pos.path).Nodup :=
  withPos2_nodup t [] []

/-- The items of the located tree are the items of the tree. -/
theorem map_item_withPos (t : Tree α) (path : List Nat) (anc : List α) :
    (t.withPos path anc).map Pos.item = t := by
  induction t using Tree.ind generalizing path anc with
  | h a cs ih =>
    rw [Tree.withPos, Tree.map_node]
    congr 1
    generalize 0 = i
    generalize anc ++ [a] = anc'
    induction cs generalizing i with
    | nil => rfl
    | cons c cs ih' =>
      rw [Tree.withPosL, List.map_cons, ih c (by simp), ih' fun c hc => ih c (by simp [hc])]

theorem map_item_located (t : Tree α) : t.located.map Pos.item = t := map_item_withPos t [] []

theorem map_item_withPos2 (t : BinTree α) (path : List Nat) (anc : List α) :
    (t.withPos path anc).map Pos.item = t := by
  induction t using BinTree.ind generalizing path anc with
  | h a l r ihl ihr =>
    rw [BinTree.withPos, BinTree.map]
    congr 1
    · cases l with
      | none => rfl
      | some l => simp [BinTree.withPosO, BinTree.mapO, ihl l rfl]
    · cases r with
      | none => rfl
      | some r => simp [BinTree.withPosO, BinTree.mapO, ihr r rfl]

theorem map_item_located2 (t : BinTree α) : t.located.map Pos.item = t := map_item_withPos2 t [] []

end TreeIter
