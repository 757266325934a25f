import Verif.Lemmas.Positions
import Verif.Props.DepthFirst
import Verif.Props.BreadthFirst

/-! # C05, C15, C16: every node once; paths lead back to their nodes; `at_path` -/

universe u v

namespace TreeIter

variable {N : Type u} {V : Type v}

open AtPath

/-! ## C16 -/

/-- Following child indexes, as a relation: `m` is reached from `n` by `path`. -/
inductive Reaches [TreeNode N V] : N → List Nat → N → Prop
  | here (n : N) : Reaches n [] n
  | step {n c m : N} {i : Nat} {path : List Nat} :
      (kids n)[i]? = some c → Reaches c path m → Reaches n (i :: path) m

/-- Following left (`0`) and right (`1`) steps. -/
inductive Reaches2 [BinNode N V] : N → List Nat → N → Prop
  | here (n : N) : Reaches2 n [] n
  | left {n c m : N} {path : List Nat} :
      (split2 n).2.1 = some c → Reaches2 c path m → Reaches2 n (0 :: path) m
  | right {n c m : N} {path : List Nat} :
      (split2 n).2.2 = some c → Reaches2 c path m → Reaches2 n (1 :: path) m

/-- C16, found: `at_path` returns exactly the descendant reached by the indexes. -/
theorem C16_at_path [TreeNode N V] (n m : N) (path : List Nat) :
    atPath n path = some m ↔ Reaches n path m := by
  induction path generalizing n with
  | nil =>
    constructor
    · intro h
      obtain rfl : n = m := by simpa [atPath] using h
      exact .here n
    · intro h
      cases h
      rfl
  | cons i path ih =>
    constructor
    · intro h
      cases hc : (kids n)[i]? with
      | none => simp [atPath, hc] at h
      | some c => exact .step hc ((ih c).1 (by simpa [atPath, hc] using h))
    · intro h
      cases h with
      | step hc h => simpa [atPath, hc] using (ih _).2 h

/-- C16, not found: `None` exactly when a prefix of the path reaches a node where the next index is out of
range. -/
theorem C16_at_path_none [TreeNode N V] (n : N) (path : List Nat) :
    atPath n path = none ↔
      ∃ p i q m, path = p ++ i :: q ∧ Reaches n p m ∧ (kids m).length ≤ i := by
  induction path generalizing n with
  | nil => simp [atPath]
  | cons j path ih =>
    constructor
    · intro h
      cases hc : (kids n)[j]? with
      | none => exact ⟨[], j, path, n, rfl, .here n, by simpa using hc⟩
      | some c =>
        obtain ⟨p, i, q, m, h1, h2, h3⟩ := (ih c).1 (by simpa [atPath, hc] using h)
        exact ⟨j :: p, i, q, m, by simp [h1], .step hc h2, h3⟩
    · rintro ⟨p, i, q, m, h1, h2, h3⟩
      cases h2 with
      | here =>
        obtain ⟨rfl, rfl⟩ : j = i ∧ path = q := by simpa using h1
        simp [atPath, h3]
      | step hc h2 =>
        obtain ⟨rfl, rfl⟩ : j = _ ∧ path = _ := by simpa using h1
        simpa [atPath, hc] using (ih _).2 ⟨_, i, q, m, rfl, h2, h3⟩

example : (atPath sampleTree [1, 0]).map Tree.value = some 5 := by decide +kernel

example : (atPath sampleTree [1, 1]).map Tree.value = none := by decide +kernel

/-- C16 for binary nodes, found. -/
theorem C16_at_path_binary [BinNode N V] (n m : N) (path : List Nat) :
    atPath2 n path = some m ↔ Reaches2 n path m := by
  induction path generalizing n with
  | nil =>
    constructor
    · intro h
      obtain rfl : n = m := by simpa [atPath2] using h
      exact .here n
    · intro h
      cases h
      rfl
  | cons i path ih =>
    constructor
    · intro h
      match i with
      | 0 =>
        cases hc : (split2 n).2.1 with
        | none => simp [atPath2, slots, hc] at h
        | some c => exact .left hc ((ih c).1 (by simpa [atPath2, slots, hc] using h))
      | 1 =>
        cases hc : (split2 n).2.2 with
        | none => simp [atPath2, slots, hc] at h
        | some c => exact .right hc ((ih c).1 (by simpa [atPath2, slots, hc] using h))
      | i + 2 => simp [atPath2, slots] at h
    · intro h
      cases h with
      | left hc h => simpa [atPath2, slots, hc] using (ih _).2 h
      | right hc h => simpa [atPath2, slots, hc] using (ih _).2 h

/-- C16 for binary nodes, not found: an index other than `0`/`1`, or an empty slot. -/
theorem C16_at_path_binary_none [BinNode N V] (n : N) (path : List Nat) :
    atPath2 n path = none ↔
      ∃ p i q m, path = p ++ i :: q ∧ Reaches2 n p m ∧
        (2 ≤ i ∨ (i = 0 ∧ (split2 m).2.1 = none) ∨ (i = 1 ∧ (split2 m).2.2 = none)) := by
  induction path generalizing n with
  | nil => simp [atPath2]
  | cons j path ih =>
    constructor
    · intro h
      match j with
      | 0 =>
        cases hc : (split2 n).2.1 with
        | none => exact ⟨[], 0, path, n, rfl, .here n, by simp [hc]⟩
        | some c =>
          obtain ⟨p, i, q, m, h1, h2, h3⟩ := (ih c).1 (by simpa [atPath2, slots, hc] using h)
          exact ⟨0 :: p, i, q, m, by simp [h1], .left hc h2, h3⟩
      | 1 =>
        cases hc : (split2 n).2.2 with
        | none => exact ⟨[], 1, path, n, rfl, .here n, by simp [hc]⟩
        | some c =>
          obtain ⟨p, i, q, m, h1, h2, h3⟩ := (ih c).1 (by simpa [atPath2, slots, hc] using h)
          exact ⟨1 :: p, i, q, m, by simp [h1], .right hc h2, h3⟩
      | j + 2 => exact ⟨[], j + 2, path, n, rfl, .here n, by simp⟩
    · rintro ⟨p, i, q, m, h1, h2, h3⟩
      cases h2 with
      | here =>
        obtain ⟨rfl, rfl⟩ : j = i ∧ path = q := by simpa using h1
        rcases h3 with h3 | ⟨rfl, h3⟩ | ⟨rfl, h3⟩
        · obtain ⟨i, rfl⟩ : ∃ i, j = i + 2 := ⟨j - 2, by omega⟩
          simp [atPath2, slots]
        · simp [atPath2, slots, h3]
        · simp [atPath2, slots, h3]
      | left hc h2 =>
        obtain ⟨rfl, rfl⟩ : j = _ ∧ path = _ := by simpa using h1
        simpa [atPath2, slots, hc] using (ih _).2 ⟨_, i, q, m, rfl, h2, h3⟩
      | right hc h2 =>
        obtain ⟨rfl, rfl⟩ : j = _ ∧ path = _ := by simpa using h1
        simpa [atPath2, slots, hc] using (ih _).2 ⟨_, i, q, m, rfl, h2, h3⟩

example : (atPath2 sampleBin [0, 1]).map BinTree.value = some 3 ∧
    (atPath2 sampleBin [0, 0]).map BinTree.value = none := by decide +kernel

/-- C16 for collections: the first index selects the tree. -/
theorem C16_at_path_collection [TreeNode N V] (ns : List N) (m : N) (path : List Nat) :
    atPathColl ns path = some m ↔ ∃ i q n, path = i :: q ∧ ns[i]? = some n ∧ Reaches n q m := by
  cases path with
  | nil => simp [atPathColl]
  | cons j q =>
    cases hn : ns[j]? with
    | none => simp [atPathColl, hn]
    | some n => simp [atPathColl, hn, C16_at_path]

/-- C16 for collections of binary nodes. -/
theorem C16_at_path_collection_binary [BinNode N V] (ns : List N) (m : N) (path : List Nat) :
    atPathColl2 ns path = some m ↔ ∃ i q n, path = i :: q ∧ ns[i]? = some n ∧ Reaches2 n q m := by
  cases path with
  | nil => simp [atPathColl2]
  | cons j q =>
    cases hn : ns[j]? with
    | none => simp [atPathColl2, hn]
    | some n => simp [atPathColl2, hn, C16_at_path_binary]

example : (atPathColl [sampleTree, sampleTree] [1, 0]).map Tree.value = some 1 ∧
    (atPathColl [sampleTree] []).map Tree.value = none := by decide +kernel

example : (atPathColl2 [sampleBin, sampleBin] [1, 0, 1]).map BinTree.value = some 3 := by decide +kernel

/-! ## C05 -/

/-- `answer k` lists every node of the tree below `n` exactly once: there is a list of distinct paths, exactly
those that lead to a node, and answer `k` is the value of the node at path number `k`. -/
def EachNodeOnce [TreeNode N V] (n : N) (answer : Nat → Option V) : Prop :=
  ∃ ps : List (List Nat), ps.Nodup ∧ (∀ p, p ∈ ps ↔ ∃ m, Reaches n p m) ∧
    ∀ k, match ps[k]? with
      | none => answer k = none
      | some p => ∃ m, Reaches n p m ∧ answer k = some (val m)

/-- The same for binary nodes, with paths of slots. -/
def EachNodeOnce2 [BinNode N V] (n : N) (answer : Nat → Option V) : Prop :=
  ∃ ps : List (List Nat), ps.Nodup ∧ (∀ p, p ∈ ps ↔ ∃ m, Reaches2 n p m) ∧
    ∀ k, match ps[k]? with
      | none => answer k = none
      | some p => ∃ m, Reaches2 n p m ∧ answer k = some (val2 m)

theorem eachNodeOnce_of_perm [TreeNode N V] (n : N) (answer : Nat → Option V) (l : List (Pos N))
    (hl : l.Perm (unfold n).located.preorder) (ha : ∀ k, answer k = (l.map fun p => val p.item)[k]?) :
    EachNodeOnce n answer := by
  refine ⟨l.map Pos.path, ?_, ?_, ?_⟩
  · exact (hl.map Pos.path).nodup_iff.2 (located_nodup _)
  · intro p
    rw [(hl.map Pos.path).mem_iff, List.mem_map]
    constructor
    · rintro ⟨pos, h, rfl⟩
      exact ⟨pos.item, (C16_at_path ..).1 ((mem_located n pos).1 h).1⟩
    · rintro ⟨m, h⟩
      exact ⟨⟨p, alongN n p, m⟩, (mem_located n _).2 ⟨(C16_at_path ..).2 h, rfl⟩, rfl⟩
  · intro k
    rw [ha, List.getElem?_map, List.getElem?_map]
    cases hk : l[k]? with
    | none => rfl
    | some pos =>
      have : pos ∈ (unfold n).located.preorder := hl.mem_iff.1 (List.mem_of_getElem? hk)
      exact ⟨pos.item, (C16_at_path ..).1 ((mem_located n pos).1 this).1, rfl⟩

theorem eachNodeOnce2_of_perm [BinNode N V] (n : N) (answer : Nat → Option V) (l : List (Pos N))
    (hl : l.Perm (unfold2 n).located.toTree.preorder) (ha : ∀ k, answer k = (l.map fun p => val2 p.item)[k]?) :
    EachNodeOnce2 n answer := by
  refine ⟨l.map Pos.path, ?_, ?_, ?_⟩
  · exact (hl.map Pos.path).nodup_iff.2 (located2_nodup _)
  · intro p
    rw [(hl.map Pos.path).mem_iff, List.mem_map]
    constructor
    · rintro ⟨pos, h, rfl⟩
      exact ⟨pos.item, (C16_at_path_binary ..).1 ((mem_located2 n pos).1 h).1⟩
    · rintro ⟨m, h⟩
      exact ⟨⟨p, alongN2 n p, m⟩, (mem_located2 n _).2 ⟨(C16_at_path_binary ..).2 h, rfl⟩, rfl⟩
  · intro k
    rw [ha, List.getElem?_map, List.getElem?_map]
    cases hk : l[k]? with
    | none => rfl
    | some pos =>
      have : pos ∈ (unfold2 n).located.toTree.preorder := hl.mem_iff.1 (List.mem_of_getElem? hk)
      exact ⟨pos.item, (C16_at_path_binary ..).1 ((mem_located2 n pos).1 this).1, rfl⟩

theorem treeOf_located [TreeNode N V] (n : N) : treeOf n = (unfold n).located.map fun p => val p.item := by
  conv_lhs => rw [treeOf, ← map_item_located (unfold n), Tree.map_map]
  rfl

theorem binTreeOf_located [BinNode N V] (n : N) :
    binTreeOf n = (unfold2 n).located.map fun p => val2 p.item := by
  conv_lhs => rw [binTreeOf, ← map_item_located2 (unfold2 n), BinTree.map_map]
  rfl

/-- C05, preorder. -/
theorem C05_preorder [TreeNode N V] (n : N) :
    EachNodeOnce n fun k => nthCall Preorder.next k (Preorder.new n) :=
  eachNodeOnce_of_perm n _ _ (List.Perm.refl _) fun k => by
    rw [C01_preorder, treeOf_located, Tree.preorder_map]

/-- C05, postorder. -/
theorem C05_postorder [TreeNode N V] (n : N) :
    EachNodeOnce n fun k => nthCall Postorder.next k (Postorder.new n) :=
  eachNodeOnce_of_perm n _ _ (postorder_perm_preorder _) fun k => by
    rw [C02_postorder, treeOf_located, Tree.postorder_map]

/-- C05, breadth-first. -/
theorem C05_bfs [TreeNode N V] (n : N) :
    EachNodeOnce n fun k => nthCall Bfs.next k (Bfs.new n) :=
  eachNodeOnce_of_perm n _ _ (levelOrder_perm_preorder _) fun k => by
    rw [C04_bfs, treeOf_located, Tree.levelOrder_map]

/-- C05, in-order. -/
theorem C05_inorder [BinNode N V] (n : N) :
    EachNodeOnce2 n fun k => nthCall Inorder.next k (Inorder.new n) :=
  eachNodeOnce2_of_perm n _ _ (inorder_perm_preorder _) fun k => by
    rw [C03_inorder, binTreeOf_located, BinTree.inorder_map]

/-- C05, the other orders on binary nodes, with paths of slots. -/
theorem C05_binary [BinNode N V] (n : N) :
    EachNodeOnce2 n (fun k => nthCall Preorder.next k (Preorder.new n)) ∧
    EachNodeOnce2 n (fun k => nthCall Postorder.next k (Postorder.new n)) ∧
    EachNodeOnce2 n (fun k => nthCall Bfs.next k (Bfs.new n)) := by
  refine ⟨eachNodeOnce2_of_perm n _ _ (List.Perm.refl _) fun k => ?_,
    eachNodeOnce2_of_perm n _ _ (postorder_perm_preorder _) fun k => ?_,
    eachNodeOnce2_of_perm n _ _ (levelOrder_perm_preorder _) fun k => ?_⟩
  · rw [C01_preorder_binary, binTreeOf_located, BinTree.toTree_map, Tree.preorder_map]
  · rw [C02_postorder_binary, binTreeOf_located, BinTree.toTree_map, Tree.postorder_map]
  · rw [C04_bfs_binary, binTreeOf_located, BinTree.toTree_map, Tree.levelOrder_map]

/-- C05: the listings are permutations of one another. -/
theorem C05_permutations [BinNode N V] (n : N) :
    ∃ pre post level inord : List V,
      (∀ k, nthCall Preorder.next k (Preorder.new n) = pre[k]?) ∧
      (∀ k, nthCall Postorder.next k (Postorder.new n) = post[k]?) ∧
      (∀ k, nthCall Bfs.next k (Bfs.new n) = level[k]?) ∧
      (∀ k, nthCall Inorder.next k (Inorder.new n) = inord[k]?) ∧
      post.Perm pre ∧ level.Perm pre ∧ inord.Perm pre :=
  ⟨_, _, _, _, C01_preorder_binary n, C02_postorder_binary n, C04_bfs_binary n, C03_inorder n,
    postorder_perm_preorder _, levelOrder_perm_preorder _, inorder_perm_preorder _⟩

/-- C05: the listings of general nodes are permutations of one another. -/
theorem C05_permutations_general [TreeNode N V] (n : N) :
    ∃ pre post level : List V,
      (∀ k, nthCall Preorder.next k (Preorder.new n) = pre[k]?) ∧
      (∀ k, nthCall Postorder.next k (Postorder.new n) = post[k]?) ∧
      (∀ k, nthCall Bfs.next k (Bfs.new n) = level[k]?) ∧
      post.Perm pre ∧ level.Perm pre :=
  ⟨_, _, _, C01_preorder n, C02_postorder n, C04_bfs n, postorder_perm_preorder _, levelOrder_perm_preorder _⟩

/-- The paths of `sampleBin` in the four orders. -/
example : sampleBin.located.toTree.preorder.map Pos.path = [[], [0], [0, 1], [1], [1, 0]] ∧
    sampleBin.located.toTree.postorder.map Pos.path = [[0, 1], [0], [1, 0], [1], []] ∧
    sampleBin.located.toTree.levelOrder.map Pos.path = [[], [0], [1], [0, 1], [1, 0]] ∧
    sampleBin.located.inorder.map Pos.path = [[0], [0, 1], [], [1, 0], [1]] := by decide +kernel

/-! ## C15 -/

/-- What C15 asks of a context of a traversal below `n`: the path leads to a node whose children are the
children of the context and whose value is the last ancestor, the ancestors are the values of the nodes met
on the way, and the depth is the length of the path. -/
def CtxLeadsBack [TreeNode N V] (n : N) (c : Ctx V (List N)) : Prop :=
  ∃ m, atPath n c.path = some m ∧ c.ancestors.getLast? = some (val m) ∧ c.children = some (kids m) ∧
    c.depth = c.path.length ∧
    ∀ i, i ≤ c.path.length → c.ancestors[i]? = (atPath n (c.path.take i)).map val

/-- C15 for binary nodes. -/
def CtxLeadsBack2 [BinNode N V] (n : N) (c : Ctx V (Option N × Option N)) : Prop :=
  ∃ m, atPath2 n c.path = some m ∧ c.ancestors.getLast? = some (val2 m) ∧ c.children = some (split2 m).2 ∧
    c.depth = c.path.length ∧
    ∀ i, i ≤ c.path.length → c.ancestors[i]? = (atPath2 n (c.path.take i)).map val2

theorem ctx_leads_back [TreeNode N V] (n : N) (p : Pos N) (h : p ∈ (unfold n).located.preorder) :
    CtxLeadsBack n p.ctx := by
  obtain ⟨h1, h2⟩ := (mem_located n p).1 h
  obtain ⟨a1, a2, a3⟩ := alongN_get n p.item p.path h1
  refine ⟨p.item, h1, ?_, rfl, ?_, ?_⟩
  · simp [Pos.ctx, h2, a2]
  · simp [Pos.ctx, Ctx.depth, h2, a1]
  · intro i hi
    simp only [Pos.ctx, List.getElem?_map, h2] at hi ⊢
    rw [a3 i hi]

theorem ctx2_leads_back [BinNode N V] (n : N) (p : Pos N) (h : p ∈ (unfold2 n).located.toTree.preorder) :
    CtxLeadsBack2 n p.ctx2 := by
  obtain ⟨h1, h2⟩ := (mem_located2 n p).1 h
  obtain ⟨a1, a2, a3⟩ := alongN2_get n p.item p.path h1
  refine ⟨p.item, h1, ?_, rfl, ?_, ?_⟩
  · simp [Pos.ctx2, h2, a2]
  · simp [Pos.ctx2, Ctx.depth, h2, a1]
  · intro i hi
    simp only [Pos.ctx2, List.getElem?_map, h2] at hi ⊢
    rw [a3 i hi]

theorem of_nthCallE {C : Type u} {l : List C} {k : Nat} {c : C} {P : C → Prop} {x : Except Panic (Option C)}
    (hx : x = .ok l[k]?) (hc : x = .ok (some c)) (h : ∀ c ∈ l, P c) : P c := by
  rw [hx] at hc
  exact h c (List.mem_of_getElem? (Except.ok.inj hc))

/-- C15, preorder. -/
theorem C15_preorder [TreeNode N V] (n : N) (ha : ArityOk n) :
    ∃ s, Preorder.attachContext (Preorder.new n) = .ok s ∧
      ∀ k c, nthCallE Preorder.ctxNext k s = .ok (some c) → CtxLeadsBack n c := by
  obtain ⟨s, h1, h2⟩ := C10_preorder_context n ha
  refine ⟨s, h1, fun k c hc => of_nthCallE (h2 k) hc ?_⟩
  intro c hc
  obtain ⟨p, hp, rfl⟩ := List.mem_map.1 hc
  exact ctx_leads_back n p hp

example := C15_preorder sampleTree sampleTree_arity

/-- C15, preorder of binary nodes. -/
theorem C15_preorder_binary [BinNode N V] (n : N) :
    ∃ s, Preorder.binAttachContext (Preorder.new n) = .ok s ∧
      ∀ k c, nthCallE Preorder.binCtxNext k s = .ok (some c) → CtxLeadsBack2 n c := by
  obtain ⟨s, h1, h2⟩ := C11_preorder_context_binary n
  refine ⟨s, h1, fun k c hc => of_nthCallE (h2 k) hc ?_⟩
  intro c hc
  obtain ⟨p, hp, rfl⟩ := List.mem_map.1 hc
  exact ctx2_leads_back n p hp

/-- C15, postorder. -/
theorem C15_postorder [TreeNode N V] (n : N) (ha : ArityOk n) :
    ∃ s, Postorder.attachContext (Postorder.new n) = .ok s ∧
      ∀ k c, nthCallE Postorder.ctxNext k s = .ok (some c) → CtxLeadsBack n c := by
  obtain ⟨s, h1, h2⟩ := C12_postorder_context n ha
  refine ⟨s, h1, fun k c hc => of_nthCallE (h2 k) hc ?_⟩
  intro c hc
  obtain ⟨p, hp, rfl⟩ := List.mem_map.1 hc
  exact ctx_leads_back n p ((postorder_perm_preorder _).mem_iff.1 hp)

example := C15_postorder sampleTree sampleTree_arity

/-- C15, postorder of binary nodes. -/
theorem C15_postorder_binary [BinNode N V] (n : N) :
    ∃ s, Postorder.binAttachContext (Postorder.new n) = .ok s ∧
      ∀ k c, nthCallE Postorder.binCtxNext k s = .ok (some c) → CtxLeadsBack2 n c := by
  obtain ⟨s, h1, h2⟩ := C12_postorder_context_binary n
  refine ⟨s, h1, fun k c hc => of_nthCallE (h2 k) hc ?_⟩
  intro c hc
  obtain ⟨p, hp, rfl⟩ := List.mem_map.1 hc
  exact ctx2_leads_back n p ((postorder_perm_preorder _).mem_iff.1 hp)

/-- C15, postorder of mutably borrowed binary nodes. -/
theorem C15_postorder_binary_mut [BinNode N V] (n : N) :
    ∃ s, Postorder.binAttachContext (Postorder.new n) = .ok s ∧
      ∀ k c, nthCallE Postorder.mutBinCtxNext k s = .ok (some c) → CtxLeadsBack2 n c := by
  obtain ⟨s, h1, h2⟩ := C12_postorder_context_binary_mut n
  refine ⟨s, h1, fun k c hc => of_nthCallE (h2 k) hc ?_⟩
  intro c hc
  obtain ⟨p, hp, rfl⟩ := List.mem_map.1 hc
  exact ctx2_leads_back n p ((postorder_perm_preorder _).mem_iff.1 hp)

/-- C15, in-order. -/
theorem C15_inorder [BinNode N V] (n : N) :
    ∃ s, Inorder.attachContext (Inorder.new n) = .ok s ∧
      ∀ k c, nthCallE Inorder.ctxNext k s = .ok (some c) → CtxLeadsBack2 n c := by
  obtain ⟨s, h1, h2⟩ := C13_inorder_context n
  refine ⟨s, h1, fun k c hc => of_nthCallE (h2 k) hc ?_⟩
  intro c hc
  obtain ⟨p, hp, rfl⟩ := List.mem_map.1 hc
  exact ctx2_leads_back n p ((inorder_perm_preorder _).mem_iff.1 hp)

/-- What C15 asks when the children have been consumed: as `CtxLeadsBack` without them. -/
def CtxLeadsBackOwned [TreeNode N V] (n : N) (c : Ctx V (List N)) : Prop :=
  ∃ m, atPath n c.path = some m ∧ c.ancestors.getLast? = some (val m) ∧ c.children = none ∧
    c.depth = c.path.length ∧
    ∀ i, i ≤ c.path.length → c.ancestors[i]? = (atPath n (c.path.take i)).map val

/-- What C15 asks of a binary node when the children have been consumed. -/
def CtxLeadsBackOwned2 [BinNode N V] (n : N) (c : Ctx V (Option N × Option N)) : Prop :=
  ∃ m, atPath2 n c.path = some m ∧ c.ancestors.getLast? = some (val2 m) ∧ c.children = none ∧
    c.depth = c.path.length ∧
    ∀ i, i ≤ c.path.length → c.ancestors[i]? = (atPath2 n (c.path.take i)).map val2

/-- C15, owned postorder. -/
theorem C15_postorder_owned [TreeNode N V] (n : N) (ha : ArityOk n) :
    ∃ s, Postorder.ownAttachContext (Postorder.new n) = .ok s ∧
      ∀ k c, nthCallE Postorder.ownCtxNext k s = .ok (some c) → CtxLeadsBackOwned n c := by
  obtain ⟨s, h1, h2⟩ := C12_postorder_context_owned n ha
  refine ⟨s, h1, fun k c hc => of_nthCallE (h2 k) hc ?_⟩
  intro c hc
  obtain ⟨p, hp, rfl⟩ := List.mem_map.1 hc
  obtain ⟨m, m1, m2, _, m4, m5⟩ := ctx_leads_back n p ((postorder_perm_preorder _).mem_iff.1 hp)
  exact ⟨m, m1, m2, rfl, m4, m5⟩

example := C15_postorder_owned sampleTree sampleTree_arity

/-- C15, owned postorder of binary nodes. -/
theorem C15_postorder_binary_owned [BinNode N V] (n : N) :
    ∃ s, Postorder.ownBinAttachContext (Postorder.new n) = .ok s ∧
      ∀ k c, nthCallE Postorder.ownBinCtxNext k s = .ok (some c) → CtxLeadsBackOwned2 n c := by
  obtain ⟨s, h1, h2⟩ := C12_postorder_context_binary_owned n
  refine ⟨s, h1, fun k c hc => of_nthCallE (h2 k) hc ?_⟩
  intro c hc
  obtain ⟨p, hp, rfl⟩ := List.mem_map.1 hc
  obtain ⟨m, m1, m2, _, m4, m5⟩ := ctx2_leads_back n p ((postorder_perm_preorder _).mem_iff.1 hp)
  exact ⟨m, m1, m2, rfl, m4, m5⟩

/-- C15, owned in-order. -/
theorem C15_inorder_owned [BinNode N V] (n : N) :
    ∃ s, Inorder.ownAttachContext (Inorder.new n) = .ok s ∧
      ∀ k c, nthCallE Inorder.ownNext k s = .ok (some c) → CtxLeadsBackOwned2 n c := by
  obtain ⟨s, h1, h2⟩ := C13_inorder_context_owned n
  refine ⟨s, h1, fun k c hc => of_nthCallE (h2 k) hc ?_⟩
  intro c hc
  obtain ⟨p, hp, rfl⟩ := List.mem_map.1 hc
  obtain ⟨m, m1, m2, _, m4, m5⟩ := ctx2_leads_back n p ((inorder_perm_preorder _).mem_iff.1 hp)
  exact ⟨m, m1, m2, rfl, m4, m5⟩

/-- The fourth context of the preorder traversal of `sampleTree` has path `[0, 1]` and last ancestor `4`, and
`at_path` on that path gives the node with value `4`. -/
example : (answersE Preorder.ctxNext 4 (Preorder.CtxState.new sampleTree [])).map (·.map (·.map Ctx.brief)) =
    some [some ⟨[], [0], some 2⟩, some ⟨[0], [0, 1], some 2⟩, some ⟨[0, 0], [0, 1, 3], some 0⟩,
      some ⟨[0, 1], [0, 1, 4], some 0⟩] ∧
    (atPath sampleTree [0, 1]).map Tree.value = some 4 := by decide +kernel

end TreeIter
