import Verif.Lemmas.PathBuf
import Verif.Props.Samples

/-! # The slice that `map_path` hands to its closure (C59)

C59: when the closure of `map_path` is called, the memory of the slice it is given has not been freed.  This is false. -/

universe u v

namespace TreeIter

/-- How `Vec<usize>` grows: four elements first, then twice as many. -/
def stdGrow (c : Nat) : Nat := max 4 (2 * c)

/-- A list of answers of the closure's slices settles which calls dangle. -/
theorem dangling_iff {calls : Nat → Except Panic (Option Slice)} {L : List Slice} (h : ∀ k, calls k = .ok L[k]?) :
    (∃ k x, calls k = .ok (some x) ∧ x.dangles = true) ↔ true ∈ L.map Slice.dangles := by
  constructor
  · rintro ⟨k, x, h1, h2⟩
    rw [h, Except.ok.injEq] at h1
    exact List.mem_map.2 ⟨x, List.mem_of_getElem? h1, h2⟩
  · intro h1
    obtain ⟨x, hx, h2⟩ := List.mem_map.1 h1
    obtain ⟨k, hk⟩ := List.getElem?_of_mem hx
    exact ⟨k, x, by rw [h, hk], h2⟩

theorem exists_mem_map {α : Type u} {β : Type v} {f : α → β} {l : List α} {p : β → Prop} :
    (∃ y, (∃ x, x ∈ l ∧ f x = y) ∧ p y) ↔ ∃ x, x ∈ l ∧ p (f x) :=
  ⟨fun ⟨_, ⟨x, hx, e⟩, hp⟩ => ⟨x, hx, e ▸ hp⟩, fun ⟨x, hx, hp⟩ => ⟨f x, ⟨x, hx, rfl⟩, hp⟩⟩

/-! ## One tree -/

section General
variable {N : Type u} {V : Type v} [TreeNode N V]

/-- C59, exactly: the calls of the closure on a tree, one for each node in preorder, and which of them get a slice of freed
memory.  The first call gets the empty slice; every other call gets the path of the node before, which is gone if the
vector was full with it. -/
theorem C59_map_path (grow : Nat → Nat) (n : N) :
    ∃ L : List Slice, (∀ k, Api.mapPathSlice grow n k = .ok L[k]?) ∧
      L.map Slice.dangles = false :: moves grow 0 (treeOf n).depths := by
  have h := Track.atDepths_new (V := V) n []
  have e : (treeOf n).depths = 0 :: Tree.depthsFromL 1 ((kids n).map treeOf) := by
    rw [Tree.depths_eq, Track.treeOf_eq, Tree.depthsFrom]
  rw [List.length_nil, ← Tree.depths_eq, e] at h
  rw [e]
  exact Spied.mapPath_tree grow Track.walks h rfl rfl

/-- C59 fails on a tree exactly if a node other than the last in preorder lies as deep as the first allocation of a vector
has room for. -/
theorem C59_map_path_iff (grow : Nat → Nat) (hg : 0 < grow 0) (n : N) :
    (∃ k x, Api.mapPathSlice grow n k = .ok (some x) ∧ x.dangles = true) ↔
      ∃ d ∈ (treeOf n).depths.dropLast, grow 0 ≤ d := by
  obtain ⟨L, h1, h2⟩ := C59_map_path grow n
  rw [dangling_iff h1, h2]
  have e : (treeOf n).depths = 0 :: Tree.depthsFromL 1 ((kids n).map treeOf) := by
    rw [Tree.depths_eq, Track.treeOf_eq, Tree.depthsFrom]
  rw [e]
  cases Tree.depthsFromL 1 ((kids n).map treeOf) with
  | nil => simp [moves]
  | cons d ds =>
    rw [moves, List.dropLast_cons_of_ne_nil (by simp)]
    simp [moves_mem _ hg, show grow 0 ≠ 0 by omega]

example := C59_map_path_iff stdGrow (by decide) sampleTree

/-- C59 where it holds: on a tree none of whose nodes lies as deep as the first allocation has room for, no call of the
closure gets a slice of freed memory. -/
theorem C59_map_path_partial (grow : Nat → Nat) (n : N) (hd : ∀ d ∈ (treeOf n).depths, d < grow 0) (k : Nat) :
    ∃ o, Api.mapPathSlice grow n k = .ok o ∧ ∀ x, o = some x → x.dangles = false := by
  obtain ⟨L, h1, -⟩ := C59_map_path grow n
  refine ⟨L[k]?, h1 k, ?_⟩
  intro x hx
  cases hb : x.dangles with
  | false => rfl
  | true =>
    have e : (treeOf n).depths = 0 :: Tree.depthsFromL 1 ((kids n).map treeOf) := by
      rw [Tree.depths_eq, Track.treeOf_eq, Tree.depthsFrom]
    have hg : 0 < grow 0 := hd 0 (by simp [e])
    obtain ⟨d, hm, hle⟩ := (C59_map_path_iff grow hg n).1 ⟨k, x, by rw [h1, hx], hb⟩
    have := hd d ((List.dropLast_sublist _).subset hm)
    omega

example := C59_map_path_partial stdGrow sampleTree (by decide +kernel) 3

end General

section Binary
variable {N : Type u} {V : Type v} [BinNode N V]

theorem binTree_depths (n : N) : ∃ ds, (binTreeOf n).depths = 0 :: ds ∧ (binTreeOf n).toTree.depthsFrom 1 = 1 :: ds.map (· + 1) := by
  rw [BinTree.depths_eq, Track.binTreeOf_eq, BinTree.toTree, Tree.depthsFrom, Tree.depthsFrom, Tree.depthsFromL_succ _ (0 + 1)]
  exact ⟨_, rfl, rfl⟩

/-- C59 for binary trees, exactly. -/
theorem C59_map_path_binary (grow : Nat → Nat) (n : N) :
    ∃ L : List Slice, (∀ k, Api.binMapPathSlice grow n k = .ok L[k]?) ∧
      L.map Slice.dangles = false :: moves grow 0 (binTreeOf n).depths := by
  have h := Track.binAtDepths_new (V := V) n []
  obtain ⟨ds, e, -⟩ := binTree_depths (V := V) n
  rw [List.length_nil, ← BinTree.depths_eq, e] at h
  rw [e]
  exact Spied.mapPath_tree grow Track.binWalks h rfl rfl

/-- C59 fails on a binary tree exactly if a node other than the last in preorder lies as deep as the first allocation of a
vector has room for. -/
theorem C59_map_path_binary_iff (grow : Nat → Nat) (hg : 0 < grow 0) (n : N) :
    (∃ k x, Api.binMapPathSlice grow n k = .ok (some x) ∧ x.dangles = true) ↔
      ∃ d ∈ (binTreeOf n).depths.dropLast, grow 0 ≤ d := by
  obtain ⟨L, h1, h2⟩ := C59_map_path_binary grow n
  rw [dangling_iff h1, h2]
  obtain ⟨ds, e, -⟩ := binTree_depths (V := V) n
  rw [e]
  cases ds with
  | nil => simp [moves]
  | cons d ds =>
    rw [moves, List.dropLast_cons_of_ne_nil (by simp)]
    simp [moves_mem _ hg, show grow 0 ≠ 0 by omega]

end Binary

example : (treeOf sampleTree).depths = [0, 1, 2, 2, 1, 2] := by decide +kernel

example : ∀ d ∈ (treeOf sampleTree).depths, d < stdGrow 0 := by decide +kernel

/-- If vectors grew one element at a time, the third and the fourth of the six calls on the sample tree would get slices of
freed memory. -/
example : (List.range 7).map (fun k => (Api.mapPathSlice (· + 1) sampleTree k).toOption.join.map Slice.dangles) =
    [some false, some false, some true, some true, some false, some false, none] := by decide +kernel

example : ((binTreeOf sampleBin).depths, moves (· + 1) 0 (binTreeOf sampleBin).depths) =
    ([0, 1, 2, 1, 2], [false, true, true, false]) := by decide +kernel

/-! ## The property is false, however vectors grow -/

/-- A tree that is a chain of `m + 1` nodes. -/
def stick : Nat → Tree Nat
  | 0 => .node 0 []
  | m + 1 => .node m [stick m]

/-- A binary tree that is a chain of `m + 1` nodes, going left. -/
def binStick : Nat → BinTree Nat
  | 0 => .node 0 none none
  | m + 1 => .node m (some (binStick m)) none

theorem depthsFrom_stick (m d : Nat) : (stick m).depthsFrom d = List.range' d (m + 1) := by
  induction m generalizing d with
  | zero => rfl
  | succ m ih =>
    rw [stick, Tree.depthsFrom, Tree.depthsFromL, Tree.depthsFromL, ih, List.append_nil, List.range'_succ (s := d)]

theorem toTree_binStick (m : Nat) : (binStick m).toTree = stick m := by
  induction m with
  | zero => rfl
  | succ m ih => simp [binStick, stick, BinTree.toTree, BinTree.slotTrees, ih]

theorem mem_dropLast_range' (m : Nat) : m ∈ (List.range' 0 (m + 1 + 1)).dropLast := by
  rw [← List.range_eq_range', List.range_succ, List.dropLast_concat]
  simp

/-- C59 is false: whatever the growth of vectors, there is a tree on which the closure of `map_path` gets a slice of freed
memory. -/
theorem C59_map_path_false (grow : Nat → Nat) (hg : 0 < grow 0) :
    ∃ (t : Tree Nat) (k : Nat) (x : Slice), Api.mapPathSlice grow t k = .ok (some x) ∧ x.dangles = true := by
  refine ⟨stick (grow 0 + 1), (C59_map_path_iff grow hg _).2 ⟨grow 0, ?_, Nat.le_refl _⟩⟩
  rw [treeOf_tree, Tree.depths_eq, depthsFrom_stick]
  exact mem_dropLast_range' _

/-- C59 is false of binary trees. -/
theorem C59_map_path_binary_false (grow : Nat → Nat) (hg : 0 < grow 0) :
    ∃ (t : BinTree Nat) (k : Nat) (x : Slice), Api.binMapPathSlice grow t k = .ok (some x) ∧ x.dangles = true := by
  refine ⟨binStick (grow 0 + 1), (C59_map_path_binary_iff grow hg _).2 ⟨grow 0, ?_, Nat.le_refl _⟩⟩
  rw [binTreeOf_binTree, BinTree.depths_eq, toTree_binStick, depthsFrom_stick]
  exact mem_dropLast_range' _

/-- With the vectors of the standard library, six nodes in a chain are enough: the last call gets the path of the node
before in the first allocation, when the path has moved to the second. -/
example : (Api.mapPathSlice stdGrow (stick 5) 5).toOption = some (some ⟨1, 4, 2⟩) ∧ (Slice.mk 1 4 2).dangles = true := by
  decide +kernel

/-! ## Collections -/

theorem collMoves_mem {grow : Nat → Nat} (hg : 0 < grow 0) (dss : List (List Nat)) :
    true ∈ collMoves grow dss ↔ 2 ≤ dss.length ∨ ∃ ds ∈ dss, ∃ d ∈ ds.dropLast, grow 0 ≤ d + 1 := by
  have key : ∀ ds : List Nat, true ∈ moves grow (grow 0) (ds.map (· + 1)) ↔ ∃ d ∈ ds.dropLast, grow 0 ≤ d + 1 := by
    intro ds
    rw [moves_mem _ hg, ← List.map_dropLast]
    simp only [List.mem_map, exists_mem_map]
  cases dss with
  | nil => simp [collMoves]
  | cons ds rest =>
    cases rest with
    | nil => simp [collMoves, key]
    | cons es rest => simp [collMoves]

section Collections
variable {N : Type u} {V : Type v}

/-- C59 for `map_path` on a collection of trees, exactly. -/
theorem C59_collection_map_path [TreeNode N V] (grow : Nat → Nat) (ns : List N) :
    ∃ L : List Slice, (∀ k, Api.collMapPathSlice grow ns k = .ok L[k]?) ∧
      L.map Slice.dangles = collMoves grow (ns.map fun n => (treeOf n).depths) := by
  cases ns with
  | nil => exact Spied.collMapPath_empty grow _ _
  | cons n ns =>
    have e : ∀ n : N, (treeOf n).depths.map (· + 1) = 1 :: (Tree.depthsFromL 1 ((kids n).map treeOf)).map (· + 1) := by
      intro n
      rw [Tree.depths_eq, Track.treeOf_eq, Tree.depthsFrom]
      rfl
    have h := Spied.collMapPath_trees grow (start := fun (n : N) p => Track.State.new n p)
      (dep := fun n => (Tree.depthsFromL 1 ((kids n).map treeOf)).map (· + 1)) Track.walks
      ⟨fun m i => by
        have := Track.atDepths_new (V := V) m [i]
        rwa [show [i].length = 0 + 1 from rfl, Tree.depthsFrom_succ, ← Tree.depths_eq, e] at this, fun _ _ => rfl⟩ n ns
      (by simp)
    refine h.eq ?_
    simp only [List.map_cons, collMoves, e, List.flatMap_map]

/-- C59 for `map_path` on a collection of binary trees, exactly. -/
theorem C59_collection_map_path_binary [BinNode N V] (grow : Nat → Nat) (ns : List N) :
    ∃ L : List Slice, (∀ k, Api.binCollMapPathSlice grow ns k = .ok L[k]?) ∧
      L.map Slice.dangles = collMoves grow (ns.map fun n => (binTreeOf n).depths) := by
  cases ns with
  | nil => exact Spied.collMapPath_empty grow _ _
  | cons n ns =>
    have e : ∀ n : N, (binTreeOf n).depths.map (· + 1) = 1 :: ((binTreeOf n).depths.tail).map (· + 1) := by
      intro n
      obtain ⟨ds, e, -⟩ := binTree_depths (V := V) n
      rw [e]
      rfl
    have h := Spied.collMapPath_trees grow (start := fun (n : N) p => Track.State.new n p)
      (dep := fun n => ((binTreeOf n).depths.tail).map (· + 1)) Track.binWalks
      ⟨fun m i => by
        have := Track.binAtDepths_new (V := V) m [i]
        rwa [show [i].length = 0 + 1 from rfl, Tree.depthsFrom_succ, ← BinTree.depths_eq, e] at this, fun _ _ => rfl⟩ n ns
      (fun n d hd => by obtain ⟨e, -, rfl⟩ := List.mem_map.1 hd; omega)
    refine h.eq ?_
    simp only [List.map_cons, collMoves, e, List.flatMap_map]

/-- C59 fails on a collection exactly if it has two trees or more, or a tree with a node, other than its last, deep enough. -/
theorem C59_collection_map_path_iff [TreeNode N V] (grow : Nat → Nat) (hg : 0 < grow 0) (ns : List N) :
    (∃ k x, Api.collMapPathSlice grow ns k = .ok (some x) ∧ x.dangles = true) ↔
      2 ≤ ns.length ∨ ∃ n ∈ ns, ∃ d ∈ (treeOf n).depths.dropLast, grow 0 ≤ d + 1 := by
  obtain ⟨L, h1, h2⟩ := C59_collection_map_path grow ns
  rw [dangling_iff h1, h2, collMoves_mem hg]
  simp only [List.length_map, List.mem_map, exists_mem_map]

example := C59_collection_map_path_iff stdGrow (by decide) [sampleTree, sampleTree]

/-- C59 fails on a collection of binary trees exactly if it has two trees or more, or a tree with a node, other than its
last, deep enough. -/
theorem C59_collection_map_path_binary_iff [BinNode N V] (grow : Nat → Nat) (hg : 0 < grow 0) (ns : List N) :
    (∃ k x, Api.binCollMapPathSlice grow ns k = .ok (some x) ∧ x.dangles = true) ↔
      2 ≤ ns.length ∨ ∃ n ∈ ns, ∃ d ∈ (binTreeOf n).depths.dropLast, grow 0 ≤ d + 1 := by
  obtain ⟨L, h1, h2⟩ := C59_collection_map_path_binary grow ns
  rw [dangling_iff h1, h2, collMoves_mem hg]
  simp only [List.length_map, List.mem_map, exists_mem_map]

example := C59_collection_map_path_binary_iff stdGrow (by decide) [sampleBin, sampleBin]

/-- C59 is false of every collection of at least two trees. -/
theorem C59_collection_map_path_false [TreeNode N V] (grow : Nat → Nat) (hg : 0 < grow 0) (n m : N) (ns : List N) :
    ∃ k x, Api.collMapPathSlice grow (n :: m :: ns) k = .ok (some x) ∧ x.dangles = true :=
  (C59_collection_map_path_iff grow hg _).2 (.inl (by simp))

end Collections

/-- Two trees of one node each: the second call gets the path of the first tree's root, which was freed with its iterator. -/
example : (List.range 3).map (fun k => (Api.collMapPathSlice stdGrow [Tree.node 7 [], Tree.node 8 []] k).toOption) =
    [some (some ⟨0, 0, 1⟩), some (some ⟨1, 1, 2⟩), some none] := by decide +kernel

example : (List.range 7).map (fun k => (Api.binCollMapPathSlice stdGrow [sampleBin, .node 8 none none] k).toOption.join.map
    Slice.dangles) = [some false, some false, some false, some false, some false, some true, none] := by decide +kernel

end TreeIter
