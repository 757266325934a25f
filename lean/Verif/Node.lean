import Verif.Tree

/-!
# Node interfaces, positions and the "n-th call" semantics

The crate's iterators are generic over user types implementing the `*TreeNode` /
`*BinaryTreeNode` traits.  `SplitNode` and `SplitNode2` are those traits, `TreeNode` and `BinNode` are the
traits restricted to nodes that denote finite trees.  `LeftNode` asks only that walks to the left end.
-/

universe u v w

namespace TreeIter

/-- `prelude.rs` 742-759 (`OwnedTreeNode::get_value_and_children`), 2792 ff. (borrowed) and 1700 ff.
(mutably borrowed).  The returned `IntoIterator` is modelled by the list of the nodes it yields.  The tree below a
node may be infinite. -/
class SplitNode (N : Type u) (V : outParam (Type v)) where
  split : N → V × List N

/-- A node that denotes a finite tree: `size` is any measure that decreases from a node to its children. -/
class TreeNode (N : Type u) (V : outParam (Type v)) extends SplitNode N V where
  size : N → Nat
  size_lt : ∀ {n c : N}, c ∈ (split n).2 → size c < size n

/-- `prelude.rs` 163-188 (`OwnedBinaryTreeNode::get_value_and_children_binary`): the value and the
array `[left, right]` of optional children. -/
class SplitNode2 (N : Type u) (V : outParam (Type v)) where
  split2 : N → V × Option N × Option N

/-- A binary node that denotes a finite tree. -/
class BinNode (N : Type u) (V : outParam (Type v)) extends SplitNode2 N V where
  size2 : N → Nat
  size2_left : ∀ {n c : N}, (split2 n).2.1 = some c → size2 c < size2 n
  size2_right : ∀ {n c : N}, (split2 n).2.2 = some c → size2 c < size2 n

/-- A binary node from which every walk to the left ends; the tree may be infinite otherwise.  These are the nodes the
loops of the in-order iterators get through. -/
class LeftNode (N : Type u) (V : outParam (Type v)) extends SplitNode2 N V where
  leftSize : N → Nat
  leftSize_lt : ∀ {n c : N}, (split2 n).2.1 = some c → leftSize c < leftSize n

export SplitNode (split)
export SplitNode2 (split2)

/-- The value returned by the trait method. -/
def val {N : Type u} {V : Type v} [SplitNode N V] (n : N) : V := (split n).1

/-- The children returned by the trait method. -/
def kids {N : Type u} {V : Type v} [SplitNode N V] (n : N) : List N := (split n).2

/-- The value returned by the binary trait method. -/
def val2 {N : Type u} {V : Type v} [SplitNode2 N V] (n : N) : V := (split2 n).1

/-- The two slots returned by the binary trait method, as the array the iterators walk over. -/
def slots {N : Type u} {V : Type v} [SplitNode2 N V] (n : N) : List (Option N) :=
  [(split2 n).2.1, (split2 n).2.2]

/-- `prelude.rs` 159-160 and 180-188: a binary node seen as a general node; `BinaryChildren` is
the `flat_map` of the two slots. -/
instance BinNode.toTreeNode {N : Type u} {V : Type v} [BinNode N V] : TreeNode N V where
  split n := ((split2 n).1, (slots n).filterMap id)
  size := BinNode.size2
  size_lt := by
    intro n c h
    simp only [slots, List.mem_filterMap, List.mem_cons, List.not_mem_nil, or_false, id_eq,
      exists_eq_right] at h
    rcases h with h | h
    · exact BinNode.size2_left h.symm
    · exact BinNode.size2_right h.symm

instance BinNode.toLeftNode {N : Type u} {V : Type v} [BinNode N V] : LeftNode N V where
  leftSize := BinNode.size2
  leftSize_lt := BinNode.size2_left

section Unfold
variable {N : Type u} {V : Type v}

/-- The tree of nodes reachable from `n`. -/
def unfold [TreeNode N V] (n : N) : Tree N :=
  .node n ((kids n).attach.map fun c => unfold c.1)
termination_by TreeNode.size n
decreasing_by exact TreeNode.size_lt c.2

theorem unfold_eq [TreeNode N V] (n : N) : unfold n = .node n ((kids n).map unfold) := by
  rw [unfold]
  congr 1
  exact List.attach_map_val ..

/-- The tree of values denoted by a node. -/
def treeOf [TreeNode N V] (n : N) : Tree V := (unfold n).map val

/-- The binary tree of nodes reachable from `n`. -/
def unfold2 [BinNode N V] (n : N) : BinTree N :=
  .node n
    (match _h : (split2 n).2.1 with | none => none | some c => some (unfold2 c))
    (match _h : (split2 n).2.2 with | none => none | some c => some (unfold2 c))
termination_by BinNode.size2 n
decreasing_by
  · exact BinNode.size2_left (by assumption)
  · exact BinNode.size2_right (by assumption)

theorem unfold2_eq [BinNode N V] (n : N) :
    unfold2 n = .node n ((split2 n).2.1.map unfold2) ((split2 n).2.2.map unfold2) := by
  rw [unfold2]
  congr 1
  · split <;> simp_all
  · split <;> simp_all

/-- The binary tree of values denoted by a binary node. -/
def binTreeOf [BinNode N V] (n : N) : BinTree V := (unfold2 n).map val2

/-- Induction on the finite tree denoted by a node. -/
theorem node_ind [TreeNode N V] {P : N → Prop} (h : ∀ n, (∀ c ∈ kids n, P c) → P n) (n : N) : P n := by
  induction hm : TreeNode.size n using Nat.strongRecOn generalizing n with
  | ind m ih => exact h n fun c hc => ih _ (hm ▸ TreeNode.size_lt hc) c rfl

theorem binNode_ind [BinNode N V] {P : N → Prop}
    (h : ∀ n, (∀ c, (split2 n).2.1 = some c → P c) → (∀ c, (split2 n).2.2 = some c → P c) → P n)
    (n : N) : P n := by
  induction hm : BinNode.size2 n using Nat.strongRecOn generalizing n with
  | ind m ih =>
    exact h n (fun c hc => ih _ (hm ▸ BinNode.size2_left hc) c rfl)
      (fun c hc => ih _ (hm ▸ BinNode.size2_right hc) c rfl)

/-- A binary node, seen as a general node, denotes the flattened tree. -/
theorem unfold_eq_toTree [BinNode N V] (n : N) : unfold n = (unfold2 n).toTree := by
  induction n using binNode_ind with
  | h n ihl ihr =>
    rw [unfold_eq, unfold2_eq, BinTree.toTree]
    congr 1
    simp only [kids, split, slots]
    cases hl : (split2 n).2.1 <;> cases hr : (split2 n).2.2 <;>
      simp [BinTree.slotTrees, ihl, ihr, hl, hr]

theorem treeOf_eq_toTree [BinNode N V] (n : N) : treeOf n = (binTreeOf n).toTree := by
  rw [treeOf, unfold_eq_toTree, binTreeOf, BinTree.toTree_map]
  rfl

end Unfold

/-! ## The crate's own node types -/

section Instances
variable {α : Type u}

theorem Tree.size_lt_of_mem {a : α} {cs : List (Tree α)} {c : Tree α} (h : c ∈ cs) :
    c.size < (Tree.node a cs).size := by
  rw [Tree.size]
  suffices c.size ≤ Tree.sizeL cs by omega
  induction cs with
  | nil => cases h
  | cons d ds ih =>
    rw [Tree.sizeL]
    rcases List.mem_cons.1 h with rfl | h
    · omega
    · have := ih h; omega

/-- `prelude.rs` 3479-3530: the trait implementations for `Tree<T>`. -/
instance : TreeNode (Tree α) α where
  split
    | .node a cs => (a, cs)
  size := Tree.size
  size_lt := by
    rintro ⟨a, cs⟩ c h
    exact Tree.size_lt_of_mem h

/-- `prelude.rs` 3531-3585: the trait implementations for `BinaryTree<T>`. -/
instance : BinNode (BinTree α) α where
  split2
    | .node a l r => (a, l, r)
  size2 := BinTree.size
  size2_left := by
    rintro ⟨a, l, r⟩ c h
    simp only at h
    subst h
    simp only [BinTree.size, BinTree.sizeO]
    omega
  size2_right := by
    rintro ⟨a, l, r⟩ c h
    simp only at h
    subst h
    simp only [BinTree.size, BinTree.sizeO]
    omega

/-- A `Tree` denotes itself. -/
theorem treeOf_tree (t : Tree α) : treeOf t = t := by
  induction t using Tree.ind with
  | h a cs ih =>
    rw [treeOf, unfold_eq, Tree.map_node]
    simp only [val, kids, split, List.map_map]
    congr 1
    conv => rhs; rw [← List.map_id cs]
    exact List.map_congr_left fun c hc => by simpa [treeOf] using ih c hc

/-- A `BinTree` denotes itself. -/
theorem binTreeOf_binTree (t : BinTree α) : binTreeOf t = t := by
  induction t using BinTree.ind with
  | h a l r ihl ihr =>
    rw [binTreeOf, unfold2_eq, BinTree.map]
    simp only [val2, split2]
    congr 1
    · cases l with
      | none => rfl
      | some l => simpa [BinTree.mapO, binTreeOf] using ihl l rfl
    · cases r with
      | none => rfl
      | some l => simpa [BinTree.mapO, binTreeOf] using ihr l rfl

end Instances

/-! ## Positions -/

/-- A node together with where it is: the child indexes from the root, the items from the root down to
and including the node, and the node itself. -/
structure Pos (α : Type u) where
  path : List Nat
  ancestors : List α
  item : α
  deriving Repr, DecidableEq

namespace Tree
variable {α : Type u}

mutual
/-- Decorate every node with its position, the root being at `path` below `anc`. -/
def withPos (path : List Nat) (anc : List α) : Tree α → Tree (Pos α)
  | .node a cs => .node ⟨path, anc ++ [a], a⟩ (withPosL path (anc ++ [a]) 0 cs)
/-- Decorate a forest whose first tree is child number `i` of the node at `path`. -/
def withPosL (path : List Nat) (anc : List α) (i : Nat) : List (Tree α) → List (Tree (Pos α))
  | [] => []
  | t :: ts => t.withPos (path ++ [i]) anc :: withPosL path anc (i + 1) ts
end

/-- Every node decorated with its position. -/
def located (t : Tree α) : Tree (Pos α) := t.withPos [] []

end Tree

namespace BinTree
variable {α : Type u}

mutual
/-- Decorate every node with its position; left steps are `0`, right steps are `1`. -/
def withPos (path : List Nat) (anc : List α) : BinTree α → BinTree (Pos α)
  | .node a l r => .node ⟨path, anc ++ [a], a⟩
      (withPosO (path ++ [0]) (anc ++ [a]) l) (withPosO (path ++ [1]) (anc ++ [a]) r)
/-- Decorate a slot. -/
def withPosO (path : List Nat) (anc : List α) : Option (BinTree α) → Option (BinTree (Pos α))
  | none => none
  | some t => some (t.withPos path anc)
end

/-- Every node decorated with its position. -/
def located (t : BinTree α) : BinTree (Pos α) := t.withPos [] []

end BinTree

/-! ## Contexts -/

/-- `tree_context.rs` 8-20: what `attach_context` hands out.  `children` is `None` where the
owned post-order and in-order iterators have already consumed them. -/
structure Ctx (V : Type v) (C : Type w) where
  path : List Nat
  ancestors : List V
  children : Option C
  deriving Repr, DecidableEq

/-- `tree_context.rs` 35-37: `self.ancestors.len() - 1`. -/
def Ctx.depth {V : Type v} {C : Type w} (c : Ctx V C) : Nat := c.ancestors.length - 1

/-- The context a user expects at a position of a general node. -/
def Pos.ctx {N : Type u} {V : Type v} [SplitNode N V] (p : Pos N) : Ctx V (List N) :=
  ⟨p.path, p.ancestors.map val, some (kids p.item)⟩

/-- The context a user expects at a position of a binary node: `children` are the two slots. -/
def Pos.ctx2 {N : Type u} {V : Type v} [SplitNode2 N V] (p : Pos N) : Ctx V (Option N × Option N) :=
  ⟨p.path, p.ancestors.map val2, some (split2 p.item).2⟩

/-- Forget the children. -/
def Ctx.noChildren {V : Type v} {C : Type w} (c : Ctx V C) : Ctx V C := { c with children := none }

/-- Every node reachable from `n` has at most `2 ^ 64` children (a Rust collection cannot hold more
than `isize::MAX` bytes; the bound matters only because path segments are `usize`). -/
def ArityOk {N : Type u} {V : Type v} [TreeNode N V] (n : N) : Prop :=
  ∀ m ∈ (unfold n).preorder, (kids m).length ≤ 2 ^ 64

/-- Every node reachable from `n` has fewer than `2 ^ 64` children, i.e. their number fits a `usize`. -/
def ArityLt {N : Type u} {V : Type v} [TreeNode N V] (n : N) : Prop :=
  ∀ m ∈ (unfold n).preorder, (kids m).length < 2 ^ 64

/-! ## Panics -/

/-- The ways the modelled code can panic. -/
inductive Panic where
  /-- `.expect(..)` or `.unwrap()` on `None`. -/
  | unwrapNone
  /-- slice or deque index out of range -/
  | indexOutOfRange
  /-- `panic!` in `attach_context`/`attach_ancestors` -/
  | attachMidTraversal
  /-- `unreachable!()` -/
  | unreachable
  /-- arithmetic overflow in a build with overflow checks -/
  | overflow
  /-- reading a `MaybeUninit` that was moved out (undefined behaviour rather than a panic) -/
  | uninit
  /-- the model's loop bound was exhausted (the Rust loop would still be running) -/
  | outOfFuel
  deriving Repr, DecidableEq

/-! ## The n-th call of an iterator -/

section Calls
variable {S : Type u} {O : Type v}

/-- State after `n` calls. -/
def stateAfter (next : S → Option O × S) : Nat → S → S
  | 0, s => s
  | n + 1, s => stateAfter next n (next s).2

/-- What the call number `n` (counting from 0) returns. -/
def nthCall (next : S → Option O × S) (n : Nat) (s : S) : Option O :=
  (next (stateAfter next n s)).1

/-- Calls that may panic: state after `n` calls. -/
def stateAfterE (next : S → Except Panic (Option O × S)) : Nat → S → Except Panic S
  | 0, s => .ok s
  | n + 1, s =>
    match next s with
    | .error e => .error e
    | .ok (_, s') => stateAfterE next n s'

/-- Calls that may panic: what call number `n` (counting from 0) returns. -/
def nthCallE (next : S → Except Panic (Option O × S)) (n : Nat) (s : S) : Except Panic (Option O) :=
  match stateAfterE next n s with
  | .error e => .error e
  | .ok s' =>
    match next s' with
    | .error e => .error e
    | .ok (o, _) => .ok o

/-- `StreamingIterator::next`: `advance` and then `get`. -/
def streamNext (advance : S → S) (get : S → Option O) (s : S) : Option O × S :=
  let s' := advance s
  (get s', s')

/-- `StreamingIterator::next` for an `advance` that may panic. -/
def streamNextE (advance : S → Except Panic S) (get : S → Option O) (s : S) :
    Except Panic (Option O × S) :=
  match advance s with
  | .error e => .error e
  | .ok s' => .ok (get s', s')

/-- If `rem` describes the outputs still to come, in every state satisfying `Inv`, then the n-th
call returns the n-th of them. -/
theorem stateAfter_spec {next : S → Option O × S} (Inv : S → Prop) (rem : S → List O)
    (hnext : ∀ s, Inv s → (next s).1 = (rem s).head? ∧ rem (next s).2 = (rem s).tail ∧ Inv (next s).2)
    {s : S} (hs : Inv s) (n : Nat) :
    Inv (stateAfter next n s) ∧ rem (stateAfter next n s) = (rem s).drop n := by
  induction n generalizing s with
  | zero => exact ⟨hs, by simp [stateAfter]⟩
  | succ n ih =>
    obtain ⟨_, h2, h3⟩ := hnext s hs
    obtain ⟨i1, i2⟩ := ih h3
    refine ⟨i1, ?_⟩
    rw [stateAfter, i2, h2, List.drop_tail]

theorem nthCall_spec {next : S → Option O × S} (Inv : S → Prop) (rem : S → List O)
    (hnext : ∀ s, Inv s → (next s).1 = (rem s).head? ∧ rem (next s).2 = (rem s).tail ∧ Inv (next s).2)
    {s : S} (hs : Inv s) (n : Nat) : nthCall next n s = (rem s)[n]? := by
  obtain ⟨h1, h2⟩ := stateAfter_spec Inv rem hnext hs n
  rw [nthCall, (hnext _ h1).1, h2, List.head?_drop]

theorem stateAfterE_spec {next : S → Except Panic (Option O × S)} (Inv : S → Prop)
    (rem : S → List O)
    (hnext : ∀ s, Inv s → ∃ s', next s = .ok ((rem s).head?, s') ∧ rem s' = (rem s).tail ∧ Inv s')
    {s : S} (hs : Inv s) (n : Nat) :
    ∃ s', stateAfterE next n s = .ok s' ∧ Inv s' ∧ rem s' = (rem s).drop n := by
  induction n generalizing s with
  | zero => exact ⟨s, rfl, hs, by simp⟩
  | succ n ih =>
    obtain ⟨s', h1, h2, h3⟩ := hnext s hs
    obtain ⟨s'', i1, i2, i3⟩ := ih h3
    refine ⟨s'', ?_, i2, ?_⟩
    · rw [stateAfterE, h1]; exact i1
    · rw [i3, h2, List.drop_tail]

theorem nthCallE_spec {next : S → Except Panic (Option O × S)} (Inv : S → Prop)
    (rem : S → List O)
    (hnext : ∀ s, Inv s → ∃ s', next s = .ok ((rem s).head?, s') ∧ rem s' = (rem s).tail ∧ Inv s')
    {s : S} (hs : Inv s) (n : Nat) : nthCallE next n s = .ok (rem s)[n]? := by
  obtain ⟨s', h1, h2, h3⟩ := stateAfterE_spec Inv rem hnext hs n
  obtain ⟨s'', i1, _, _⟩ := hnext s' h2
  rw [nthCallE, h1]
  simp only [i1, h3, List.head?_drop]

end Calls

end TreeIter
