/-!
# Trees and the recursive specifications of the traversal orders

This file is the specification side: nothing here refers to the iterator machines.

`Tree` follows `/repo/tree_iterators_rs/src/prelude.rs` 128-135 and `BinTree` follows
`prelude.rs` 94-103.  The orders are the textbook recursive ones.
-/

universe u v w

namespace TreeIter

/-- `prelude.rs` 128-135: `struct Tree<T> { value: T, children: Vec<Tree<T>> }`. -/
inductive Tree (α : Type u) where
  | node (value : α) (children : List (Tree α))
  deriving Repr

/-- `prelude.rs` 94-103: `struct BinaryTree<T> { value: T, left/right: Option<Box<BinaryTree<T>>> }`. -/
inductive BinTree (α : Type u) where
  | node (value : α) (left right : Option (BinTree α))
  deriving Repr

namespace Tree

variable {α : Type u} {β : Type v}

/-- The value at the root. -/
def value : Tree α → α
  | .node a _ => a

/-- The children of the root. -/
def children : Tree α → List (Tree α)
  | .node _ cs => cs

mutual
/-- Number of nodes. -/
def size : Tree α → Nat
  | .node _ cs => 1 + sizeL cs
/-- Number of nodes of a forest. -/
def sizeL : List (Tree α) → Nat
  | [] => 0
  | t :: ts => t.size + sizeL ts
end

mutual
/-- Same shape, values transformed. -/
def map (f : α → β) : Tree α → Tree β
  | .node a cs => .node (f a) (mapL f cs)
/-- Pointwise `map` on a forest. -/
def mapL (f : α → β) : List (Tree α) → List (Tree β)
  | [] => []
  | t :: ts => t.map f :: mapL f ts
end

mutual
/-- Preorder listing: the node, then its children's listings from left to right. -/
def preorder : Tree α → List α
  | .node a cs => a :: preorderL cs
/-- Preorder listing of a forest. -/
def preorderL : List (Tree α) → List α
  | [] => []
  | t :: ts => t.preorder ++ preorderL ts
end

mutual
/-- Postorder listing: the children's listings from left to right, then the node. -/
def postorder : Tree α → List α
  | .node a cs => postorderL cs ++ [a]
/-- Postorder listing of a forest. -/
def postorderL : List (Tree α) → List α
  | [] => []
  | t :: ts => t.postorder ++ postorderL ts
end

mutual
/-- Number of levels of the tree. -/
def height : Tree α → Nat
  | .node _ cs => 1 + heightL cs
/-- Number of levels of a forest. -/
def heightL : List (Tree α) → Nat
  | [] => 0
  | t :: ts => max t.height (heightL ts)
end

mutual
/-- The values at depth `d`, from left to right. -/
def atDepth : Nat → Tree α → List α
  | 0, .node a _ => [a]
  | d + 1, .node _ cs => atDepthL d cs
/-- The values at depth `d` of a forest, from left to right. -/
def atDepthL : Nat → List (Tree α) → List α
  | _, [] => []
  | d, t :: ts => t.atDepth d ++ atDepthL d ts
end

/-- Level order: depth 0, then depth 1, and so on. -/
def levelOrder (t : Tree α) : List α :=
  (List.range t.height).flatMap fun d => t.atDepth d

mutual
/-- The values of the childless nodes, from left to right. -/
def leaves : Tree α → List α
  | .node a [] => [a]
  | .node _ (c :: cs) => c.leaves ++ leavesL cs
/-- The values of the childless nodes of a forest, from left to right. -/
def leavesL : List (Tree α) → List α
  | [] => []
  | t :: ts => t.leaves ++ leavesL ts
end

mutual
/-- Tell for every node whether it is childless. -/
def markLeaves : Tree α → Tree (Bool × α)
  | .node a cs => .node (cs.isEmpty, a) (markLeavesL cs)
/-- Forest version of `markLeaves`. -/
def markLeavesL : List (Tree α) → List (Tree (Bool × α))
  | [] => []
  | t :: ts => t.markLeaves :: markLeavesL ts
end

/-- Of a listing of marked nodes keep the values of the childless ones. -/
def onlyLeaves (l : List (Bool × α)) : List α := (l.filter (·.1)).map (·.2)

/-- Induction on trees with a hypothesis for every child. -/
theorem ind {P : Tree α → Prop} (h : ∀ a cs, (∀ c ∈ cs, P c) → P (.node a cs)) (t : Tree α) : P t :=
  Tree.rec (motive_1 := P) (motive_2 := fun cs => ∀ c ∈ cs, P c)
    (fun a cs ih => h a cs ih) (by simp)
    (fun t ts iht ihts => by
      intro c hc
      rcases List.mem_cons.1 hc with rfl | hc
      · exact iht
      · exact ihts c hc) t

theorem sizeL_eq (cs : List (Tree α)) : sizeL cs = (cs.map size).sum := by
  induction cs with
  | nil => rfl
  | cons c cs ih => simp [sizeL, ih]

theorem mapL_eq (f : α → β) (cs : List (Tree α)) : mapL f cs = cs.map (map f) := by
  induction cs with
  | nil => rfl
  | cons c cs ih => simp [mapL, ih]

theorem preorderL_eq (cs : List (Tree α)) : preorderL cs = cs.flatMap preorder := by
  induction cs with
  | nil => rfl
  | cons c cs ih => simp [preorderL, ih]

theorem postorderL_eq (cs : List (Tree α)) : postorderL cs = cs.flatMap postorder := by
  induction cs with
  | nil => rfl
  | cons c cs ih => simp [postorderL, ih]

theorem atDepthL_eq (d : Nat) (cs : List (Tree α)) : atDepthL d cs = cs.flatMap (atDepth d) := by
  induction cs with
  | nil => rfl
  | cons c cs ih => simp [atDepthL, ih]

theorem leavesL_eq (cs : List (Tree α)) : leavesL cs = cs.flatMap leaves := by
  induction cs with
  | nil => rfl
  | cons c cs ih => simp [leavesL, ih]

theorem markLeavesL_eq (cs : List (Tree α)) : markLeavesL cs = cs.map markLeaves := by
  induction cs with
  | nil => rfl
  | cons c cs ih => simp [markLeavesL, ih]

theorem markLeaves_node (a : α) (cs : List (Tree α)) :
    (node a cs).markLeaves = .node (cs.isEmpty, a) (cs.map markLeaves) := by
  rw [markLeaves, markLeavesL_eq]

theorem preorder_node (a : α) (cs : List (Tree α)) :
    (node a cs).preorder = a :: cs.flatMap preorder := by
  rw [preorder, preorderL_eq]

theorem postorder_node (a : α) (cs : List (Tree α)) :
    (node a cs).postorder = cs.flatMap postorder ++ [a] := by
  rw [postorder, postorderL_eq]

theorem map_node (f : α → β) (a : α) (cs : List (Tree α)) :
    (node a cs).map f = node (f a) (cs.map (map f)) := by
  rw [map, mapL_eq]

theorem leaves_node (a : α) (cs : List (Tree α)) :
    (node a cs).leaves = if cs = [] then [a] else cs.flatMap leaves := by
  cases cs with
  | nil => rfl
  | cons c cs => simp [leaves, leavesL_eq]

theorem map_id (t : Tree α) : t.map id = t := by
  induction t using ind with
  | h a cs ih =>
    rw [map_node]
    congr 1
    conv => rhs; rw [← List.map_id cs]
    exact List.map_congr_left fun c hc => by simpa using ih c hc

theorem map_map {γ : Type w} (f : α → β) (g : β → γ) (t : Tree α) :
    (t.map f).map g = t.map (g ∘ f) := by
  induction t using ind with
  | h a cs ih =>
    simp only [map_node, List.map_map, node.injEq, Function.comp_apply, true_and]
    exact List.map_congr_left fun c hc => by simpa using ih c hc

theorem preorder_map (f : α → β) (t : Tree α) : (t.map f).preorder = t.preorder.map f := by
  induction t using ind with
  | h a cs ih =>
    simp only [map_node, preorder_node, List.map_cons, List.map_flatMap, List.flatMap_map]
    congr 1
    rw [List.flatMap_def, List.flatMap_def]
    congr 1
    exact List.map_congr_left ih

theorem postorder_map (f : α → β) (t : Tree α) : (t.map f).postorder = t.postorder.map f := by
  induction t using ind with
  | h a cs ih =>
    simp only [map_node, postorder_node, List.map_append, List.map_flatMap, List.flatMap_map,
      List.map_cons, List.map_nil]
    congr 1
    rw [List.flatMap_def, List.flatMap_def]
    congr 1
    exact List.map_congr_left ih

theorem leaves_map (f : α → β) (t : Tree α) : (t.map f).leaves = t.leaves.map f := by
  induction t using ind with
  | h a cs ih =>
    simp only [map_node, leaves_node, List.map_eq_nil_iff]
    split
    · rfl
    · rw [List.map_flatMap, List.flatMap_map, List.flatMap_def, List.flatMap_def]
      congr 1
      exact List.map_congr_left ih

theorem atDepth_map (f : α → β) (d : Nat) (t : Tree α) :
    (t.map f).atDepth d = (t.atDepth d).map f := by
  induction t using ind generalizing d with
  | h a cs ih =>
    rw [map_node]
    cases d with
    | zero => rfl
    | succ d =>
      simp only [atDepth, atDepthL_eq, List.map_flatMap, List.flatMap_map]
      rw [List.flatMap_def, List.flatMap_def]
      congr 1
      exact List.map_congr_left fun c hc => ih c hc d

theorem height_map (f : α → β) (t : Tree α) : (t.map f).height = t.height := by
  induction t using ind with
  | h a cs ih =>
    rw [map_node, height, height]
    congr 1
    induction cs with
    | nil => rfl
    | cons c cs ih' =>
      simp only [List.map_cons, heightL]
      rw [ih c (by simp), ih' fun c hc => ih c (by simp [hc])]

theorem levelOrder_map (f : α → β) (t : Tree α) : (t.map f).levelOrder = t.levelOrder.map f := by
  simp only [levelOrder, height_map, atDepth_map, List.map_flatMap]

end Tree

namespace BinTree

variable {α : Type u} {β : Type v}

/-- The value at the root. -/
def value : BinTree α → α
  | .node a _ _ => a

mutual
/-- Number of nodes. -/
def size : BinTree α → Nat
  | .node _ l r => 1 + sizeO l + sizeO r
/-- Number of nodes in a slot. -/
def sizeO : Option (BinTree α) → Nat
  | none => 0
  | some t => t.size
end

mutual
/-- Same shape, values transformed. -/
def map (f : α → β) : BinTree α → BinTree β
  | .node a l r => .node (f a) (mapO f l) (mapO f r)
/-- `map` on a slot. -/
def mapO (f : α → β) : Option (BinTree α) → Option (BinTree β)
  | none => none
  | some t => some (t.map f)
end

mutual
/-- Inorder listing: left, node, right. -/
def inorder : BinTree α → List α
  | .node a l r => inorderO l ++ a :: inorderO r
/-- Inorder listing of a slot. -/
def inorderO : Option (BinTree α) → List α
  | none => []
  | some t => t.inorder
end

mutual
/-- The general tree with the same nodes: absent slots are dropped. -/
def toTree : BinTree α → Tree α
  | .node a l r => .node a (slotTrees l ++ slotTrees r)
/-- The trees in a slot. -/
def slotTrees : Option (BinTree α) → List (Tree α)
  | none => []
  | some t => [t.toTree]
end

/-- Induction on binary trees with a hypothesis for every present child. -/
theorem ind {P : BinTree α → Prop}
    (h : ∀ a l r, (∀ c ∈ l, P c) → (∀ c ∈ r, P c) → P (.node a l r)) (t : BinTree α) : P t :=
  BinTree.rec (motive_1 := P) (motive_2 := fun o => ∀ c ∈ o, P c)
    (fun a l r ihl ihr => h a l r ihl ihr) (by simp)
    (fun t iht => by simpa using iht) t

theorem sizeO_eq (o : Option (BinTree α)) : sizeO o = (o.map size).getD 0 := by cases o <;> rfl

theorem mapO_eq (f : α → β) (o : Option (BinTree α)) : mapO f o = o.map (map f) := by
  cases o <;> rfl

theorem slotTrees_eq (o : Option (BinTree α)) : slotTrees o = (o.map toTree).toList := by
  cases o <;> rfl

theorem toTree_map (f : α → β) (t : BinTree α) : (t.map f).toTree = t.toTree.map f := by
  induction t using ind with
  | h a l r ihl ihr =>
    rw [map, toTree, toTree, Tree.map_node]
    congr 1
    rw [List.map_append]
    congr 1
    · cases l with
      | none => rfl
      | some l => simp [mapO, slotTrees, ihl]
    · cases r with
      | none => rfl
      | some l => simp [mapO, slotTrees, ihr]

theorem map_map {γ : Type w} (f : α → β) (g : β → γ) (t : BinTree α) :
    (t.map f).map g = t.map (g ∘ f) := by
  induction t using ind with
  | h a l r ihl ihr =>
    simp only [map, mapO_eq, Option.map_map, node.injEq, Function.comp_apply, true_and]
    exact ⟨Option.map_congr fun c hc => ihl c hc, Option.map_congr fun c hc => ihr c hc⟩

theorem inorder_map (f : α → β) (t : BinTree α) : (t.map f).inorder = t.inorder.map f := by
  induction t using ind with
  | h a l r ihl ihr =>
    rw [map, inorder, inorder, List.map_append, List.map_cons]
    congr 1
    · cases l with
      | none => rfl
      | some l => simp [mapO, inorderO, ihl]
    · congr 1
      cases r with
      | none => rfl
      | some l => simp [mapO, inorderO, ihr]

end BinTree

end TreeIter
