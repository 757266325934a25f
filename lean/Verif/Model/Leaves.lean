import Verif.Model.Inorder

/-!
# Model of the depth-first `leaves()` iterators

Source: `/repo/tree_iterators_rs/src/leaves_iterators/{depth_first,ancestors_depth_first}/mod.rs` and the
`leaves` methods of the depth-first iterators.  Stacks have their top at the head.
-/

universe u v w

namespace TreeIter

/-- Number of nodes reachable from the nodes waiting in a stack of iterators. -/
def stackNodes {N : Type u} {V : Type v} [TreeNode N V] (st : List (List N)) : Nat :=
  (st.map fun ns => (ns.map fun n => (unfold n).size).sum).sum

theorem size_unfold {N : Type u} {V : Type v} [TreeNode N V] (n : N) :
    (unfold n).size = 1 + ((kids n).map fun c => (unfold c).size).sum := by
  rw [unfold_eq, Tree.size, Tree.sizeL_eq, List.map_map]
  rfl

namespace Leaves

variable {N : Type u} {V : Type v}

/-! ## Plain -/

/-- `depth_first/owned.rs` 6-14: fields of `OwnedLeavesIterator`. -/
structure State (N : Type u) (V : Type v) where
  root : Option N
  bottom : List (List N)
  top : List (List N)
  items : List V

/-- `dfs_preorder_iterators/owned.rs` 159-166. -/
def ofPreorder (s : Preorder.State N) : State N V := ⟨s.root, s.stack, [], []⟩

/-- `dfs_postorder_iterators/owned.rs` 66-73. -/
def ofPostorder (s : Postorder.State N V) : State N V := ⟨s.root, s.stack, [], []⟩

/-- `dfs_inorder_iterators/owned.rs` 66-90; `opt.into_iter()` is the list with at most one item. -/
def ofInorder (s : Inorder.State N V) : Except Panic (State N V) :=
  if s.moved then .ok ⟨none, s.right.map Option.toList, [], s.items⟩
  else
    match s.right with
    | r :: _ => .ok ⟨r, [], [], s.items⟩
    | [] => .error .unwrapNone

/-- `depth_first/mod.rs` 19-44: the loop; `just` is `just_added`. -/
def loop [TreeNode N V] :
    (bottom top : List (List N)) → (items : List V) → (just : Bool) → Option V × State N V
  | bottom, (n :: ns) :: top, items, _ => loop bottom (kids n :: ns :: top) (val n :: items) true
  | bottom, [] :: top, items, true => (items.head?, ⟨none, bottom, top, items.tail⟩)
  | bottom, [] :: top, items, false => loop bottom top items.tail false
  | (n :: ns) :: bottom, [], items, just => loop (ns :: bottom) [kids n] (val n :: items) just
  | [] :: bottom, [], items, just => loop bottom [] items just
  | [], [], items, _ => (none, ⟨none, [], [], items⟩)
termination_by bottom top => 2 * (stackNodes bottom + stackNodes top) + bottom.length + top.length
decreasing_by
  all_goals
    try have hs := size_unfold n
    simp only [stackNodes, List.map_cons, List.sum_cons, List.length_cons, List.map_nil, List.sum_nil,
      List.length_nil] at *
    omega

/-- `depth_first/mod.rs` 5-47: `dfs_postorder_leaves_next!`. -/
def next [TreeNode N V] (s : State N V) : Option V × State N V :=
  match s.root with
  | some root => loop s.bottom (kids root :: s.top) (val root :: s.items) true
  | none => loop s.bottom s.top s.items false

/-! ## With ancestors -/

/-- `ancestors_depth_first/owned.rs` 7-16: fields of `OwnedDFSLeavesPostorderIteratorWithAncestors`. -/
structure AncState (N : Type u) (V : Type v) where
  root : Option N
  items : List V
  old : List (List N)
  new : List (List N)

/-- `dfs_preorder_iterators/owned.rs` 313-325. -/
def ofPreorderAnc (s : Preorder.AncState N V) : AncState N V := ⟨s.root, s.items, s.stack, []⟩

/-- `dfs_postorder_iterators/owned.rs` 211-223. -/
def ofPostorderAnc (s : Postorder.AncState N V) : AncState N V := ⟨s.root, s.items, s.stack, []⟩

/-- `dfs_inorder_iterators/owned.rs` 145-169. -/
def ofInorderAnc (s : Inorder.AncState N V) : AncState N V :=
  match s.right with
  | [r] => ⟨r, s.items, [], []⟩
  | right => ⟨none, s.items, right.map Option.toList, []⟩

theorem stackNodes_tail_le [TreeNode N V] (st : List (List N)) : stackNodes st.tail ≤ stackNodes st := by
  cases st with
  | nil => exact Nat.le_refl _
  | cons a st => simp [stackNodes]

/-- `ancestors_depth_first/mod.rs` 18-53: the loop; `pushed` is `pushed_another_iterator`. -/
def ancLoop [TreeNode N V] (old new : List (List N)) (items : List V) (pushed : Bool) : AncState N V :=
  match new with
  | (n :: ns) :: new => ancLoop old (kids n :: ns :: new) (val n :: items) true
  | new =>
    if pushed then ⟨none, items, old, new.tail⟩
    else
      match old with
      | (n :: ns) :: old => ancLoop (ns :: old) (kids n :: new.tail) (val n :: items) true
      | old =>
        match _hi : items.tail with
        | [] => ⟨none, [], old.tail, new.tail⟩
        | i :: is => ancLoop old.tail new.tail (i :: is) false
termination_by 3 * (stackNodes old + stackNodes new) + old.length + new.length + items.length
decreasing_by
  · have hs := size_unfold n
    simp only [stackNodes, List.map_cons, List.sum_cons, List.length_cons] at *
    omega
  · have hs := size_unfold n
    have h1 := stackNodes_tail_le new
    have h2 : new.tail.length ≤ new.length := by simp
    simp only [stackNodes, List.map_cons, List.sum_cons, List.length_cons] at *
    omega
  · have h1 := stackNodes_tail_le new
    have h2 : new.tail.length ≤ new.length := by simp
    have h3 := stackNodes_tail_le old
    have h4 : old.tail.length ≤ old.length := by simp
    have h5 : items.length = is.length + 2 := by
      have := congrArg List.length _hi
      simp only [List.length_tail, List.length_cons] at this
      omega
    simp only [List.length_cons]
    omega

/-- `ancestors_depth_first/mod.rs` 5-54: `streaming_leaves!`, `advance`. -/
def ancAdvance [TreeNode N V] (s : AncState N V) : AncState N V :=
  match s.root with
  | some root => ancLoop s.old (kids root :: s.new) (val root :: s.items) true
  | none => ancLoop s.old s.new s.items.tail false

/-- `ancestors_depth_first/mod.rs` 56-62: `get`. -/
def ancGet (s : AncState N V) : Option (List V) :=
  if s.items.isEmpty then none else some s.items.reverse

/-- `StreamingIterator::next`. -/
def ancNext [TreeNode N V] : AncState N V → Option (List V) × AncState N V :=
  streamNext ancAdvance ancGet

end Leaves

end TreeIter
