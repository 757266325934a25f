import Verif.Model.Postorder

/-!
# Model of `dfs_inorder_iterators`

Source: `/repo/tree_iterators_rs/src/dfs_inorder_iterators/{mod,owned,borrow,mut_borrow}.rs`.
Stacks have their top at the head; see `Verif.Model.Preorder`.
-/

universe u v w

namespace TreeIter

namespace Inorder

variable {N : Type u} {V : Type v}

/-! ## The plain iterator -/

/-- `owned.rs` 41-48: fields of `OwnedDFSInorderIterator`. -/
structure State (N : Type u) (V : Type v) where
  right : List (Option N)
  items : List V
  moved : Bool

/-- `owned.rs` 54-63. -/
def new (root : N) : State N V := ⟨[some root], [], false⟩

/-- Termination measure of the descending loops. -/
def curSize [LeftNode N V] : Option N → Nat
  | none => 0
  | some n => LeftNode.leftSize n + 1

theorem curSize_left_lt [LeftNode N V] (n : N) : curSize (split2 n).2.1 < curSize (some n) := by
  cases h : (split2 n).2.1 with
  | none => simp [curSize]
  | some c =>
    have := LeftNode.leftSize_lt h
    simp only [curSize]
    omega

/-- Result of the first loop of `next`. -/
inductive Found (N : Type u) where
  /-- `return self.item_stack.pop()` -/
  | ret
  /-- the loop ended with this `current` -/
  | cur (n : Option N)

/-- `mod.rs` 10-22: `while current.is_none()`, entered with `current` empty. -/
def find (items : List V) : List (Option N) → Found N × List (Option N)
  | [] => if items.length = 0 then (.ret, []) else (.cur none, [])
  | popped :: rest =>
    if (popped :: rest).length = items.length then (.ret, popped :: rest)
    else if rest.isEmpty then (.cur popped, rest)
    else
      match popped with
      | some n => (.cur (some n), rest)
      | none => find items rest

/-- `mod.rs` 24-30: descend along the left slots. -/
def descend [LeftNode N V] : Option N → List (Option N) → List V → List (Option N) × List V
  | none, right, items => (right, items)
  | some n, right, items => descend (split2 n).2.1 ((split2 n).2.2 :: right) (val2 n :: items)
termination_by cur => curSize cur
decreasing_by exact curSize_left_lt n

/-- `mod.rs` 5-35: `dfs_inorder_next!`. -/
def next [LeftNode N V] (s : State N V) : Option V × State N V :=
  match find s.items s.right with
  | (.ret, right) => (s.items.head?, ⟨right, s.items.tail, true⟩)
  | (.cur cur, right) =>
    let (right, items) := descend cur right s.items
    (items.head?, ⟨right, items.tail, true⟩)

/-- `mod.rs` 117-121. -/
inductive Status where
  | wentLeft
  | returnedSelf
  | wentRight
  deriving Repr, DecidableEq

/-! ## `attach_ancestors` -/

/-- `owned.rs` 120-127: fields of `OwnedDFSInorderIteratorWithAncestors`. -/
structure AncState (N : Type u) (V : Type v) where
  right : List (Option N)
  items : List V
  status : List Status

/-- `owned.rs` 133-142. -/
def AncState.new (root : N) : AncState N V := ⟨[some root], [], []⟩

/-- `mod.rs` 41-64: returns either the final state (`return`) or the node found. -/
def ancFind : List Status → List V → List (Option N) → AncState N V ⊕ (N × AncState N V)
  | .wentRight :: ss, items, right => ancFind ss items.tail right
  | .wentLeft :: ss, items, right => .inl ⟨right, items, .returnedSelf :: ss⟩
  | .returnedSelf :: ss, _, [] => .inl ⟨[], [], .wentRight :: ss⟩
  | .returnedSelf :: ss, items, some n :: right => .inr (n, ⟨right, items, .wentRight :: ss⟩)
  | .returnedSelf :: ss, items, none :: right => ancFind (.wentRight :: ss) items right
  | [], _, [] => .inl ⟨[], [], []⟩
  | [], items, some n :: right => .inr (n, ⟨right, items, []⟩)
  | [], items, none :: right => ancFind [] items right
termination_by st _ right => st.length + right.length

/-- `mod.rs` 66-73. -/
def ancDescend [LeftNode N V] : Option N → AncState N V → AncState N V
  | none, s => s
  | some n, s => ancDescend (split2 n).2.1
      ⟨(split2 n).2.2 :: s.right, val2 n :: s.items, .wentLeft :: s.status⟩
termination_by cur => curSize cur
decreasing_by exact curSize_left_lt n

/-- `mod.rs` 37-77: `dfs_inorder_ancestors_streaming_iterator_impl!`, `advance`. -/
def ancAdvance [LeftNode N V] (s : AncState N V) : Except Panic (AncState N V) :=
  match ancFind s.status s.items s.right with
  | .inl s' => .ok s'
  | .inr (n, s') =>
    let s'' := ancDescend (some n) s'
    match s''.status with
    | [] => .error .indexOutOfRange
    | _ :: ss => .ok { s'' with status := .returnedSelf :: ss }

/-- `mod.rs` 79-85: `get`. -/
def ancGet (s : AncState N V) : Option (List V) :=
  if s.items.length > 0 then some s.items.reverse else none

/-- `StreamingIterator::next`. -/
def ancNext [LeftNode N V] : AncState N V → Except Panic (Option (List V) × AncState N V) :=
  streamNextE ancAdvance ancGet

/-- `owned.rs` 102-108. -/
def attachAncestors (s : State N V) : Except Panic (AncState N V) :=
  match s.moved, s.right with
  | true, _ => .error .attachMidTraversal
  | false, some root :: _ => .ok (AncState.new root)
  | false, _ => .error .unwrapNone

/-! ## `attach_context`, owned -/

/-- `owned.rs` 188-195: fields of `OwnedDFSInorderIteratorWithContext`. -/
structure OwnCtxState (N : Type u) (V : Type v) where
  right : List (Option N)
  path : List Nat
  ancestors : List V
  status : List Status

/-- `owned.rs` 201-216. -/
def OwnCtxState.new (root : N) (path : List Nat) : OwnCtxState N V := ⟨[some root], path, [], []⟩

/-- `owned.rs` 227-253. -/
def ownFind : List Status → List V → List Nat → List (Option N) →
    OwnCtxState N V ⊕ (N × OwnCtxState N V)
  | .wentRight :: ss, anc, path, right => ownFind ss anc.tail path.tail right
  | .wentLeft :: ss, anc, path, right => .inl ⟨right, path, anc, .returnedSelf :: ss⟩
  | .returnedSelf :: ss, _, path, [] => .inl ⟨[], path, [], .wentRight :: ss⟩
  | .returnedSelf :: ss, anc, path, some n :: right => .inr (n, ⟨right, path, anc, .wentRight :: ss⟩)
  | .returnedSelf :: ss, anc, path, none :: right => ownFind (.wentRight :: ss) anc path right
  | [], _, path, [] => .inl ⟨[], path, [], []⟩
  | [], anc, path, some n :: right => .inr (n, ⟨right, path, anc, []⟩)
  | [], anc, path, none :: right => ownFind [] anc path right
termination_by st _ _ right => st.length + right.length

/-- `owned.rs` 259-265 (`borrow.rs` 261-267, `mut_borrow.rs` 279-285): the segment pushed when descending. -/
def pushSegment : List Status → List Nat → List Nat
  | [], path => path
  | .wentLeft :: _, path => 0 :: path
  | .returnedSelf :: _, path => 0 :: path
  | .wentRight :: _, path => 1 :: path

/-- `owned.rs` 255-271. -/
def ownDescend [LeftNode N V] : Option N → OwnCtxState N V → OwnCtxState N V
  | none, s => s
  | some n, s => ownDescend (split2 n).2.1
      ⟨(split2 n).2.2 :: s.right, pushSegment s.status s.path, val2 n :: s.ancestors, .wentLeft :: s.status⟩
termination_by cur => curSize cur
decreasing_by exact curSize_left_lt n

/-- `owned.rs` 225-275: `advance`. -/
def ownAdvance [LeftNode N V] (s : OwnCtxState N V) : Except Panic (OwnCtxState N V) :=
  match ownFind s.status s.ancestors s.path s.right with
  | .inl s' => .ok s'
  | .inr (n, s') =>
    let s'' := ownDescend (some n) s'
    match s''.status with
    | [] => .error .indexOutOfRange
    | _ :: ss => .ok { s'' with status := .returnedSelf :: ss }

/-- `owned.rs` 277-283: `get`; `children` is always `None`. -/
def ownGet (s : OwnCtxState N V) : Option (Ctx V (Option N × Option N)) :=
  if s.ancestors.isEmpty then none else some ⟨s.path.reverse, s.ancestors.reverse, none⟩

/-- `StreamingIterator::next`. -/
def ownNext [LeftNode N V] :
    OwnCtxState N V → Except Panic (Option (Ctx V (Option N × Option N)) × OwnCtxState N V) :=
  streamNextE ownAdvance ownGet

/-- `owned.rs` 93-99. -/
def ownAttachContext (s : State N V) : Except Panic (OwnCtxState N V) :=
  match s.moved, s.right with
  | true, _ => .error .attachMidTraversal
  | false, some root :: _ => .ok (OwnCtxState.new root [])
  | false, _ => .error .unwrapNone

/-! ## `attach_context`, borrowed and mutably borrowed -/

/-- `borrow.rs` 180-188: fields of `BorrowedDFSInorderIteratorWithContext` (`mut_borrow.rs` 192-200 is the
same with raw pointers). -/
structure CtxState (N : Type u) (V : Type v) where
  right : List (Option N)
  path : List Nat
  ancestors : List V
  children : Option (Option N × Option N)
  into : List (Option N × Option N)
  status : List Status

/-- `borrow.rs` 194-213. -/
def CtxState.new (root : N) (path : List Nat) : CtxState N V := ⟨[some root], path, [], none, [], []⟩

/-- `borrow.rs` 224-250 (`mut_borrow.rs` 236-268); `ch` is the context's current `children`. -/
def ctxFind (ch : Option (Option N × Option N)) :
    List Status → List V → List Nat → List (Option N) → List (Option N × Option N) →
    Except Panic (CtxState N V ⊕ (N × CtxState N V))
  | .wentRight :: ss, anc, path, right, into => ctxFind ch ss anc.tail path.tail right into
  | .wentLeft :: ss, anc, path, right, c :: into =>
    .ok (.inl ⟨right, path, anc, some c, into, .returnedSelf :: ss⟩)
  | .wentLeft :: _, _, _, _, [] => .error .unwrapNone
  | .returnedSelf :: ss, _, path, [], into => .ok (.inl ⟨[], path, [], ch, into, .wentRight :: ss⟩)
  | .returnedSelf :: ss, anc, path, some n :: right, into =>
    .ok (.inr (n, ⟨right, path, anc, ch, into, .wentRight :: ss⟩))
  | .returnedSelf :: ss, anc, path, none :: right, into => ctxFind ch (.wentRight :: ss) anc path right into
  | [], _, path, [], into => .ok (.inl ⟨[], path, [], ch, into, []⟩)
  | [], anc, path, some n :: right, into => .ok (.inr (n, ⟨right, path, anc, ch, into, []⟩))
  | [], anc, path, none :: right, into => ctxFind ch [] anc path right into
termination_by st _ _ right _ => st.length + right.length

/-- `borrow.rs` 252-270 (`mut_borrow.rs` 270-288). -/
def ctxDescend [LeftNode N V] : Option N → CtxState N V → CtxState N V
  | none, s => s
  | some n, s => ctxDescend (split2 n).2.1
      ⟨(split2 n).2.2 :: s.right, pushSegment s.status s.path, val2 n :: s.ancestors, s.children,
        (split2 n).2 :: s.into, .wentLeft :: s.status⟩
termination_by cur => curSize cur
decreasing_by exact curSize_left_lt n

/-- `borrow.rs` 222-280 (`mut_borrow.rs` 234-299): `advance`. -/
def ctxAdvance [LeftNode N V] (s : CtxState N V) : Except Panic (CtxState N V) :=
  match ctxFind s.children s.status s.ancestors s.path s.right s.into with
  | .error e => .error e
  | .ok (.inl s') => .ok s'
  | .ok (.inr (n, s')) =>
    let s'' := ctxDescend (some n) s'
    match s''.status, s''.into with
    | [], _ => .error .indexOutOfRange
    | _ :: _, [] => .error .unwrapNone
    | _ :: ss, c :: into =>
      .ok { s'' with status := .returnedSelf :: ss, into := into, children := some c }

/-- `borrow.rs` 282-288: `get`. -/
def ctxGet (s : CtxState N V) : Option (Ctx V (Option N × Option N)) :=
  if s.ancestors.isEmpty then none else some ⟨s.path.reverse, s.ancestors.reverse, s.children⟩

/-- `StreamingIterator::next`. -/
def ctxNext [LeftNode N V] :
    CtxState N V → Except Panic (Option (Ctx V (Option N × Option N)) × CtxState N V) :=
  streamNextE ctxAdvance ctxGet

/-- `borrow.rs` `attach_context` (same text as `owned.rs` 93-99). -/
def attachContext (s : State N V) : Except Panic (CtxState N V) :=
  match s.moved, s.right with
  | true, _ => .error .attachMidTraversal
  | false, some root :: _ => .ok (CtxState.new root [])
  | false, _ => .error .unwrapNone

end Inorder

end TreeIter
