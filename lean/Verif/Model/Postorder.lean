import Verif.Model.Preorder

/-!
# Model of `dfs_postorder_iterators`

Source: `/repo/tree_iterators_rs/src/dfs_postorder_iterators/{mod,owned,borrow,mut_borrow}.rs`.
Stacks have their top at the head; see `Verif.Model.Preorder`.
-/

universe u v w

namespace TreeIter

namespace Postorder

variable {N : Type u} {V : Type v}

/-! ## The plain iterator -/

/-- `owned.rs` 44-51: fields of `OwnedDFSPostorderIterator`. -/
structure State (N : Type u) (V : Type v) where
  root : Option N
  items : List V
  stack : List (List N)

/-- `owned.rs` 57-63. -/
def new (root : N) : State N V := ⟨some root, [], []⟩

/-- Termination measure of the descending loops: bound on the size of the nodes in the top iterator. -/
def topSize [TreeNode N V] : List (List N) → Nat
  | (n :: _) :: _ => TreeNode.size n + 1
  | _ => 0

theorem topSize_kids_lt [TreeNode N V] (n : N) (ns : List N) (rest : List (List N)) :
    topSize (kids n :: ns :: rest) < topSize ((n :: ns) :: rest) := by
  cases h : kids n with
  | nil => simp [topSize]
  | cons c cs =>
    have : TreeNode.size c < TreeNode.size n := TreeNode.size_lt (n := n) (by
      show c ∈ kids n
      simp [h])
    simp only [topSize]
    omega

/-- `mod.rs` 16-29: the inner loop; descend to the first node whose iterator is exhausted. -/
def loop [TreeNode N V] : List (List N) → List V → Option V × List V × List (List N)
  | [], items => (items.head?, items.tail, [])
  | [] :: rest, items => (items.head?, items.tail, rest)
  | (n :: ns) :: rest, items => loop (kids n :: ns :: rest) (val n :: items)
termination_by st => topSize st
decreasing_by exact topSize_kids_lt ..

/-- `mod.rs` 5-33: `dfs_postorder_next!`. -/
def next [TreeNode N V] (s : State N V) : Option V × State N V :=
  let (items, stack) :=
    match s.root with
    | some root => (val root :: s.items, kids root :: s.stack)
    | none => (s.items, s.stack)
  let (o, items, stack) := loop stack items
  (o, ⟨none, items, stack⟩)

/-! ## `attach_ancestors` -/

/-- `owned.rs` 189-196: fields of `OwnedDFSPostorderIteratorWithAncestors`. -/
structure AncState (N : Type u) (V : Type v) where
  root : Option N
  items : List V
  stack : List (List N)

/-- `owned.rs` 202-208. -/
def AncState.new (root : N) : AncState N V := ⟨some root, [], []⟩

/-- `mod.rs` 58-69. -/
def ancLoop [TreeNode N V] : List (List N) → List V → List V × List (List N)
  | [], items => (items, [])
  | [] :: rest, items => (items, rest)
  | (n :: ns) :: rest, items => ancLoop (kids n :: ns :: rest) (val n :: items)
termination_by st => topSize st
decreasing_by exact topSize_kids_lt ..

/-- `mod.rs` 47-70: `postorder_ancestors_streaming_iterator_impl!`, `advance`. -/
def ancAdvance [TreeNode N V] (s : AncState N V) : AncState N V :=
  let (items, stack) :=
    match s.root with
    | some root => (val root :: s.items, kids root :: s.stack)
    | none => (s.items.tail, s.stack)
  let (items, stack) := ancLoop stack items
  ⟨none, items, stack⟩

/-- `mod.rs` 72-78: `get`. -/
def ancGet (s : AncState N V) : Option (List V) :=
  if s.items.length > 0 then some s.items.reverse else none

/-- `StreamingIterator::next`. -/
def ancNext [TreeNode N V] : AncState N V → Option (List V) × AncState N V :=
  streamNext ancAdvance ancGet

/-- `owned.rs` 85-93. -/
def attachAncestors (s : State N V) : Except Panic (AncState N V) :=
  match s.root with
  | none => .error .attachMidTraversal
  | some root => .ok (AncState.new root)

/-! ## `attach_context`, borrowed (and mutably borrowed) general nodes -/

/-- `borrow.rs` 105-113: fields of `BorrowedDFSPostorderIteratorWithContext`; `mut_borrow.rs` 109-117 is
the same. -/
structure CtxState (N : Type u) (V : Type v) where
  root : Option N
  stack : List (List N)
  into : List (List N)
  path : List Nat
  ancestors : List V
  children : Option (List N)

/-- `borrow.rs` 119-130. -/
def CtxState.new (root : N) (path : List Nat) : CtxState N V := ⟨some root, [], [], path, [], none⟩

/-- `borrow.rs` 156-189 (`mut_borrow.rs` 164-197): descend; on an exhausted iterator hand out the saved
children. -/
def ctxLoop [TreeNode N V] : List (List N) → List (List N) → List Nat → List V →
    Except Panic (CtxState N V)
  | (n :: ns) :: rest, into, p :: path, anc =>
    ctxLoop (kids n :: ns :: rest) (kids n :: into) (usizeMax :: wrapSucc p :: path) (val n :: anc)
  | (_ :: _) :: _, _, [], _ => .error .unwrapNone
  | [] :: rest, c :: into, path, anc => .ok ⟨none, rest, into, path.tail, anc, some c⟩
  | [], c :: into, path, anc => .ok ⟨none, [], into, path.tail, anc, some c⟩
  | [] :: _, [], _, _ => .error .unwrapNone
  | [], [], _, _ => .error .unwrapNone
termination_by st => topSize st
decreasing_by exact topSize_kids_lt ..

/-- `borrow.rs` 138-190 (`mut_borrow.rs` 145-198): `advance`. -/
def ctxAdvance [TreeNode N V] (s : CtxState N V) : Except Panic (CtxState N V) :=
  match s.root with
  | some root => ctxLoop (kids root :: s.stack) (kids root :: s.into) (usizeMax :: s.path) (val root :: s.ancestors)
  | none =>
    if s.ancestors.tail.isEmpty then .ok { s with ancestors := s.ancestors.tail }
    else
      ctxLoop s.stack s.into s.path s.ancestors.tail

/-- `borrow.rs` 192-198: `get`. -/
def ctxGet (s : CtxState N V) : Option (Ctx V (List N)) :=
  if s.ancestors.isEmpty then none else some ⟨s.path.reverse, s.ancestors.reverse, s.children⟩

/-- `StreamingIterator::next`. -/
def ctxNext [TreeNode N V] : CtxState N V → Except Panic (Option (Ctx V (List N)) × CtxState N V) :=
  streamNextE ctxAdvance ctxGet

/-- `owned.rs` 75-83 (the borrowed ones are the same). -/
def attachContext (s : State N V) : Except Panic (CtxState N V) :=
  match s.root with
  | none => .error .attachMidTraversal
  | some root => .ok (CtxState.new root [])

/-! ## `attach_context`, owned general nodes -/

/-- `owned.rs` 104-111: fields of `OwnedDFSPostorderIteratorWithContext`; the children are consumed, so the
context's `children` stays `None`. -/
structure OwnCtxState (N : Type u) (V : Type v) where
  root : Option N
  stack : List (List N)
  path : List Nat
  ancestors : List V

/-- `owned.rs` 117-127. -/
def OwnCtxState.new (root : N) (path : List Nat) : OwnCtxState N V := ⟨some root, [], path, []⟩

/-- `owned.rs` 148-170. -/
def ownCtxLoop [TreeNode N V] : List (List N) → List Nat → List V → Except Panic (OwnCtxState N V)
  | (n :: ns) :: rest, p :: path, anc =>
    ownCtxLoop (kids n :: ns :: rest) (usizeMax :: wrapSucc p :: path) (val n :: anc)
  | (_ :: _) :: _, [], _ => .error .unwrapNone
  | [] :: rest, path, anc => .ok ⟨none, rest, path.tail, anc⟩
  | [], path, anc => .ok ⟨none, [], path.tail, anc⟩
termination_by st => topSize st
decreasing_by exact topSize_kids_lt ..

/-- `owned.rs` 135-171: `advance`. -/
def ownCtxAdvance [TreeNode N V] (s : OwnCtxState N V) : Except Panic (OwnCtxState N V) :=
  match s.root with
  | some root => ownCtxLoop (kids root :: s.stack) (usizeMax :: s.path) (val root :: s.ancestors)
  | none =>
    if s.ancestors.tail.isEmpty then .ok { s with ancestors := s.ancestors.tail }
    else
      ownCtxLoop s.stack s.path s.ancestors.tail

/-- `owned.rs` 173-179: `get`; `children` is always `None`. -/
def ownCtxGet (s : OwnCtxState N V) : Option (Ctx V (List N)) :=
  if s.ancestors.isEmpty then none else some ⟨s.path.reverse, s.ancestors.reverse, none⟩

/-- `StreamingIterator::next`. -/
def ownCtxNext [TreeNode N V] :
    OwnCtxState N V → Except Panic (Option (Ctx V (List N)) × OwnCtxState N V) :=
  streamNextE ownCtxAdvance ownCtxGet

/-- `owned.rs` 75-83. -/
def ownAttachContext (s : State N V) : Except Panic (OwnCtxState N V) :=
  match s.root with
  | none => .error .attachMidTraversal
  | some root => .ok (OwnCtxState.new root [])

/-! ## `attach_context`, borrowed (and mutably borrowed) binary nodes -/

/-- `borrow.rs` 375-383: fields of `BorrowedBinaryDFSPostorderIteratorWithContext`. -/
structure BinCtxState (N : Type u) (V : Type v) where
  root : Option N
  stack : List (List (Option N))
  into : List (Option N × Option N)
  path : List Nat
  ancestors : List V
  children : Option (Option N × Option N)

/-- `borrow.rs` 389-403. -/
def BinCtxState.new (root : N) (path : List Nat) : BinCtxState N V := ⟨some root, [], [], path, [], none⟩

/-- Termination measure of the binary loops: bound on the sizes of the nodes in an iterator. -/
def slotSize [BinNode N V] : List (Option N) → Nat
  | [] => 0
  | none :: ss => slotSize ss
  | some n :: ss => max (BinNode.size2 n + 1) (slotSize ss)

/-- Bound for the top iterator. -/
def topSlotSize [BinNode N V] : List (List (Option N)) → Nat
  | [] => 0
  | ss :: _ => slotSize ss

theorem slotSize_slots_lt [BinNode N V] (n : N) (ss : List (Option N)) :
    slotSize (slots n) < slotSize (some n :: ss) := by
  have hl := @BinNode.size2_left N V _ n
  have hr := @BinNode.size2_right N V _ n
  simp only [slots]
  cases h1 : (split2 n).2.1 <;> cases h2 : (split2 n).2.2 <;> simp only [slotSize]
  · omega
  · have := hr h2; omega
  · have := hl h1; omega
  · have := hl h1; have := hr h2; omega

/-- `borrow.rs` 429-464 (`mut_borrow.rs` 466-505): every slot advances the last segment; a present child is
descended into. -/
def binCtxLoop [BinNode N V] : List (List (Option N)) → List (Option N × Option N) → List Nat → List V →
    Except Panic (BinCtxState N V)
  | (some n :: ss) :: rest, into, p :: path, anc =>
    binCtxLoop (slots n :: ss :: rest) ((split2 n).2 :: into) (usizeMax :: wrapSucc p :: path)
      (val2 n :: anc)
  | (none :: ss) :: rest, into, p :: path, anc => binCtxLoop (ss :: rest) into (wrapSucc p :: path) anc
  | (_ :: _) :: _, _, [], _ => .error .unwrapNone
  | [] :: rest, c :: into, path, anc => .ok ⟨none, rest, into, path.tail, anc, some c⟩
  | [], c :: into, path, anc => .ok ⟨none, [], into, path.tail, anc, some c⟩
  | [] :: _, [], _, _ => .error .unwrapNone
  | [], [], _, _ => .error .unwrapNone
termination_by st => 3 * topSlotSize st + (st.head?.getD []).length
decreasing_by
  · have := slotSize_slots_lt n ss
    simp only [topSlotSize, slots, List.head?_cons, Option.getD_some, List.length_cons, List.length_nil] at this ⊢
    omega
  · simp [topSlotSize, slotSize]

/-- `borrow.rs` 411-465: `advance`. -/
def binCtxAdvance [BinNode N V] (s : BinCtxState N V) : Except Panic (BinCtxState N V) :=
  match s.root with
  | some root =>
    binCtxLoop (slots root :: s.stack) ((split2 root).2 :: s.into) (usizeMax :: s.path) (val2 root :: s.ancestors)
  | none =>
    if s.ancestors.tail.isEmpty then .ok { s with ancestors := s.ancestors.tail }
    else binCtxLoop s.stack s.into s.path s.ancestors.tail

/-- `mut_borrow.rs` 442-506: as the borrowed one, but the stale `children` are cleared first. -/
def mutBinCtxAdvance [BinNode N V] (s : BinCtxState N V) : Except Panic (BinCtxState N V) :=
  binCtxAdvance { s with children := none }

/-- `borrow.rs` 467-473: `get`. -/
def binCtxGet (s : BinCtxState N V) : Option (Ctx V (Option N × Option N)) :=
  if s.ancestors.isEmpty then none else some ⟨s.path.reverse, s.ancestors.reverse, s.children⟩

/-- `StreamingIterator::next` (borrowed). -/
def binCtxNext [BinNode N V] :
    BinCtxState N V → Except Panic (Option (Ctx V (Option N × Option N)) × BinCtxState N V) :=
  streamNextE binCtxAdvance binCtxGet

/-- `StreamingIterator::next` (mutably borrowed). -/
def mutBinCtxNext [BinNode N V] :
    BinCtxState N V → Except Panic (Option (Ctx V (Option N × Option N)) × BinCtxState N V) :=
  streamNextE mutBinCtxAdvance binCtxGet

/-- `owned.rs` 295-303 (the borrowed ones are the same). -/
def binAttachContext (s : State N V) : Except Panic (BinCtxState N V) :=
  match s.root with
  | none => .error .attachMidTraversal
  | some root => .ok (BinCtxState.new root [])

/-! ## `attach_context`, owned binary nodes -/

/-- `owned.rs` 373-380: fields of `OwnedBinaryDFSPostorderIteratorWithContext`. -/
structure OwnBinCtxState (N : Type u) (V : Type v) where
  root : Option N
  stack : List (List (Option N))
  path : List Nat
  ancestors : List V

/-- `owned.rs` 386-396. -/
def OwnBinCtxState.new (root : N) (path : List Nat) : OwnBinCtxState N V := ⟨some root, [], path, []⟩

/-- `owned.rs` 417-443. -/
def ownBinCtxLoop [BinNode N V] : List (List (Option N)) → List Nat → List V →
    Except Panic (OwnBinCtxState N V)
  | (some n :: ss) :: rest, p :: path, anc =>
    ownBinCtxLoop (slots n :: ss :: rest) (usizeMax :: wrapSucc p :: path) (val2 n :: anc)
  | (none :: ss) :: rest, p :: path, anc => ownBinCtxLoop (ss :: rest) (wrapSucc p :: path) anc
  | (_ :: _) :: _, [], _ => .error .unwrapNone
  | [] :: rest, path, anc => .ok ⟨none, rest, path.tail, anc⟩
  | [], path, anc => .ok ⟨none, [], path.tail, anc⟩
termination_by st => 3 * topSlotSize st + (st.head?.getD []).length
decreasing_by
  · have := slotSize_slots_lt n ss
    simp only [topSlotSize, slots, List.head?_cons, Option.getD_some, List.length_cons, List.length_nil] at this ⊢
    omega
  · simp [topSlotSize, slotSize]

/-- `owned.rs` 404-444: `advance`. -/
def ownBinCtxAdvance [BinNode N V] (s : OwnBinCtxState N V) : Except Panic (OwnBinCtxState N V) :=
  match s.root with
  | some root => ownBinCtxLoop (slots root :: s.stack) (usizeMax :: s.path) (val2 root :: s.ancestors)
  | none =>
    if s.ancestors.tail.isEmpty then .ok { s with ancestors := s.ancestors.tail }
    else ownBinCtxLoop s.stack s.path s.ancestors.tail

/-- `owned.rs` 446-452: `get`. -/
def ownBinCtxGet (s : OwnBinCtxState N V) : Option (Ctx V (Option N × Option N)) :=
  if s.ancestors.isEmpty then none else some ⟨s.path.reverse, s.ancestors.reverse, none⟩

/-- `StreamingIterator::next`. -/
def ownBinCtxNext [BinNode N V] :
    OwnBinCtxState N V → Except Panic (Option (Ctx V (Option N × Option N)) × OwnBinCtxState N V) :=
  streamNextE ownBinCtxAdvance ownBinCtxGet

/-- `owned.rs` 295-303. -/
def ownBinAttachContext (s : State N V) : Except Panic (OwnBinCtxState N V) :=
  match s.root with
  | none => .error .attachMidTraversal
  | some root => .ok (OwnBinCtxState.new root [])

end Postorder

end TreeIter
