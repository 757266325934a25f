import Verif.Node

/-!
# Model of `dfs_preorder_iterators`

Source: `/repo/tree_iterators_rs/src/dfs_preorder_iterators/mod.rs` and `owned.rs` (the `borrow.rs` and
`mut_borrow.rs` files instantiate the same macros).

A `Vec` used as a stack is a list with its top at the head.  `path` and `ancestors` are such stacks and are
reversed when they are handed out.  A child iterator is the list of items it has yet to yield.
-/

universe u v w

namespace TreeIter

/-- `usize::MAX` on a 64-bit target. -/
def usizeMax : Nat := 2 ^ 64 - 1

/-- `last.wrapping_add(1)` on a 64-bit target. -/
def wrapSucc (n : Nat) : Nat := (n + 1) % 2 ^ 64

namespace Preorder

variable {N : Type u} {V : Type v}

/-! ## The plain iterator -/

/-- `owned.rs` 139-145: fields of `OwnedDFSPreorderIterator`. -/
structure State (N : Type u) where
  root : Option N
  stack : List (List N)

/-- `owned.rs` 151-156. -/
def new (root : N) : State N := ⟨some root, []⟩

/-- `mod.rs` 14-24: the loop that looks for the next node, popping exhausted iterators. -/
def loop : List (List N) → Option N × List (List N)
  | [] => (none, [])
  | [] :: rest => loop rest
  | (n :: ns) :: rest => (some n, ns :: rest)

/-- `mod.rs` 5-33: `dfs_preorder_next!`. -/
def next [SplitNode N V] (s : State N) : Option V × State N :=
  match s.root with
  | some root => (some (val root), ⟨none, kids root :: s.stack⟩)
  | none =>
    match loop s.stack with
    | (none, st) => (none, ⟨none, st⟩)
    | (some n, st) => (some (val n), ⟨none, kids n :: st⟩)

/-! ## `attach_ancestors` -/

/-- `owned.rs` 291-298: fields of `OwnedDFSPreorderIteratorWithAncestors`. -/
structure AncState (N : Type u) (V : Type v) where
  root : Option N
  stack : List (List N)
  items : List V

/-- `owned.rs` 304-310. -/
def AncState.new (root : N) : AncState N V := ⟨some root, [], []⟩

/-- `mod.rs` 124-135: the loop that looks for the next node, popping an item with each exhausted
iterator. -/
def ancLoop : List (List N) → List V → Option N × List (List N) × List V
  | [], it => (none, [], it)
  | [] :: rest, it => ancLoop rest it.tail
  | (n :: ns) :: rest, it => (some n, ns :: rest, it)

/-- `mod.rs` 114-142: `preorder_ancestors_streaming_iterator_impl!`, `advance`. -/
def ancAdvance [SplitNode N V] (s : AncState N V) : AncState N V :=
  match s.root with
  | some root => ⟨none, kids root :: s.stack, val root :: s.items⟩
  | none =>
    match ancLoop s.stack s.items with
    | (none, st, it) => ⟨none, st, it⟩
    | (some n, st, it) => ⟨none, kids n :: st, val n :: it⟩

/-- `mod.rs` 144-150: `get`; the slice is handed out root first. -/
def ancGet (s : AncState N V) : Option (List V) :=
  if s.items.length > 0 then some s.items.reverse else none

/-- `StreamingIterator::next`. -/
def ancNext [SplitNode N V] : AncState N V → Option (List V) × AncState N V :=
  streamNext ancAdvance ancGet

/-- `owned.rs` 178-186: `attach_ancestors` panics when the root has been taken. -/
def attachAncestors (s : State N) : Except Panic (AncState N V) :=
  match s.root with
  | none => .error .attachMidTraversal
  | some root => .ok (AncState.new root)

/-! ## `attach_context`, general nodes -/

/-- `owned.rs` 250-257: fields of `OwnedDFSPreorderIteratorWithContext`; `path`, `ancestors` and
`children` are the fields of its `current_context`. -/
structure CtxState (N : Type u) (V : Type v) where
  root : Option N
  stack : List (List N)
  path : List Nat
  ancestors : List V
  children : Option (List N)

/-- `owned.rs` 263-273; `path` is the reversed initial path. -/
def CtxState.new (root : N) (path : List Nat) : CtxState N V := ⟨some root, [], path, [], none⟩

/-- `mod.rs` 190-208: the loop that looks for the next node. -/
def ctxLoop : List (List N) → List Nat → List V →
    Except Panic (Option N × List (List N) × List Nat × List V)
  | [], path, anc => .ok (none, [], path, anc)
  | [] :: rest, path, anc => ctxLoop rest path.tail anc.tail
  | (n :: ns) :: rest, p :: path, anc => .ok (some n, ns :: rest, wrapSucc p :: path, anc)
  | (_ :: _) :: _, [], _ => .error .unwrapNone

/-- `mod.rs` 210-216: what happens with the result of the loop. -/
def ctxFinish [SplitNode N V] :
    Option N × List (List N) × List Nat × List V → CtxState N V
  | (some n, st, path, anc) => ⟨none, st, path, val n :: anc, some (kids n)⟩
  | (none, st, path, _) => ⟨none, st, path, [], none⟩

/-- `mod.rs` 166-217: `preorder_context_streaming_iterator_impl!`, `advance`. -/
def ctxAdvance [SplitNode N V] (s : CtxState N V) : Except Panic (CtxState N V) :=
  match s.root with
  | some root => .ok { s with root := none, ancestors := val root :: s.ancestors, children := some (kids root) }
  | none =>
    if s.ancestors.isEmpty then .ok s
    else
      let (stack, path, anc) :=
        match s.children with
        | some cs => (cs :: s.stack, usizeMax :: s.path, s.ancestors)
        | none => (s.stack, if s.path.head? = some usizeMax then s.path.tail else s.path, s.ancestors.tail)
      match ctxLoop stack path anc with
      | .error e => .error e
      | .ok r => .ok (ctxFinish r)

/-- `mod.rs` 219-225: `get`. -/
def ctxGet (s : CtxState N V) : Option (Ctx V (List N)) :=
  if s.ancestors.isEmpty then none else some ⟨s.path.reverse, s.ancestors.reverse, s.children⟩

/-- `StreamingIterator::next`. -/
def ctxNext [SplitNode N V] : CtxState N V → Except Panic (Option (Ctx V (List N)) × CtxState N V) :=
  streamNextE ctxAdvance ctxGet

/-- `owned.rs` 168-176: `attach_context` panics when the root has been taken. -/
def attachContext (s : State N) : Except Panic (CtxState N V) :=
  match s.root with
  | none => .error .attachMidTraversal
  | some root => .ok (CtxState.new root [])

/-! ## `attach_context`, binary nodes -/

/-- `owned.rs` 605-612: fields of `OwnedBinaryDFSPreorderIteratorWithContext`.  The stack holds
iterators over the slot arrays. -/
structure BinCtxState (N : Type u) (V : Type v) where
  root : Option N
  stack : List (List (Option N))
  path : List Nat
  ancestors : List V
  children : Option (Option N × Option N)

/-- `owned.rs` 618-628. -/
def BinCtxState.new (root : N) (path : List Nat) : BinCtxState N V := ⟨some root, [], path, [], none⟩

/-- `mod.rs` 253-274: every slot advances the last path segment; only a present child leaves the
loop. -/
def binCtxLoop : List (List (Option N)) → List Nat → List V →
    Except Panic (Option N × List (List (Option N)) × List Nat × List V)
  | [], path, anc => .ok (none, [], path, anc)
  | [] :: rest, path, anc => binCtxLoop rest path.tail anc.tail
  | (some n :: ss) :: rest, p :: path, anc => .ok (some n, ss :: rest, wrapSucc p :: path, anc)
  | (none :: ss) :: rest, p :: path, anc => binCtxLoop (ss :: rest) (wrapSucc p :: path) anc
  | (_ :: _) :: _, [], _ => .error .unwrapNone
termination_by st => (st.map fun l => l.length + 1).sum

/-- `mod.rs` 276-282. -/
def binCtxFinish [SplitNode2 N V] :
    Option N × List (List (Option N)) × List Nat × List V → BinCtxState N V
  | (some n, st, path, anc) => ⟨none, st, path, val2 n :: anc, some (split2 n).2⟩
  | (none, st, path, _) => ⟨none, st, path, [], none⟩

/-- `mod.rs` 229-283: `preorder_binary_context_streaming_iterator_impl!`, `advance`. -/
def binCtxAdvance [SplitNode2 N V] (s : BinCtxState N V) : Except Panic (BinCtxState N V) :=
  match s.root with
  | some root =>
    .ok { s with root := none, ancestors := val2 root :: s.ancestors, children := some (split2 root).2 }
  | none =>
    if s.ancestors.isEmpty then .ok s
    else
      let (stack, path, anc) :=
        match s.children with
        | some cs => ([cs.1, cs.2] :: s.stack, usizeMax :: s.path, s.ancestors)
        | none => (s.stack, if s.path.head? = some usizeMax then s.path.tail else s.path, s.ancestors.tail)
      match binCtxLoop stack path anc with
      | .error e => .error e
      | .ok r => .ok (binCtxFinish r)

/-- `mod.rs` 285-291: `get`. -/
def binCtxGet (s : BinCtxState N V) : Option (Ctx V (Option N × Option N)) :=
  if s.ancestors.isEmpty then none else some ⟨s.path.reverse, s.ancestors.reverse, s.children⟩

/-- `StreamingIterator::next`. -/
def binCtxNext [SplitNode2 N V] :
    BinCtxState N V → Except Panic (Option (Ctx V (Option N × Option N)) × BinCtxState N V) :=
  streamNextE binCtxAdvance binCtxGet

/-- `owned.rs` 474-482. -/
def binAttachContext (s : State N) : Except Panic (BinCtxState N V) :=
  match s.root with
  | none => .error .attachMidTraversal
  | some root => .ok (BinCtxState.new root [])

end Preorder

end TreeIter
