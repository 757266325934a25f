import Verif.Model.Postorder
import Verif.Model.BfsCtx

/-!
# Model of the ownership of child collections

The machines of `Preorder`, `Postorder`, `Bfs` and `BfsCtx` once more, with the collections of children they own made
visible.  A `Handle` is a collection (or the iterator made of it) together with the node that returned it.  An
event `opened n` is a call of `get_value_and_children` on `n`; an event `dropped n` is the end of life of a handle
made from the return value of that call: the end of its scope, a `pop` whose result is not used, or an assignment over
it.  `erase` leads back to the machines without handles.
-/

universe u v w x

namespace TreeIter

namespace Handles

variable {N : Type u} {V : Type v}

/-- A collection of children, or an iterator made of it: the node it came from and the items left. -/
structure Handle (N : Type u) where
  owner : N
  items : List N
  deriving DecidableEq

inductive Event (N : Type u) where
  /-- call of `get_value_and_children` on the node -/
  | opened (n : N)
  /-- end of life of a handle of the node's children -/
  | dropped (n : N)
  deriving DecidableEq

/-- The handle for the children of `n`. -/
def handle [SplitNode N V] (n : N) : Handle N := ⟨n, kids n⟩

/-- Nodes opened, in order. -/
def opened : List (Event N) → List N
  | [] => []
  | .opened n :: es => n :: opened es
  | .dropped _ :: es => opened es

/-- Nodes whose handles were dropped, in order. -/
def dropped : List (Event N) → List N
  | [] => []
  | .opened _ :: es => dropped es
  | .dropped n :: es => n :: dropped es

/-- Forget the handles. -/
def bare (st : List (Handle N)) : List (List N) := st.map Handle.items

/-- Owners of the handles in a stack or queue. -/
def owners (st : List (Handle N)) : List N := st.map Handle.owner

/-! ## `dfs_preorder` -/

/-- `dfs_preorder_iterators/owned.rs` 139-145. -/
structure Pre (N : Type u) where
  root : Option N
  stack : List (Handle N)

/-- `dfs_preorder_iterators/mod.rs` 14-24; `traversal_stack.pop()` drops the exhausted iterator. -/
def preLoop : List (Handle N) → List (Event N) × Option N × List (Handle N)
  | [] => ([], none, [])
  | ⟨o, []⟩ :: rest => (.dropped o :: (preLoop rest).1, (preLoop rest).2)
  | ⟨o, n :: ns⟩ :: rest => ([], some n, ⟨o, ns⟩ :: rest)

/-- `dfs_preorder_iterators/mod.rs` 5-33. -/
def preNext [SplitNode N V] (s : Pre N) : List (Event N) × Option V × Pre N :=
  match s.root with
  | some root => ([.opened root], some (val root), ⟨none, handle root :: s.stack⟩)
  | none =>
    match preLoop s.stack with
    | (es, none, st) => (es, none, ⟨none, st⟩)
    | (es, some n, st) => (es ++ [.opened n], some (val n), ⟨none, handle n :: st⟩)

/-- What is dropped with the iterator. -/
def Pre.live (s : Pre N) : List N := owners s.stack

def Pre.erase (s : Pre N) : Preorder.State N := ⟨s.root, bare s.stack⟩

/-! ## `dfs_postorder` -/

/-- `dfs_postorder_iterators/owned.rs` 44-51. -/
structure Post (N : Type u) (V : Type v) where
  root : Option N
  items : List V
  stack : List (Handle N)

/-- As `Postorder.topSize`. -/
def topSize [TreeNode N V] (st : List (Handle N)) : Nat := Postorder.topSize (bare st)

theorem topSize_handle_lt [TreeNode N V] (o n : N) (ns : List N) (rest : List (Handle N)) :
    topSize (handle n :: ⟨o, ns⟩ :: rest) < topSize (⟨o, n :: ns⟩ :: rest) :=
  Postorder.topSize_kids_lt n ns (bare rest)

/-- `dfs_postorder_iterators/mod.rs` 16-29; `traversal_stack.pop()` drops the exhausted iterator. -/
def postLoop [TreeNode N V] : List (Handle N) → List V → List (Event N) × Option V × List V × List (Handle N)
  | [], items => ([], items.head?, items.tail, [])
  | ⟨o, []⟩ :: rest, items => ([.dropped o], items.head?, items.tail, rest)
  | ⟨o, n :: ns⟩ :: rest, items =>
    let r := postLoop (handle n :: ⟨o, ns⟩ :: rest) (val n :: items)
    (.opened n :: r.1, r.2)
termination_by st => topSize st
decreasing_by exact topSize_handle_lt ..

/-- `dfs_postorder_iterators/mod.rs` 5-33. -/
def postNext [TreeNode N V] (s : Post N V) : List (Event N) × Option V × Post N V :=
  match s.root with
  | some root =>
    let r := postLoop (handle root :: s.stack) (val root :: s.items)
    (.opened root :: r.1, r.2.1, ⟨none, r.2.2.1, r.2.2.2⟩)
  | none =>
    let r := postLoop s.stack s.items
    (r.1, r.2.1, ⟨none, r.2.2.1, r.2.2.2⟩)

def Post.live (s : Post N V) : List N := owners s.stack

def Post.erase (s : Post N V) : Postorder.State N V := ⟨s.root, s.items, bare s.stack⟩

/-! ## `bfs` -/

/-- `bfs_iterators/owned.rs` 45-51. -/
structure BfsH (N : Type u) where
  root : Option N
  queue : List (Handle N)

/-- `bfs_iterators/mod.rs` 14-23; `traversal_queue.pop_front()` drops the exhausted iterator. -/
def bfsLoop [SplitNode N V] : List (Handle N) → List (Event N) × Option V × BfsH N
  | [] => ([], none, ⟨none, []⟩)
  | ⟨o, []⟩ :: rest => (.dropped o :: (bfsLoop rest).1, (bfsLoop rest).2)
  | ⟨o, n :: ns⟩ :: rest => ([.opened n], some (val n), ⟨none, (⟨o, ns⟩ :: rest) ++ [handle n]⟩)

/-- `bfs_iterators/mod.rs` 5-26. -/
def bfsNext [SplitNode N V] (s : BfsH N) : List (Event N) × Option V × BfsH N :=
  match s.root with
  | some root => ([.opened root], some (val root), ⟨none, s.queue ++ [handle root]⟩)
  | none => bfsLoop s.queue

def BfsH.live (s : BfsH N) : List N := owners s.queue

def BfsH.erase (s : BfsH N) : Bfs.State N := ⟨s.root, bare s.queue⟩

/-! ## `dfs_preorder().attach_context()` -/

/-- `dfs_preorder_iterators/owned.rs` 250-257. -/
structure PreCtx (N : Type u) (V : Type v) where
  root : Option N
  stack : List (Handle N)
  path : List Nat
  ancestors : List V
  children : Option (Handle N)

def PreCtx.new (root : N) (path : List Nat) : PreCtx N V := ⟨some root, [], path, [], none⟩

/-- `dfs_preorder_iterators/mod.rs` 190-208; `traversal_stack.pop()` drops the exhausted iterator. -/
def preCtxLoop : List (Handle N) → List Nat → List V →
    Except Panic (List (Event N) × Option N × List (Handle N) × List Nat × List V)
  | [], path, anc => .ok ([], none, [], path, anc)
  | ⟨o, []⟩ :: rest, path, anc =>
    match preCtxLoop rest path.tail anc.tail with
    | .error e => .error e
    | .ok (es, r) => .ok (.dropped o :: es, r)
  | ⟨o, n :: ns⟩ :: rest, p :: path, anc => .ok ([], some n, ⟨o, ns⟩ :: rest, wrapSucc p :: path, anc)
  | ⟨_, _ :: _⟩ :: _, [], _ => .error .unwrapNone

/-- Assignment to `current_context.children` drops what was there. -/
def overwritten : Option (Handle N) → List (Event N)
  | none => []
  | some h => [.dropped h.owner]

/-- `dfs_preorder_iterators/mod.rs` 210-216, where `current_context.children` holds `old`. -/
def preCtxFinish [SplitNode N V] (old : Option (Handle N)) :
    List (Event N) × Option N × List (Handle N) × List Nat × List V → List (Event N) × PreCtx N V
  | (es, some n, st, path, anc) =>
    (es ++ .opened n :: overwritten old, ⟨none, st, path, val n :: anc, some (handle n)⟩)
  | (es, none, st, path, _) => (es, ⟨none, st, path, [], old⟩)

/-- `dfs_preorder_iterators/mod.rs` 166-217; `take()` moves the children into the traversal stack. -/
def preCtxAdvance [SplitNode N V] (s : PreCtx N V) : Except Panic (List (Event N) × PreCtx N V) :=
  match s.root with
  | some root =>
    .ok (.opened root :: overwritten s.children,
      { s with root := none, ancestors := val root :: s.ancestors, children := some (handle root) })
  | none =>
    if s.ancestors.isEmpty then .ok ([], s)
    else
      let (stack, path, anc) :=
        match s.children with
        | some h => (h :: s.stack, usizeMax :: s.path, s.ancestors)
        | none => (s.stack, if s.path.head? = some usizeMax then s.path.tail else s.path, s.ancestors.tail)
      match preCtxLoop stack path anc with
      | .error e => .error e
      | .ok r => .ok (preCtxFinish none r)

def PreCtx.live (s : PreCtx N V) : List N := owners s.stack ++ owners s.children.toList

def PreCtx.erase (s : PreCtx N V) : Preorder.CtxState N V :=
  ⟨s.root, bare s.stack, s.path, s.ancestors, s.children.map Handle.items⟩

/-! ## `dfs_postorder_iter().attach_context()`, borrowed and mutably borrowed -/

/-- `dfs_postorder_iterators/borrow.rs` 105-113. -/
structure PostCtx (N : Type u) (V : Type v) where
  root : Option N
  stack : List (Handle N)
  into : List (Handle N)
  path : List Nat
  ancestors : List V
  children : Option (Handle N)

def PostCtx.new (root : N) (path : List Nat) : PostCtx N V := ⟨some root, [], [], path, [], none⟩

/-- `dfs_postorder_iterators/borrow.rs` 156-189 (`mut_borrow.rs` 164-197), where `current_context.children` holds `old`.
`core::ptr::read` makes a second handle of the same collection: one goes to `traversal_stack`, the other to
`into_iterator_stack`. -/
def postCtxLoop [TreeNode N V] (old : Option (Handle N)) : List (Handle N) → List (Handle N) → List Nat → List V →
    Except Panic (List (Event N) × PostCtx N V)
  | ⟨o, n :: ns⟩ :: rest, into, p :: path, anc =>
    match postCtxLoop old (handle n :: ⟨o, ns⟩ :: rest) (handle n :: into) (usizeMax :: wrapSucc p :: path)
        (val n :: anc) with
    | .error e => .error e
    | .ok (es, s) => .ok (.opened n :: es, s)
  | ⟨_, _ :: _⟩ :: _, _, [], _ => .error .unwrapNone
  | ⟨o, []⟩ :: rest, c :: into, path, anc =>
    .ok (overwritten old ++ [.dropped o], ⟨none, rest, into, path.tail, anc, some c⟩)
  | [], c :: into, path, anc => .ok (overwritten old, ⟨none, [], into, path.tail, anc, some c⟩)
  | ⟨_, []⟩ :: _, [], _, _ => .error .unwrapNone
  | [], [], _, _ => .error .unwrapNone
termination_by st => topSize st
decreasing_by exact topSize_handle_lt ..

/-- `dfs_postorder_iterators/borrow.rs` 138-190 (`mut_borrow.rs` 145-198). -/
def postCtxAdvance [TreeNode N V] (s : PostCtx N V) : Except Panic (List (Event N) × PostCtx N V) :=
  match s.root with
  | some root =>
    match postCtxLoop s.children (handle root :: s.stack) (handle root :: s.into) (usizeMax :: s.path)
        (val root :: s.ancestors) with
    | .error e => .error e
    | .ok (es, s) => .ok (.opened root :: es, s)
  | none =>
    if s.ancestors.tail.isEmpty then .ok ([], { s with ancestors := s.ancestors.tail })
    else postCtxLoop s.children s.stack s.into s.path s.ancestors.tail

def PostCtx.live (s : PostCtx N V) : List N := owners s.stack ++ owners s.into ++ owners s.children.toList

def PostCtx.erase (s : PostCtx N V) : Postorder.CtxState N V :=
  ⟨s.root, bare s.stack, bare s.into, s.path, s.ancestors, s.children.map Handle.items⟩

/-! ## `dfs_postorder().attach_context()`, owned -/

/-- `dfs_postorder_iterators/owned.rs` 104-111. -/
structure OwnPostCtx (N : Type u) (V : Type v) where
  root : Option N
  stack : List (Handle N)
  path : List Nat
  ancestors : List V

def OwnPostCtx.new (root : N) (path : List Nat) : OwnPostCtx N V := ⟨some root, [], path, []⟩

/-- `dfs_postorder_iterators/owned.rs` 148-170. -/
def ownPostCtxLoop [TreeNode N V] : List (Handle N) → List Nat → List V →
    Except Panic (List (Event N) × OwnPostCtx N V)
  | ⟨o, n :: ns⟩ :: rest, p :: path, anc =>
    match ownPostCtxLoop (handle n :: ⟨o, ns⟩ :: rest) (usizeMax :: wrapSucc p :: path) (val n :: anc) with
    | .error e => .error e
    | .ok (es, s) => .ok (.opened n :: es, s)
  | ⟨_, _ :: _⟩ :: _, [], _ => .error .unwrapNone
  | ⟨o, []⟩ :: rest, path, anc => .ok ([.dropped o], ⟨none, rest, path.tail, anc⟩)
  | [], path, anc => .ok ([], ⟨none, [], path.tail, anc⟩)
termination_by st => topSize st
decreasing_by exact topSize_handle_lt ..

/-- `dfs_postorder_iterators/owned.rs` 135-171. -/
def ownPostCtxAdvance [TreeNode N V] (s : OwnPostCtx N V) : Except Panic (List (Event N) × OwnPostCtx N V) :=
  match s.root with
  | some root =>
    match ownPostCtxLoop (handle root :: s.stack) (usizeMax :: s.path) (val root :: s.ancestors) with
    | .error e => .error e
    | .ok (es, s) => .ok (.opened root :: es, s)
  | none =>
    if s.ancestors.tail.isEmpty then .ok ([], { s with ancestors := s.ancestors.tail })
    else ownPostCtxLoop s.stack s.path s.ancestors.tail

def OwnPostCtx.live (s : OwnPostCtx N V) : List N := owners s.stack

def OwnPostCtx.erase (s : OwnPostCtx N V) : Postorder.OwnCtxState N V :=
  ⟨s.root, bare s.stack, s.path, s.ancestors⟩

/-! ## `bfs().attach_context()` -/

/-- `bfs_iterators/owned.rs` 100-110. -/
structure BfsCtxH (N : Type u) (V : Type v) where
  isRoot : Bool
  cc : Bfs.CtxCache V
  children : Option (Handle N)
  queue : List (Handle N)
  counter : Nat

/-- `bfs_iterators/owned.rs` 116-136: the root is opened when the iterator is made. -/
def BfsCtxH.new [SplitNode N V] (root : N) (path : List Nat) : List (Event N) × BfsCtxH N V :=
  ([.opened root], ⟨true, ⟨[val root], path.reverse, [], .mk none []⟩, some (handle root), [], 0⟩)

/-- `bfs_iterators/mod.rs` 42-87; `iterator_queue.pop_front()` drops the exhausted iterator.  `children` has been
taken before the loop. -/
def bfsCtxLoop [SplitNode N V] (queue : List (Handle N)) (cc : Bfs.CtxCache V) (counter : Nat) :
    Except Panic (List (Event N) × BfsCtxH N V) :=
  match cc.settle with
  | .error e => .error e
  | .ok cc =>
    match queue with
    | [] => .error .indexOutOfRange
    | ⟨o, n :: ns⟩ :: q =>
      match Bfs.checkedSucc counter with
      | .error e => .error e
      | .ok counter' =>
        .ok ([.opened n], ⟨false, ⟨val n :: cc.ancestors, counter :: cc.path, cc.stack, cc.cache⟩, some (handle n),
          ⟨o, ns⟩ :: q, counter'⟩)
    | ⟨o, []⟩ :: q =>
      match cc.retire with
      | .error e => .error e
      | .ok cc =>
        if q.isEmpty then .ok ([.dropped o], ⟨false, { cc with ancestors := [] }, none, [], 0⟩)
        else
          match bfsCtxLoop q cc 0 with
          | .error e => .error e
          | .ok (es, s) => .ok (.dropped o :: es, s)
termination_by queue.length

/-- `bfs_iterators/mod.rs` 30-88. -/
def bfsCtxAdvance [SplitNode N V] (s : BfsCtxH N V) : Except Panic (List (Event N) × BfsCtxH N V) :=
  if s.isRoot then .ok ([], { s with isRoot := false })
  else if s.cc.ancestors.isEmpty then .ok ([], s)
  else
    match s.children with
    | none => .error .unwrapNone
    | some h => bfsCtxLoop (s.queue ++ [h]) s.cc s.counter

def BfsCtxH.live (s : BfsCtxH N V) : List N := owners s.queue ++ owners s.children.toList

def BfsCtxH.erase (s : BfsCtxH N V) : Bfs.CtxState V (List N) N :=
  ⟨s.isRoot, s.cc, s.children.map Handle.items, bare s.queue, s.counter⟩

/-! ## Runs -/

/-- The first `k` calls of `next`: what happened, what was returned, and the state after them. -/
def run {S : Type w} {O : Type x} (next : S → List (Event N) × Option O × S) :
    Nat → S → List (Event N) × List (Option O) × S
  | 0, s => ([], [], s)
  | k + 1, s =>
    let r := next s
    let r' := run next k r.2.2
    (r.1 ++ r'.1, r.2.1 :: r'.2.1, r'.2.2)

/-- The same for a `StreamingIterator` whose `advance` may panic. -/
def runE {S : Type w} {O : Type x} (advance : S → Except Panic (List (Event N) × S)) (get : S → Option O) :
    Nat → S → Except Panic (List (Event N) × List (Option O) × S)
  | 0, s => .ok ([], [], s)
  | k + 1, s =>
    match advance s with
    | .error e => .error e
    | .ok (es, s') =>
      match runE advance get k s' with
      | .error e => .error e
      | .ok (es', os, s'') => .ok (es ++ es', get s' :: os, s'')

end Handles

end TreeIter
