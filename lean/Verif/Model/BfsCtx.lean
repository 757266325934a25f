import Verif.Model.BfsCache

/-!
# Model of the breadth-first `attach_context` iterators

Source: `/repo/tree_iterators_rs/src/bfs_iterators/mod.rs` 28-270 and `owned.rs` 100-153, 347-410.

The cache is that of `BfsCache` with entries that hold `value` and `path_segment`; `current_context.ancestors` and
`current_context.path` are two separate stacks that are pushed and popped together.
-/

universe u v w

namespace TreeIter

namespace Bfs

variable {N : Type u} {V : Type v} {C : Type w}

/-- `tree_cache`, `traversal_stack` and the `ancestors` and `path` of `current_context` (`owned.rs` 104-109). -/
structure CtxCache (V : Type v) where
  ancestors : List V
  path : List Nat
  stack : List (Cache (V × Nat))
  cache : Cache (V × Nat)

namespace CtxCache

/-- `traversal_stack.last_mut().unwrap_or(&mut tree_cache).children`. -/
def topChildren (s : CtxCache V) : List (Option (Cache (V × Nat))) :=
  match s.stack with
  | [] => s.cache.children
  | t :: _ => t.children

/-- Replace the children of the top of the traversal stack (of the tree cache if it is empty). -/
def setTop (s : CtxCache V) (cs : List (Option (Cache (V × Nat)))) : CtxCache V :=
  match s.stack with
  | [] => { s with cache := s.cache.setChildren cs }
  | t :: st => { s with stack := t.setChildren cs :: st }

/-- `traversal_stack.last_mut().unwrap_or(&mut tree_cache).children.push_back(c)`. -/
def pushTop (s : CtxCache V) (c : Cache (V × Nat)) : CtxCache V := s.setTop (s.topChildren ++ [some c])

/-- Total number of cache nodes, used only to bound the number of iterations. -/
def total (s : CtxCache V) : Nat := (s.stack.map Cache.size).sum + s.cache.size

/-- `mod.rs` 156-161: give the value and path segment back to the top of the traversal stack. -/
def giveBack (s : CtxCache V) : Except Panic (CtxCache V) :=
  match s.ancestors with
  | v :: a :: as =>
    match s.stack with
    | [] => .error .unwrapNone
    | t :: st =>
      match s.path with
      | [] => .error .unwrapNone
      | p :: ps => .ok ⟨a :: as, ps, .mk (some (v, p)) t.children :: st, s.cache⟩
  | _ => .ok s

/-- `mod.rs` 163-170: move the top of the traversal stack to the back of its parent's deque. -/
def popToParent (s : CtxCache V) : CtxCache V :=
  match s.stack with
  | [] => s
  | t :: st => pushTop { s with stack := st } t

/-- `mod.rs` 112-173: `advance_dfs`; `start` is `starting_depth`.  The Rust loop has no bound; the model stops with
`outOfFuel`. -/
def advanceDfs (start : Nat) : Nat → CtxCache V → Except Panic (CtxCache V)
  | 0, _ => .error .outOfFuel
  | fuel + 1, s =>
    match s.topChildren with
    | [] => .ok s
    | some c :: rest =>
      match c.value with
      | none => .error .uninit
      | some (v, p) =>
        let s1 := s.setTop rest
        let s2 : CtxCache V := ⟨v :: s1.ancestors, p :: s1.path, .mk none c.children :: s1.stack, s1.cache⟩
        if c.children.isEmpty && decide (s2.ancestors.length ≥ start) then .ok s2
        else advanceDfs start fuel s2
    | none :: rest =>
      match (s.setTop (if rest.isEmpty then [] else rest ++ [none])).giveBack with
      | .error e => .error e
      | .ok s1 => advanceDfs start fuel s1.popToParent

/-- `mod.rs` 175-192: `pop_from_item_stack`.  `get_mut(i)` counts from the bottom of the stack. -/
def popItem (s : CtxCache V) : Except Panic (CtxCache V) :=
  match s.ancestors with
  | [] => .error .unreachable
  | [_] => .ok s
  | [v, a] =>
    match s.path with
    | [] => .error .unwrapNone
    | p :: ps => .ok ⟨[a], ps, s.stack, s.cache.pushBack (some (.mk (some (v, p)) []))⟩
  | v :: a :: b :: as =>
    let k := (v :: a :: b :: as).length - 3
    if k < s.stack.length then
      match s.path with
      | [] => .error .unwrapNone
      | p :: ps =>
        .ok ⟨a :: b :: as, ps,
          s.stack.modify (s.stack.length - 1 - k) (·.pushBack (some (.mk (some (v, p)) []))), s.cache⟩
    else .error .unwrapNone

/-- `mod.rs` 66-74: pop the cache nodes that have nothing but their marker left. -/
def dropSpent : List (Cache (V × Nat)) → List V → List Nat → List (Cache (V × Nat)) × List V × List Nat
  | t :: st, anc, path => if t.children.length > 1 then (t :: st, anc, path) else dropSpent st anc.tail path.tail
  | [], anc, path => ([], anc, path)

/-- `mod.rs` 57-77 (binary: 223-247): what is done when the current child iterator is exhausted. -/
def retire (s : CtxCache V) : Except Panic (CtxCache V) :=
  let s1 :=
    if !s.topChildren.isEmpty then s.setTop (none :: s.topChildren)
    else
      let (st, anc, path) := dropSpent s.stack s.ancestors s.path
      ⟨anc, path, st, s.cache⟩
  advanceDfs s1.ancestors.length (2 * s1.total + 2) s1

/-- `mod.rs` 43-45. -/
def settle (s : CtxCache V) : Except Panic (CtxCache V) :=
  if s.ancestors.length = s.stack.length + 2 then s.popItem else .ok s

end CtxCache

/-- `owned.rs` 100-110: fields of `OwnedBFSIteratorWithContext`; `I` is what an iterator in the queue still has to yield
and `C` the type of `current_context.children`. -/
structure CtxState (V : Type v) (C : Type w) (I : Type u) where
  isRoot : Bool
  cc : CtxCache V
  children : Option C
  queue : List (List I)
  counter : Nat

/-- `self.path_counter += 1` with overflow checks. -/
def checkedSucc (n : Nat) : Except Panic Nat := if n + 1 < 2 ^ 64 then .ok (n + 1) else .error .overflow

/-- `mod.rs` 90-96: `get`. -/
def ctxGet {I : Type u} (s : CtxState V C I) : Option (Ctx V C) :=
  if s.cc.ancestors.isEmpty then none else some ⟨s.cc.path.reverse, s.cc.ancestors.reverse, s.children⟩

/-- `owned.rs` 116-136: `new`, with the path given (that of the root). -/
def CtxState.new [SplitNode N V] (root : N) (path : List Nat) : CtxState V (List N) N :=
  ⟨true, ⟨[val root], path.reverse, [], .mk none []⟩, some (kids root), [], 0⟩

/-- `owned.rs` 76-81: `attach_context` panics when the root has been taken. -/
def attachContext [SplitNode N V] (s : State N) : Except Panic (CtxState V (List N) N) :=
  match s.root with
  | none => .error .attachMidTraversal
  | some root => .ok (CtxState.new root [])

/-- `mod.rs` 42-87: the loop of `advance`. -/
def ctxLoop [SplitNode N V] (queue : List (List N)) (cc : CtxCache V) (counter : Nat) :
    Except Panic (CtxState V (List N) N) :=
  match cc.settle with
  | .error e => .error e
  | .ok cc =>
    match queue with
    | [] => .error .indexOutOfRange
    | (n :: ns) :: q =>
      match checkedSucc counter with
      | .error e => .error e
      | .ok counter' =>
        .ok ⟨false, ⟨val n :: cc.ancestors, counter :: cc.path, cc.stack, cc.cache⟩, some (kids n), ns :: q, counter'⟩
    | [] :: q =>
      match cc.retire with
      | .error e => .error e
      | .ok cc => if q.isEmpty then .ok ⟨false, { cc with ancestors := [] }, none, [], 0⟩ else ctxLoop q cc 0
termination_by queue.length

/-- `mod.rs` 30-88: `advance`. -/
def ctxAdvance [SplitNode N V] (s : CtxState V (List N) N) : Except Panic (CtxState V (List N) N) :=
  if s.isRoot then .ok { s with isRoot := false }
  else if s.cc.ancestors.isEmpty then .ok s
  else
    match s.children with
    | none => .error .unwrapNone
    | some cs => ctxLoop (s.queue ++ [cs]) s.cc s.counter

/-- `StreamingIterator::next`. -/
def ctxNext [SplitNode N V] : CtxState V (List N) N → Except Panic (Option (Ctx V (List N)) × CtxState V (List N) N) :=
  streamNextE ctxAdvance ctxGet

/-! ## Binary -/

/-- `owned.rs` 365-385: `new` of the binary iterator, with the path given. -/
def CtxState.binNew [SplitNode2 N V] (root : N) (path : List Nat) : CtxState V (Option N × Option N) (Option N) :=
  ⟨true, ⟨[val2 root], path.reverse, [], .mk none []⟩, some (split2 root).2, [], 0⟩

/-- `owned.rs` 277-282: `attach_context` of the binary iterator. -/
def binAttachContext [SplitNode2 N V] (s : State N) : Except Panic (CtxState V (Option N × Option N) (Option N)) :=
  match s.root with
  | none => .error .attachMidTraversal
  | some root => .ok (CtxState.binNew root [])

/-- `mod.rs` 217-230: `while let Some(next) = iter.next()`: skip the empty slots, counting them.  Returns the node
found, the slots left and the counter. -/
def binScan : List (Option N) → Nat → Except Panic (Option N × List (Option N) × Nat)
  | [], counter => .ok (none, [], counter)
  | none :: ss, counter =>
    match checkedSucc counter with
    | .error e => .error e
    | .ok counter => binScan ss counter
  | some n :: ss, counter => .ok (some n, ss, counter)

/-- `mod.rs` 210-257: the loop of the binary `advance`. -/
def binCtxLoop [SplitNode2 N V] (queue : List (List (Option N))) (cc : CtxCache V) (counter : Nat) :
    Except Panic (CtxState V (Option N × Option N) (Option N)) :=
  match cc.settle with
  | .error e => .error e
  | .ok cc =>
    match queue with
    | [] => .error .indexOutOfRange
    | it :: q =>
      match binScan it counter with
      | .error e => .error e
      | .ok (some n, ss, counter) =>
        match checkedSucc counter with
        | .error e => .error e
        | .ok counter' =>
          .ok ⟨false, ⟨val2 n :: cc.ancestors, counter :: cc.path, cc.stack, cc.cache⟩, some (split2 n).2, ss :: q,
            counter'⟩
      | .ok (none, _, _) =>
        match cc.retire with
        | .error e => .error e
        | .ok cc => if q.isEmpty then .ok ⟨false, { cc with ancestors := [] }, none, [], 0⟩ else binCtxLoop q cc 0
termination_by queue.length

/-- `mod.rs` 198-258: the binary `advance`; `children.into_iter()` walks over the two slots. -/
def binCtxAdvance [SplitNode2 N V] (s : CtxState V (Option N × Option N) (Option N)) :
    Except Panic (CtxState V (Option N × Option N) (Option N)) :=
  if s.isRoot then .ok { s with isRoot := false }
  else if s.cc.ancestors.isEmpty then .ok s
  else
    match s.children with
    | none => .error .unwrapNone
    | some (l, r) => binCtxLoop (s.queue ++ [[l, r]]) s.cc s.counter

/-- `StreamingIterator::next`. -/
def binCtxNext [SplitNode2 N V] : CtxState V (Option N × Option N) (Option N) →
    Except Panic (Option (Ctx V (Option N × Option N)) × CtxState V (Option N × Option N) (Option N)) :=
  streamNextE binCtxAdvance ctxGet

end Bfs

end TreeIter
