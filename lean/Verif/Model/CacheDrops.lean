import Verif.Model.Handles

/-!
# Model of the lifetime of the values in the breadth-first caches

The machines of `BfsCache` and `BfsCtx` once more, with a log of the values they take from nodes and of the values they
drop.  `Handles.Event` is used with values in the place of nodes: `opened v` means that `get_value_and_children`
returned the value `v`, and `dropped v` that `v` was dropped.  Only two places in `advance` drop values: the `pop` of
the stack of values whose result is not used, and the final `clear`.  `advance_dfs` and `pop_from_item_stack` move values
between the stack of values and the cache.  When the iterator itself is dropped, the values on the stack are dropped;
the values in the cache are in a `MaybeUninit` (`bfs_iterators/mod.rs` 433-438), which never drops its content, and no
iterator implements `Drop`.
-/

universe u v w

namespace TreeIter

namespace Bfs

open Handles (Event)

/-! ## Values in the cache -/

namespace Cache
variable {β : Type w}

mutual
/-- The values held by a cache node. -/
def vals : Cache β → List β
  | .mk v cs => v.toList ++ valsL cs
/-- The values held by the entries of a deque. -/
def valsL : List (Option (Cache β)) → List β
  | [] => []
  | c :: cs => valsO c ++ valsL cs
/-- The values held by an entry. -/
def valsO : Option (Cache β) → List β
  | none => []
  | some c => c.vals
end

end Cache

/-- The values held by `tree_cache` and `traversal_stack`. -/
def CacheState.kept {β : Type w} (s : CacheState β) : List β := s.stack.flatMap Cache.vals ++ s.cache.vals

/-- The same for contexts. -/
def CtxCache.kept {V : Type v} (s : CtxCache V) : List V :=
  (s.stack.flatMap Cache.vals ++ s.cache.vals).map Prod.fst

/-! ## Values dropped when an iterator of children is exhausted -/

/-- `bfs_iterators/mod.rs` 303-310 (contexts: 69-77, 242-250): the values dropped by `self.item_stack.pop()`, one for each
cache node popped.  (A popped cache node is dropped too; should it hold values, they are lost.) -/
def spent {β γ : Type w} : List (Cache β) → List γ → List γ
  | t :: st, items => if t.children.length > 1 then [] else items.head?.toList ++ spent st items.tail
  | [], _ => []

/-- `mod.rs` 294-311: the values dropped by `CacheState.retire`. -/
def CacheState.retireDrops {β : Type w} (s : CacheState β) : List β :=
  if !s.topChildren.isEmpty then [] else spent s.stack s.items

/-- `mod.rs` 61-78: the values dropped by `CtxCache.retire`. -/
def CtxCache.retireDrops {V : Type v} (s : CtxCache V) : List V :=
  if !s.topChildren.isEmpty then [] else spent s.stack s.ancestors

variable {N : Type u} {V : Type v}

/-- `mod.rs` 280-319 with the log. -/
def ancLoopD [SplitNode N V] (queue : List (List N)) (cs : CacheState V) : Except Panic (List (Event V) × AncState N V) :=
    match settle cs with
    | .error e => .error e
    | .ok cs =>
      match queue with
      | [] => .error .indexOutOfRange
      | (n :: ns) :: q =>
        .ok ([.opened (val n)], ⟨false, { cs with items := val n :: cs.items }, (ns :: q) ++ [kids n]⟩)
      | [] :: q =>
        match cs.retire with
        | .error e => .error e
        | .ok cs' =>
          if q.isEmpty then
            .ok (cs.retireDrops.map .dropped ++ cs'.items.map .dropped, ⟨false, { cs' with items := [] }, []⟩)
          else
            match ancLoopD q cs' with
            | .error e => .error e
            | .ok (es, s) => .ok (cs.retireDrops.map .dropped ++ es, s)
termination_by queue.length

/-- `mod.rs` 274-320 with the log. -/
def ancAdvanceD [SplitNode N V] (s : AncState N V) : Except Panic (List (Event V) × AncState N V) :=
  if s.isRoot then .ok ([], { s with isRoot := false }) else ancLoopD s.queue s.cs

/-- `owned.rs` 170-188 with the log: `new` takes the value of the root. -/
def ancNewD [SplitNode N V] (root : N) : List (Event V) × AncState N V :=
  ([.opened (val root)], AncState.new root)

/-- `mod.rs` 42-87 with the log. -/
def ctxLoopD [SplitNode N V] (queue : List (List N)) (cc : CtxCache V) (counter : Nat) :
    Except Panic (List (Event V) × CtxState V (List N) N) :=
  match cc.settle with
  | .error e => .error e
  | .ok cc =>
    match queue with
    | [] => .error .indexOutOfRange
    | (n :: ns) :: q =>
      match checkedSucc counter with
      | .error e => .error e
      | .ok counter' =>
        .ok ([.opened (val n)],
          ⟨false, ⟨val n :: cc.ancestors, counter :: cc.path, cc.stack, cc.cache⟩, some (kids n), ns :: q, counter'⟩)
    | [] :: q =>
      match cc.retire with
      | .error e => .error e
      | .ok cc' =>
        if q.isEmpty then
          .ok (cc.retireDrops.map .dropped ++ cc'.ancestors.map .dropped,
            ⟨false, { cc' with ancestors := [] }, none, [], 0⟩)
        else
          match ctxLoopD q cc' 0 with
          | .error e => .error e
          | .ok (es, s) => .ok (cc.retireDrops.map .dropped ++ es, s)
termination_by queue.length

/-- `mod.rs` 30-88 with the log. -/
def ctxAdvanceD [SplitNode N V] (s : CtxState V (List N) N) : Except Panic (List (Event V) × CtxState V (List N) N) :=
  if s.isRoot then .ok ([], { s with isRoot := false })
  else if s.cc.ancestors.isEmpty then .ok ([], s)
  else
    match s.children with
    | none => .error .unwrapNone
    | some cs => ctxLoopD (s.queue ++ [cs]) s.cc s.counter

/-- `owned.rs` 116-136 with the log. -/
def ctxNewD [SplitNode N V] (root : N) : List (Event V) × CtxState V (List N) N :=
  ([.opened (val root)], CtxState.new root [])

/-- `mod.rs` 210-257 with the log. -/
def binCtxLoopD [SplitNode2 N V] (queue : List (List (Option N))) (cc : CtxCache V) (counter : Nat) :
    Except Panic (List (Event V) × CtxState V (Option N × Option N) (Option N)) :=
  match cc.settle with
  | .error e => .error e
  | .ok cc =>
    match queue with
    | [] => .error .indexOutOfRange
    | it :: q =>
      match binScan it counter with
      | .error e => .error e
      | .ok (some n, ss, counter) =>
        match checkedSucc counter with
        | .error e => .error e
        | .ok counter' =>
          .ok ([.opened (val2 n)],
            ⟨false, ⟨val2 n :: cc.ancestors, counter :: cc.path, cc.stack, cc.cache⟩, some (split2 n).2, ss :: q,
              counter'⟩)
      | .ok (none, _, _) =>
        match cc.retire with
        | .error e => .error e
        | .ok cc' =>
          if q.isEmpty then
            .ok (cc.retireDrops.map .dropped ++ cc'.ancestors.map .dropped,
              ⟨false, { cc' with ancestors := [] }, none, [], 0⟩)
          else
            match binCtxLoopD q cc' 0 with
            | .error e => .error e
            | .ok (es, s) => .ok (cc.retireDrops.map .dropped ++ es, s)
termination_by queue.length

/-- `mod.rs` 198-258 with the log. -/
def binCtxAdvanceD [SplitNode2 N V] (s : CtxState V (Option N × Option N) (Option N)) :
    Except Panic (List (Event V) × CtxState V (Option N × Option N) (Option N)) :=
  if s.isRoot then .ok ([], { s with isRoot := false })
  else if s.cc.ancestors.isEmpty then .ok ([], s)
  else
    match s.children with
    | none => .error .unwrapNone
    | some (l, r) => binCtxLoopD (s.queue ++ [[l, r]]) s.cc s.counter

/-- `owned.rs` 365-385 with the log. -/
def binCtxNewD [SplitNode2 N V] (root : N) : List (Event V) × CtxState V (Option N × Option N) (Option N) :=
  ([.opened (val2 root)], CtxState.binNew root [])

end Bfs

end TreeIter
