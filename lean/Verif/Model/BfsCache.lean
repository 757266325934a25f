import Verif.Model.Bfs
import Verif.Model.Leaves

/-!
# Model of the breadth-first `attach_ancestors` / `attach_context` iterators

Source: `/repo/tree_iterators_rs/src/bfs_iterators/mod.rs` and `owned.rs`,
`/repo/tree_iterators_rs/src/leaves_iterators/ancestors_breadth_first/mod.rs`.

The iterators keep the values of the nodes whose children are still to come in a cache, a tree of deques that is
rotated as the traversal moves on.  A `Vec` used as a stack is a list with its top at the head, a `VecDeque` a list
with its front at the head.
-/

universe u v w

namespace TreeIter

namespace Bfs

/-- `bfs_iterators/mod.rs` 433-438: `TreeNodeVecDeque`.  `value` is a `MaybeUninit`: `none` stands for
uninitialised.  For the ancestors iterators `β` is the value type (`path_segment` is always 0 there and never read);
for the context iterators `β` is the pair of `value` and `path_segment`, which the code always writes together. -/
inductive Cache (β : Type w) where
  | mk (value : Option β) (children : List (Option (Cache β)))

namespace Cache
variable {β : Type w}

/-- The field `value`. -/
def value : Cache β → Option β
  | .mk v _ => v

/-- The field `children`. -/
def children : Cache β → List (Option (Cache β))
  | .mk _ cs => cs

/-- `self.children = cs`. -/
def setChildren (c : Cache β) (cs : List (Option (Cache β))) : Cache β := .mk c.value cs

/-- `self.children.push_back(c)`. -/
def pushBack (c : Cache β) (d : Option (Cache β)) : Cache β := .mk c.value (c.children ++ [d])

mutual
/-- Number of cache nodes; used only to bound the number of iterations. -/
def size : Cache β → Nat
  | .mk _ cs => 1 + sizeL cs
/-- Number of cache nodes in a deque. -/
def sizeL : List (Option (Cache β)) → Nat
  | [] => 0
  | c :: cs => sizeO c + sizeL cs
/-- Number of cache nodes in an entry. -/
def sizeO : Option (Cache β) → Nat
  | none => 0
  | some c => c.size
end

end Cache

/-- `item_stack`, `traversal_stack` and `tree_cache` of `owned.rs` 159-163. -/
structure CacheState (β : Type w) where
  items : List β
  stack : List (Cache β)
  cache : Cache β

namespace CacheState
variable {β : Type w}

/-- `traversal_stack.last_mut().unwrap_or(&mut tree_cache).children`. -/
def topChildren (s : CacheState β) : List (Option (Cache β)) :=
  match s.stack with
  | [] => s.cache.children
  | t :: _ => t.children

/-- Replace the children of the top of the traversal stack (of the tree cache if it is empty). -/
def setTop (s : CacheState β) (cs : List (Option (Cache β))) : CacheState β :=
  match s.stack with
  | [] => { s with cache := s.cache.setChildren cs }
  | t :: st => { s with stack := t.setChildren cs :: st }

/-- Total number of cache nodes, used only to bound the number of iterations. -/
def total (s : CacheState β) : Nat := (s.stack.map Cache.size).sum + s.cache.size

/-- `bfs_iterators/mod.rs` 384-397 (`advance_dfs`, the part after the `None` marker was met): hand the top of the
item stack back to its cache node and move that node to the back of its parent's deque. -/
def moveUp (s : CacheState β) : Except Panic (CacheState β) :=
  match s.items, s.stack with
  | v :: i :: is, t :: st =>
    match st with
    | [] => .ok ⟨i :: is, [], s.cache.pushBack (some (.mk (some v) t.children))⟩
    | p :: st => .ok ⟨i :: is, p.pushBack (some (.mk (some v) t.children)) :: st, s.cache⟩
  | _ :: _ :: _, [] => .error .unwrapNone
  | items, t :: st =>
    match st with
    | [] => .ok ⟨items, [], s.cache.pushBack (some t)⟩
    | p :: st => .ok ⟨items, p.pushBack (some t) :: st, s.cache⟩
  | items, [] => .ok ⟨items, [], s.cache⟩

/-- `bfs_iterators/mod.rs` 346-399: `advance_dfs` (the copy in `ancestors_breadth_first/mod.rs` 7-59 has the same
effect).  `start` is `starting_depth`.  The Rust loop has no bound; the model stops with `outOfFuel`. -/
def advanceDfs (start : Nat) : Nat → CacheState β → Except Panic (CacheState β)
  | 0, _ => .error .outOfFuel
  | fuel + 1, s =>
    match s.topChildren with
    | [] => .ok s
    | some c :: rest =>
      match c.value with
      | none => .error .uninit
      | some v =>
        let s1 := s.setTop rest
        let s2 : CacheState β := ⟨v :: s1.items, .mk none c.children :: s1.stack, s1.cache⟩
        if c.children.isEmpty && decide (s2.items.length ≥ start) then .ok s2
        else advanceDfs start fuel s2
    | none :: rest =>
      match (s.setTop (if rest.isEmpty then [] else rest ++ [none])).moveUp with
      | .error e => .error e
      | .ok s1 => advanceDfs start fuel s1

/-- `bfs_iterators/mod.rs` 401-420: `pop_from_item_stack` (same effect in `ancestors_breadth_first/mod.rs` 61-76).
`get_mut(i)` counts from the bottom of the stack. -/
def popItem (s : CacheState β) : Except Panic (CacheState β) :=
  match s.items with
  | [] => .error .unreachable
  | [_] => .ok s
  | v :: i :: is =>
    let leaf : Option (Cache β) := some (.mk (some v) [])
    if is.isEmpty then .ok ⟨[i], s.stack, s.cache.pushBack leaf⟩
    else
      let k := (v :: i :: is).length - 3
      if k < s.stack.length then
        .ok ⟨i :: is, s.stack.modify (s.stack.length - 1 - k) (·.pushBack leaf), s.cache⟩
      else .error .unwrapNone

/-- `bfs_iterators/mod.rs` 303-310: pop the cache nodes that have nothing but their marker left. -/
def dropSpent : List (Cache β) → List β → List (Cache β) × List β
  | t :: st, items => if t.children.length > 1 then (t :: st, items) else dropSpent st items.tail
  | [], items => ([], items)

/-- `bfs_iterators/mod.rs` 294-313: what is done when the current child iterator is exhausted. -/
def retire (s : CacheState β) : Except Panic (CacheState β) :=
  let s1 :=
    if !s.topChildren.isEmpty then s.setTop (none :: s.topChildren)
    else
      let (st, items) := dropSpent s.stack s.items
      ⟨items, st, s.cache⟩
  advanceDfs s1.items.length (2 * s1.total + 2) s1

end CacheState

variable {N : Type u} {V : Type v}

/-! ## `attach_ancestors` -/

/-- `owned.rs` 155-164: fields of `OwnedBFSIteratorWithAncestors`. -/
structure AncState (N : Type u) (V : Type v) where
  isRoot : Bool
  cs : CacheState V
  queue : List (List N)

/-- `owned.rs` 170-188. -/
def AncState.new [SplitNode N V] (root : N) : AncState N V :=
  ⟨true, ⟨[val root], [], .mk none []⟩, [kids root]⟩

/-- `owned.rs` 84-89: `attach_ancestors` panics when the root has been taken. -/
def attachAncestors [SplitNode N V] (s : State N) : Except Panic (AncState N V) :=
  match s.root with
  | none => .error .attachMidTraversal
  | some root => .ok (AncState.new root)

/-- `mod.rs` 281-283. -/
def settle (cs : CacheState V) : Except Panic (CacheState V) :=
  if cs.items.length = cs.stack.length + 2 then cs.popItem else .ok cs

/-- `mod.rs` 280-319: the loop of `advance`. -/
def ancLoop [SplitNode N V] (queue : List (List N)) (cs : CacheState V) : Except Panic (AncState N V) :=
    match settle cs with
    | .error e => .error e
    | .ok cs =>
      match queue with
      | [] => .error .indexOutOfRange
      | (n :: ns) :: q => .ok ⟨false, { cs with items := val n :: cs.items }, (ns :: q) ++ [kids n]⟩
      | [] :: q =>
        match cs.retire with
        | .error e => .error e
        | .ok cs =>
          if q.isEmpty then .ok ⟨false, { cs with items := [] }, []⟩
          else ancLoop q cs
termination_by queue.length

/-- `mod.rs` 274-320: `advance`. -/
def ancAdvance [SplitNode N V] (s : AncState N V) : Except Panic (AncState N V) :=
  if s.isRoot then .ok { s with isRoot := false } else ancLoop s.queue s.cs

/-- `mod.rs` 322-328: `get`. -/
def ancGet (s : AncState N V) : Option (List V) :=
  if s.cs.items.length = 0 then none else some s.cs.items.reverse

/-- `StreamingIterator::next`. -/
def ancNext [SplitNode N V] : AncState N V → Except Panic (Option (List V) × AncState N V) :=
  streamNextE ancAdvance ancGet

/-! ## `attach_ancestors().leaves()` -/

theorem stackNodes_push [TreeNode N V] (n : N) (ns : List N) (q : List (List N)) :
    stackNodes ((n :: ns) :: q) = 1 + stackNodes ((ns :: q) ++ [kids n]) := by
  have := TreeIter.size_unfold n
  simp only [stackNodes, List.map_cons, List.sum_cons, List.cons_append, List.map_append, List.sum_append,
    List.map_nil, List.sum_nil]
  omega

/-- `owned.rs` 191-203 (`leaves`) keeps the fields; `ancestors_breadth_first/mod.rs` 95-147: `advance`.  `Peekable` is
not visible: an iterator is the list of items left. -/
def lvLoop [TreeNode N V] (isRoot : Bool) (queue : List (List N)) (cs : CacheState V) :
    Except Panic (AncState N V) :=
  match queue with
  | [] => .ok ⟨isRoot, { cs with items := [] }, []⟩
  | it :: q =>
    match settle cs with
    | .error e => .error e
    | .ok cs =>
      match it with
      | n :: ns =>
        if (kids n).isEmpty then .ok ⟨false, { cs with items := val n :: cs.items }, (ns :: q) ++ [kids n]⟩
        else lvLoop false ((ns :: q) ++ [kids n]) { cs with items := val n :: cs.items }
      | [] =>
        if isRoot then .ok ⟨false, cs, [] :: q⟩
        else
          match cs.retire with
          | .error e => .error e
          | .ok cs => lvLoop isRoot q cs
termination_by 2 * stackNodes queue + queue.length
decreasing_by
  · have := stackNodes_push n ns q
    simp only [List.length_append, List.length_cons, List.length_nil]
    omega
  · simp only [stackNodes, List.map_cons, List.sum_cons, List.map_nil, List.sum_nil, List.length_cons]
    omega

/-- `ancestors_breadth_first/mod.rs` 95-147: `advance`. -/
def lvAdvance [TreeNode N V] (s : AncState N V) : Except Panic (AncState N V) := lvLoop s.isRoot s.queue s.cs

/-- `StreamingIterator::next`; `get` (149-155) is that of `attach_ancestors`. -/
def lvNext [TreeNode N V] : AncState N V → Except Panic (Option (List V) × AncState N V) :=
  streamNextE lvAdvance ancGet

end Bfs

end TreeIter
