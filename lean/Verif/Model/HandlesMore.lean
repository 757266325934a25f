import Verif.Model.Handles
import Verif.Model.Leaves
import Verif.Model.BfsCache

/-!
# Model of the ownership of child collections: ancestors and leaves

As `Handles`, for the iterators with ancestors and those over leaves.
-/

universe u v w x

namespace TreeIter

namespace Handles

variable {N : Type u} {V : Type v}

/-- `pop` of a stack whose result is not used drops the top, if there is one. -/
def popped : List (Handle N) → List (Event N)
  | [] => []
  | h :: _ => [.dropped h.owner]

/-! ## `dfs_preorder().attach_ancestors()` -/

/-- `dfs_preorder_iterators/owned.rs` 291-298. -/
structure PreAnc (N : Type u) (V : Type v) where
  root : Option N
  stack : List (Handle N)
  items : List V

/-- `dfs_preorder_iterators/mod.rs` 124-135; `traversal_stack.pop()` drops the exhausted iterator. -/
def preAncLoop : List (Handle N) → List V → List (Event N) × Option N × List (Handle N) × List V
  | [], it => ([], none, [], it)
  | ⟨o, []⟩ :: rest, it => (.dropped o :: (preAncLoop rest it.tail).1, (preAncLoop rest it.tail).2)
  | ⟨o, n :: ns⟩ :: rest, it => ([], some n, ⟨o, ns⟩ :: rest, it)

def PreAnc.live (s : PreAnc N V) : List N := owners s.stack

def PreAnc.erase (s : PreAnc N V) : Preorder.AncState N V := ⟨s.root, bare s.stack, s.items⟩

/-- `dfs_preorder_iterators/mod.rs` 114-142 (`advance`). -/
def preAncAdvance [SplitNode N V] (s : PreAnc N V) : List (Event N) × PreAnc N V :=
  match s.root with
  | some root => ([.opened root], ⟨none, handle root :: s.stack, val root :: s.items⟩)
  | none =>
    match preAncLoop s.stack s.items with
    | (es, none, st, it) => (es, ⟨none, st, it⟩)
    | (es, some n, st, it) => (es ++ [.opened n], ⟨none, handle n :: st, val n :: it⟩)

/-- `StreamingIterator::next`: `advance`, then `get`. -/
def streamed {S : Type w} {T : Type w} {O : Type x} (advance : S → List (Event N) × S) (erase : S → T) (get : T → Option O)
    (s : S) : List (Event N) × Option O × S :=
  let r := advance s
  (r.1, get (erase r.2), r.2)

/-! ## `dfs_postorder().attach_ancestors()` -/

/-- `dfs_postorder_iterators/owned.rs` 189-196. -/
structure PostAnc (N : Type u) (V : Type v) where
  root : Option N
  items : List V
  stack : List (Handle N)

/-- `dfs_postorder_iterators/mod.rs` 58-69. -/
def postAncLoop [TreeNode N V] : List (Handle N) → List V → List (Event N) × List V × List (Handle N)
  | [], items => ([], items, [])
  | ⟨o, []⟩ :: rest, items => ([.dropped o], items, rest)
  | ⟨o, n :: ns⟩ :: rest, items =>
    let r := postAncLoop (handle n :: ⟨o, ns⟩ :: rest) (val n :: items)
    (.opened n :: r.1, r.2)
termination_by st => topSize st
decreasing_by exact topSize_handle_lt ..

def PostAnc.live (s : PostAnc N V) : List N := owners s.stack

def PostAnc.erase (s : PostAnc N V) : Postorder.AncState N V := ⟨s.root, s.items, bare s.stack⟩

/-- `dfs_postorder_iterators/mod.rs` 47-70 (`advance`). -/
def postAncAdvance [TreeNode N V] (s : PostAnc N V) : List (Event N) × PostAnc N V :=
  match s.root with
  | some root =>
    let r := postAncLoop (handle root :: s.stack) (val root :: s.items)
    (.opened root :: r.1, ⟨none, r.2.1, r.2.2⟩)
  | none =>
    let r := postAncLoop s.stack s.items.tail
    (r.1, ⟨none, r.2.1, r.2.2⟩)

/-! ## `bfs().attach_ancestors()` -/

/-- `bfs_iterators/owned.rs` 155-164. -/
structure BfsAncH (N : Type u) (V : Type v) where
  isRoot : Bool
  cs : Bfs.CacheState V
  queue : List (Handle N)

/-- `bfs_iterators/owned.rs` 170-188: the root is opened when the iterator is made. -/
def BfsAncH.new [SplitNode N V] (root : N) : List (Event N) × BfsAncH N V :=
  ([.opened root], ⟨true, ⟨[val root], [], .mk none []⟩, [handle root]⟩)

/-- `bfs_iterators/mod.rs` 280-319; `iterator_queue.pop_front()` drops the exhausted iterator. -/
def bfsAncLoop [SplitNode N V] (queue : List (Handle N)) (cs : Bfs.CacheState V) :
    Except Panic (List (Event N) × BfsAncH N V) :=
  match Bfs.settle cs with
  | .error e => .error e
  | .ok cs =>
    match queue with
    | [] => .error .indexOutOfRange
    | ⟨o, n :: ns⟩ :: q =>
      .ok ([.opened n], ⟨false, { cs with items := val n :: cs.items }, (⟨o, ns⟩ :: q) ++ [handle n]⟩)
    | ⟨o, []⟩ :: q =>
      match cs.retire with
      | .error e => .error e
      | .ok cs =>
        if q.isEmpty then .ok ([.dropped o], ⟨false, { cs with items := [] }, []⟩)
        else
          match bfsAncLoop q cs with
          | .error e => .error e
          | .ok (es, s) => .ok (.dropped o :: es, s)
termination_by queue.length

/-- `bfs_iterators/mod.rs` 274-320. -/
def bfsAncAdvance [SplitNode N V] (s : BfsAncH N V) : Except Panic (List (Event N) × BfsAncH N V) :=
  if s.isRoot then .ok ([], { s with isRoot := false }) else bfsAncLoop s.queue s.cs

def BfsAncH.live (s : BfsAncH N V) : List N := owners s.queue

def BfsAncH.erase (s : BfsAncH N V) : Bfs.AncState N V := ⟨s.isRoot, s.cs, bare s.queue⟩

/-! ## `bfs().attach_ancestors().leaves()` -/

/-- `bfs_iterators/owned.rs` 191-203 (`leaves`) keeps the fields; `ancestors_breadth_first/mod.rs` 95-147 (`advance`). -/
def lvLoop [TreeNode N V] (isRoot : Bool) (queue : List (Handle N)) (cs : Bfs.CacheState V) :
    Except Panic (List (Event N) × BfsAncH N V) :=
  match queue with
  | [] => .ok ([], ⟨isRoot, { cs with items := [] }, []⟩)
  | it :: q =>
    match Bfs.settle cs with
    | .error e => .error e
    | .ok cs =>
      match it with
      | ⟨o, n :: ns⟩ =>
        if (kids n).isEmpty then
          .ok ([.opened n], ⟨false, { cs with items := val n :: cs.items }, (⟨o, ns⟩ :: q) ++ [handle n]⟩)
        else
          match lvLoop false ((⟨o, ns⟩ :: q) ++ [handle n]) { cs with items := val n :: cs.items } with
          | .error e => .error e
          | .ok (es, s) => .ok (.opened n :: es, s)
      | ⟨o, []⟩ =>
        if isRoot then .ok ([], ⟨false, cs, ⟨o, []⟩ :: q⟩)
        else
          match cs.retire with
          | .error e => .error e
          | .ok cs =>
            match lvLoop isRoot q cs with
            | .error e => .error e
            | .ok (es, s) => .ok (.dropped o :: es, s)
termination_by 2 * stackNodes (bare queue) + queue.length
decreasing_by
  · have := Bfs.stackNodes_push n ns (bare q)
    simp only [bare, List.map_cons, List.cons_append, List.map_append, List.map_nil, handle, List.length_append,
      List.length_cons, List.length_nil] at *
    omega
  · simp only [bare, stackNodes, List.map_cons, List.sum_cons, List.map_nil, List.sum_nil, List.length_cons]
    omega

/-- `ancestors_breadth_first/mod.rs` 95-147 (`advance`). -/
def lvAdvance [TreeNode N V] (s : BfsAncH N V) : Except Panic (List (Event N) × BfsAncH N V) :=
  lvLoop s.isRoot s.queue s.cs

/-! ## `bfs().leaves()` -/

/-- `leaves_iterators/breadth_first/owned.rs`: fields of `OwnedLeavesIterator`. -/
structure BfsLv (N : Type u) where
  root : Option N
  old : List (Handle N)
  new : List (Handle N)

/-- `leaves_iterators/breadth_first/mod.rs` 21-39. -/
def bfsLvLoopNew [SplitNode N V] : List (Handle N) → List (Event N) × Option (Bool × V) × BfsLv N
  | [] => ([], none, ⟨none, [], []⟩)
  | ⟨o, []⟩ :: rest => (.dropped o :: (bfsLvLoopNew rest).1, (bfsLvLoopNew rest).2)
  | ⟨o, n :: ns⟩ :: rest =>
    ([.opened n], some (!(kids n).isEmpty, val n), ⟨none, [], (⟨o, ns⟩ :: rest) ++ [handle n]⟩)

/-- `leaves_iterators/breadth_first/mod.rs` 17-57. -/
def bfsLvLoop [SplitNode N V] (new : List (Handle N)) : List (Handle N) → List (Event N) × Option (Bool × V) × BfsLv N
  | [] => bfsLvLoopNew new
  | ⟨o, []⟩ :: rest => (.dropped o :: (bfsLvLoop new rest).1, (bfsLvLoop new rest).2)
  | ⟨o, n :: ns⟩ :: rest =>
    ([.opened n], some (!(kids n).isEmpty, val n), ⟨none, ⟨o, ns⟩ :: rest, new ++ [handle n]⟩)

/-- `leaves_iterators/breadth_first/mod.rs` 5-61. -/
def bfsLvStep [SplitNode N V] (s : BfsLv N) : List (Event N) × Option (Bool × V) × BfsLv N :=
  match s.root with
  | some root => ([.opened root], some (!(kids root).isEmpty, val root), ⟨none, s.old, s.new ++ [handle root]⟩)
  | none => bfsLvLoop s.new s.old

def BfsLv.live (s : BfsLv N) : List N := owners s.old ++ owners s.new

def BfsLv.erase (s : BfsLv N) : Bfs.LeavesState N := ⟨s.root, bare s.old, bare s.new⟩

theorem bfsLvStep_erase [SplitNode N V] (s : BfsLv N) :
    Bfs.leavesBfsNext s.erase = ((bfsLvStep s).2.1, (bfsLvStep s).2.2.erase) := by
  obtain ⟨root, old, new⟩ := s
  have hnew : ∀ q : List (Handle N), Bfs.leavesLoopNew (bare q) = ((bfsLvLoopNew q).2.1, (bfsLvLoopNew q).2.2.erase) := by
    intro q
    induction q with
    | nil => rfl
    | cons h rest ih =>
      obtain ⟨o, _ | ⟨n, ns⟩⟩ := h
      · exact ih
      · simp [bare, Bfs.leavesLoopNew, bfsLvLoopNew, BfsLv.erase, handle]
  cases root with
  | some r => simp [Bfs.leavesBfsNext, BfsLv.erase, bfsLvStep, bare, handle]
  | none =>
    change Bfs.leavesLoop (bare new) (bare old) = ((bfsLvLoop new old).2.1, (bfsLvLoop new old).2.2.erase)
    induction old with
    | nil => exact hnew new
    | cons h rest ih =>
      obtain ⟨o, _ | ⟨n, ns⟩⟩ := h
      · exact ih
      · simp [bare, Bfs.leavesLoop, bfsLvLoop, BfsLv.erase, handle]

/-- `leaves_iterators/breadth_first/mod.rs` 63-80. -/
def bfsLvNext [TreeNode N V] (s : BfsLv N) : List (Event N) × Option V × BfsLv N :=
  match _h : bfsLvStep s with
  | (es, none, s') => (es, none, s')
  | (es, some (true, _), s') => (es ++ (bfsLvNext s').1, (bfsLvNext s').2)
  | (es, some (false, v), s') => (es, some v, s')
termination_by s.erase.pending
decreasing_by
  all_goals
    have := bfsLvStep_erase s
    rw [_h] at this
    exact Bfs.leavesBfsNext_pending _ _ _ this

/-! ## `leaves()`, depth first -/

/-- `leaves_iterators/depth_first/owned.rs` 6-14. -/
structure Lv (N : Type u) (V : Type v) where
  root : Option N
  bottom : List (Handle N)
  top : List (Handle N)
  items : List V

/-- `leaves_iterators/depth_first/mod.rs` 19-44. -/
def dfsLvLoop [TreeNode N V] :
    (bottom top : List (Handle N)) → (items : List V) → (just : Bool) → List (Event N) × Option V × Lv N V
  | bottom, ⟨o, n :: ns⟩ :: top, items, _ =>
    let r := dfsLvLoop bottom (handle n :: ⟨o, ns⟩ :: top) (val n :: items) true
    (.opened n :: r.1, r.2)
  | bottom, ⟨o, []⟩ :: top, items, true => ([.dropped o], items.head?, ⟨none, bottom, top, items.tail⟩)
  | bottom, ⟨o, []⟩ :: top, items, false =>
    let r := dfsLvLoop bottom top items.tail false
    (.dropped o :: r.1, r.2)
  | ⟨o, n :: ns⟩ :: bottom, [], items, just =>
    let r := dfsLvLoop (⟨o, ns⟩ :: bottom) [handle n] (val n :: items) just
    (.opened n :: r.1, r.2)
  | ⟨o, []⟩ :: bottom, [], items, just =>
    let r := dfsLvLoop bottom [] items just
    (.dropped o :: r.1, r.2)
  | [], [], items, _ => ([], none, ⟨none, [], [], items⟩)
termination_by bottom top => 2 * (stackNodes (bare bottom) + stackNodes (bare top)) + bottom.length + top.length
decreasing_by
  all_goals
    try have hs := size_unfold n
    simp only [bare, handle, stackNodes, List.map_cons, List.sum_cons, List.length_cons, List.map_nil, List.sum_nil,
      List.length_nil] at *
    omega

/-- `leaves_iterators/depth_first/mod.rs` 5-47. -/
def dfsLvNext [TreeNode N V] (s : Lv N V) : List (Event N) × Option V × Lv N V :=
  match s.root with
  | some root =>
    let r := dfsLvLoop s.bottom (handle root :: s.top) (val root :: s.items) true
    (.opened root :: r.1, r.2)
  | none => dfsLvLoop s.bottom s.top s.items false

def Lv.live (s : Lv N V) : List N := owners s.bottom ++ owners s.top

def Lv.erase (s : Lv N V) : Leaves.State N V := ⟨s.root, bare s.bottom, bare s.top, s.items⟩

/-! ## `attach_ancestors().leaves()`, depth first -/

/-- `leaves_iterators/ancestors_depth_first/owned.rs` 7-16. -/
structure LvAnc (N : Type u) (V : Type v) where
  root : Option N
  items : List V
  old : List (Handle N)
  new : List (Handle N)

/-- `leaves_iterators/ancestors_depth_first/mod.rs` 18-53. -/
def lvAncLoop [TreeNode N V] (old new : List (Handle N)) (items : List V) (pushed : Bool) :
    List (Event N) × LvAnc N V :=
  match new with
  | ⟨o, n :: ns⟩ :: new =>
    let r := lvAncLoop old (handle n :: ⟨o, ns⟩ :: new) (val n :: items) true
    (.opened n :: r.1, r.2)
  | new =>
    if pushed then (popped new, ⟨none, items, old, new.tail⟩)
    else
      match old with
      | ⟨o, n :: ns⟩ :: old =>
        let r := lvAncLoop (⟨o, ns⟩ :: old) (handle n :: new.tail) (val n :: items) true
        (popped new ++ .opened n :: r.1, r.2)
      | old =>
        match _hi : items.tail with
        | [] => (popped new ++ popped old, ⟨none, [], old.tail, new.tail⟩)
        | i :: is =>
          let r := lvAncLoop old.tail new.tail (i :: is) false
          (popped new ++ (popped old ++ r.1), r.2)
termination_by 3 * (stackNodes (bare old) + stackNodes (bare new)) + old.length + new.length + items.length
decreasing_by
  · have hs := size_unfold n
    simp only [bare, handle, stackNodes, List.map_cons, List.sum_cons, List.length_cons] at *
    omega
  · have hs := size_unfold n
    have h1 := Leaves.stackNodes_tail_le (bare new)
    have h2 : new.tail.length ≤ new.length := by simp
    have h3 : (bare new).tail = bare new.tail := by simp [bare]
    rw [h3] at h1
    simp only [bare, handle, stackNodes, List.map_cons, List.sum_cons, List.length_cons] at *
    omega
  · have h1 := Leaves.stackNodes_tail_le (bare new)
    have h2 : new.tail.length ≤ new.length := by simp
    have h3 := Leaves.stackNodes_tail_le (bare old)
    have h4 : old.tail.length ≤ old.length := by simp
    have h6 : (bare new).tail = bare new.tail := by simp [bare]
    have h7 : (bare old).tail = bare old.tail := by simp [bare]
    have h5 : items.length = is.length + 2 := by
      have := congrArg List.length _hi
      simp only [List.length_tail, List.length_cons] at this
      omega
    rw [h6] at h1
    rw [h7] at h3
    simp only [List.length_cons]
    omega

/-- `leaves_iterators/ancestors_depth_first/mod.rs` 5-54 (`advance`). -/
def lvAncAdvance [TreeNode N V] (s : LvAnc N V) : List (Event N) × LvAnc N V :=
  match s.root with
  | some root =>
    let r := lvAncLoop s.old (handle root :: s.new) (val root :: s.items) true
    (.opened root :: r.1, r.2)
  | none => lvAncLoop s.old s.new s.items.tail false

def LvAnc.live (s : LvAnc N V) : List N := owners s.old ++ owners s.new

def LvAnc.erase (s : LvAnc N V) : Leaves.AncState N V := ⟨s.root, s.items, bare s.old, bare s.new⟩

end Handles

end TreeIter
