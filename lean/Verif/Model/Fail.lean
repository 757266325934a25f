import Verif.Model.Leaves
import Verif.Model.BfsCtx

/-!
# The iterators when the user's code panics

Same sources as the models they copy.  `bad` tells for which nodes the call of `get_value_and_children` (that of the
ownership mode and arity at hand) panics.  The panic unwinds out of `next` or `advance`; a caller that catches it can
call again.  The state it then finds is what the code had done up to the call.

A call answers `none` at the end, `some none` when the user's code panicked and `some (some o)` otherwise.  The stream
functions tell with `true` that they panicked; then `get` is not reached.
-/

universe u v w

namespace TreeIter

namespace Fail

variable {N : Type u} {V : Type v}

/-- `StreamingIterator::next` for an `advance` in which the user's code may panic. -/
def streamNext {S : Type u} {O : Type v} (advance : S → Bool × S) (get : S → Option O) (s : S) :
    Option (Option O) × S :=
  match advance s with
  | (true, s') => (some none, s')
  | (false, s') => ((get s').map some, s')

/-- The same for an `advance` that may also panic by itself. -/
def streamNextE {S : Type u} {O : Type v} (advance : S → Except Panic (Bool × S)) (get : S → Option O) (s : S) :
    Except Panic (Option (Option O) × S) :=
  match advance s with
  | .error e => .error e
  | .ok (true, s') => .ok (some none, s')
  | .ok (false, s') => .ok ((get s').map some, s')

/-! ## Preorder -/

/-- `dfs_preorder_iterators/mod.rs` 5-33: `root.take()` and the loop come before the user's code, the push after it. -/
def preNext [SplitNode N V] (bad : N → Bool) (s : Preorder.State N) : Option (Option V) × Preorder.State N :=
  match s.root with
  | some root =>
    if bad root then (some none, ⟨none, s.stack⟩) else (some (some (val root)), ⟨none, kids root :: s.stack⟩)
  | none =>
    match Preorder.loop s.stack with
    | (none, st) => (none, ⟨none, st⟩)
    | (some n, st) => if bad n then (some none, ⟨none, st⟩) else (some (some (val n)), ⟨none, kids n :: st⟩)

/-- `dfs_preorder_iterators/mod.rs` 114-142. -/
def preAncAdvance [SplitNode N V] (bad : N → Bool) (s : Preorder.AncState N V) : Bool × Preorder.AncState N V :=
  match s.root with
  | some root =>
    if bad root then (true, ⟨none, s.stack, s.items⟩)
    else (false, ⟨none, kids root :: s.stack, val root :: s.items⟩)
  | none =>
    match Preorder.ancLoop s.stack s.items with
    | (none, st, it) => (false, ⟨none, st, it⟩)
    | (some n, st, it) =>
      if bad n then (true, ⟨none, st, it⟩) else (false, ⟨none, kids n :: st, val n :: it⟩)

/-- `StreamingIterator::next`. -/
def preAncNext [SplitNode N V] (bad : N → Bool) :
    Preorder.AncState N V → Option (Option (List V)) × Preorder.AncState N V :=
  streamNext (preAncAdvance bad) Preorder.ancGet

/-- `dfs_preorder_iterators/mod.rs` 166-217: the previous children have been taken and the path changed before the
user's code; `ancestors.push` and `children = Some(..)` come after it. -/
def preCtxAdvance [SplitNode N V] (bad : N → Bool) (s : Preorder.CtxState N V) :
    Except Panic (Bool × Preorder.CtxState N V) :=
  match s.root with
  | some root =>
    if bad root then .ok (true, { s with root := none })
    else .ok (false, { s with root := none, ancestors := val root :: s.ancestors, children := some (kids root) })
  | none =>
    if s.ancestors.isEmpty then .ok (false, s)
    else
      let (stack, path, anc) :=
        match s.children with
        | some cs => (cs :: s.stack, usizeMax :: s.path, s.ancestors)
        | none => (s.stack, if s.path.head? = some usizeMax then s.path.tail else s.path, s.ancestors.tail)
      match Preorder.ctxLoop stack path anc with
      | .error e => .error e
      | .ok (none, st, path, anc) => .ok (false, Preorder.ctxFinish (none, st, path, anc))
      | .ok (some n, st, path, anc) =>
        if bad n then .ok (true, ⟨none, st, path, anc, none⟩)
        else .ok (false, Preorder.ctxFinish (some n, st, path, anc))

/-- `StreamingIterator::next`. -/
def preCtxNext [SplitNode N V] (bad : N → Bool) :
    Preorder.CtxState N V → Except Panic (Option (Option (Ctx V (List N))) × Preorder.CtxState N V) :=
  streamNextE (preCtxAdvance bad) Preorder.ctxGet

/-- `dfs_preorder_iterators/mod.rs` 229-283. -/
def preBinCtxAdvance [SplitNode2 N V] (bad : N → Bool) (s : Preorder.BinCtxState N V) :
    Except Panic (Bool × Preorder.BinCtxState N V) :=
  match s.root with
  | some root =>
    if bad root then .ok (true, { s with root := none })
    else .ok (false,
      { s with root := none, ancestors := val2 root :: s.ancestors, children := some (split2 root).2 })
  | none =>
    if s.ancestors.isEmpty then .ok (false, s)
    else
      let (stack, path, anc) :=
        match s.children with
        | some cs => ([cs.1, cs.2] :: s.stack, usizeMax :: s.path, s.ancestors)
        | none => (s.stack, if s.path.head? = some usizeMax then s.path.tail else s.path, s.ancestors.tail)
      match Preorder.binCtxLoop stack path anc with
      | .error e => .error e
      | .ok (none, st, path, anc) => .ok (false, Preorder.binCtxFinish (none, st, path, anc))
      | .ok (some n, st, path, anc) =>
        if bad n then .ok (true, ⟨none, st, path, anc, none⟩)
        else .ok (false, Preorder.binCtxFinish (some n, st, path, anc))

/-- `StreamingIterator::next`. -/
def preBinCtxNext [SplitNode2 N V] (bad : N → Bool) :
    Preorder.BinCtxState N V →
      Except Panic (Option (Option (Ctx V (Option N × Option N))) × Preorder.BinCtxState N V) :=
  streamNextE (preBinCtxAdvance bad) Preorder.binCtxGet

/-! ## Postorder -/

/-- `dfs_postorder_iterators/mod.rs` 16-29. -/
def postLoop [TreeNode N V] (bad : N → Bool) :
    List (List N) → List V → Option (Option V) × List V × List (List N)
  | [], items => (items.head?.map some, items.tail, [])
  | [] :: rest, items => (items.head?.map some, items.tail, rest)
  | (n :: ns) :: rest, items =>
    if bad n then (some none, items, ns :: rest) else postLoop bad (kids n :: ns :: rest) (val n :: items)
termination_by st => Postorder.topSize st
decreasing_by exact Postorder.topSize_kids_lt ..

/-- `dfs_postorder_iterators/mod.rs` 5-33. -/
def postNext [TreeNode N V] (bad : N → Bool) (s : Postorder.State N V) :
    Option (Option V) × Postorder.State N V :=
  match s.root with
  | some root =>
    if bad root then (some none, ⟨none, s.items, s.stack⟩)
    else
      let (o, items, stack) := postLoop bad (kids root :: s.stack) (val root :: s.items)
      (o, ⟨none, items, stack⟩)
  | none =>
    let (o, items, stack) := postLoop bad s.stack s.items
    (o, ⟨none, items, stack⟩)

/-- `dfs_postorder_iterators/mod.rs` 58-69. -/
def postAncLoop [TreeNode N V] (bad : N → Bool) : List (List N) → List V → Bool × List V × List (List N)
  | [], items => (false, items, [])
  | [] :: rest, items => (false, items, rest)
  | (n :: ns) :: rest, items =>
    if bad n then (true, items, ns :: rest) else postAncLoop bad (kids n :: ns :: rest) (val n :: items)
termination_by st => Postorder.topSize st
decreasing_by exact Postorder.topSize_kids_lt ..

/-- `dfs_postorder_iterators/mod.rs` 47-70: the item answered last is popped first. -/
def postAncAdvance [TreeNode N V] (bad : N → Bool) (s : Postorder.AncState N V) : Bool × Postorder.AncState N V :=
  match s.root with
  | some root =>
    if bad root then (true, ⟨none, s.items, s.stack⟩)
    else
      let (boom, items, stack) := postAncLoop bad (kids root :: s.stack) (val root :: s.items)
      (boom, ⟨none, items, stack⟩)
  | none =>
    let (boom, items, stack) := postAncLoop bad s.stack s.items.tail
    (boom, ⟨none, items, stack⟩)

/-- `StreamingIterator::next`. -/
def postAncNext [TreeNode N V] (bad : N → Bool) :
    Postorder.AncState N V → Option (Option (List V)) × Postorder.AncState N V :=
  streamNext (postAncAdvance bad) Postorder.ancGet

/-- `dfs_postorder_iterators/borrow.rs` 156-189 (`mut_borrow.rs` 164-197); `ch` is the context's `children`, still that of
the last answer.  The path has been advanced before the user's code. -/
def postCtxLoop [TreeNode N V] (bad : N → Bool) (ch : Option (List N)) :
    List (List N) → List (List N) → List Nat → List V → Except Panic (Bool × Postorder.CtxState N V)
  | (n :: ns) :: rest, into, p :: path, anc =>
    if bad n then .ok (true, ⟨none, ns :: rest, into, wrapSucc p :: path, anc, ch⟩)
    else postCtxLoop bad ch (kids n :: ns :: rest) (kids n :: into) (usizeMax :: wrapSucc p :: path) (val n :: anc)
  | (_ :: _) :: _, _, [], _ => .error .unwrapNone
  | [] :: rest, c :: into, path, anc => .ok (false, ⟨none, rest, into, path.tail, anc, some c⟩)
  | [], c :: into, path, anc => .ok (false, ⟨none, [], into, path.tail, anc, some c⟩)
  | [] :: _, [], _, _ => .error .unwrapNone
  | [], [], _, _ => .error .unwrapNone
termination_by st => Postorder.topSize st
decreasing_by exact Postorder.topSize_kids_lt ..

/-- `dfs_postorder_iterators/borrow.rs` 138-190 (`mut_borrow.rs` 145-198). -/
def postCtxAdvance [TreeNode N V] (bad : N → Bool) (s : Postorder.CtxState N V) :
    Except Panic (Bool × Postorder.CtxState N V) :=
  match s.root with
  | some root =>
    if bad root then .ok (true, { s with root := none })
    else
      postCtxLoop bad s.children (kids root :: s.stack) (kids root :: s.into) (usizeMax :: s.path)
        (val root :: s.ancestors)
  | none =>
    if s.ancestors.tail.isEmpty then .ok (false, { s with ancestors := s.ancestors.tail })
    else postCtxLoop bad s.children s.stack s.into s.path s.ancestors.tail

/-- `StreamingIterator::next`. -/
def postCtxNext [TreeNode N V] (bad : N → Bool) :
    Postorder.CtxState N V → Except Panic (Option (Option (Ctx V (List N))) × Postorder.CtxState N V) :=
  streamNextE (postCtxAdvance bad) Postorder.ctxGet

/-! ## Breadth-first -/

/-- `bfs_iterators/mod.rs` 14-23. -/
def bfsLoop [SplitNode N V] (bad : N → Bool) : List (List N) → Option (Option V) × Bfs.State N
  | [] => (none, ⟨none, []⟩)
  | [] :: rest => bfsLoop bad rest
  | (n :: ns) :: rest =>
    if bad n then (some none, ⟨none, ns :: rest⟩)
    else (some (some (val n)), ⟨none, (ns :: rest) ++ [kids n]⟩)

/-- `bfs_iterators/mod.rs` 5-26. -/
def bfsNext [SplitNode N V] (bad : N → Bool) (s : Bfs.State N) : Option (Option V) × Bfs.State N :=
  match s.root with
  | some root =>
    if bad root then (some none, ⟨none, s.queue⟩) else (some (some (val root)), ⟨none, s.queue ++ [kids root]⟩)
  | none => bfsLoop bad s.queue

/-- `bfs_iterators/mod.rs` 280-319.  The root was split by `attach_ancestors` (`owned.rs` 170-188). -/
def bfsAncLoop [SplitNode N V] (bad : N → Bool) (queue : List (List N)) (cs : Bfs.CacheState V) :
    Except Panic (Bool × Bfs.AncState N V) :=
  match Bfs.settle cs with
  | .error e => .error e
  | .ok cs =>
    match queue with
    | [] => .error .indexOutOfRange
    | (n :: ns) :: q =>
      if bad n then .ok (true, ⟨false, cs, ns :: q⟩)
      else .ok (false, ⟨false, { cs with items := val n :: cs.items }, (ns :: q) ++ [kids n]⟩)
    | [] :: q =>
      match cs.retire with
      | .error e => .error e
      | .ok cs =>
        if q.isEmpty then .ok (false, ⟨false, { cs with items := [] }, []⟩)
        else bfsAncLoop bad q cs
termination_by queue.length

/-- `bfs_iterators/mod.rs` 274-320. -/
def bfsAncAdvance [SplitNode N V] (bad : N → Bool) (s : Bfs.AncState N V) :
    Except Panic (Bool × Bfs.AncState N V) :=
  if s.isRoot then .ok (false, { s with isRoot := false }) else bfsAncLoop bad s.queue s.cs

/-- `StreamingIterator::next`. -/
def bfsAncNext [SplitNode N V] (bad : N → Bool) :
    Bfs.AncState N V → Except Panic (Option (Option (List V)) × Bfs.AncState N V) :=
  streamNextE (bfsAncAdvance bad) Bfs.ancGet

/-- `bfs_iterators/mod.rs` 42-87: the path segment is pushed and counted before the user's code; the children of the last
answer were taken before the loop. -/
def bfsCtxLoop [SplitNode N V] (bad : N → Bool) (queue : List (List N)) (cc : Bfs.CtxCache V) (counter : Nat) :
    Except Panic (Bool × Bfs.CtxState V (List N) N) :=
  match cc.settle with
  | .error e => .error e
  | .ok cc =>
    match queue with
    | [] => .error .indexOutOfRange
    | (n :: ns) :: q =>
      match Bfs.checkedSucc counter with
      | .error e => .error e
      | .ok counter' =>
        if bad n then
          .ok (true, ⟨false, ⟨cc.ancestors, counter :: cc.path, cc.stack, cc.cache⟩, none, ns :: q, counter'⟩)
        else
          .ok (false, ⟨false, ⟨val n :: cc.ancestors, counter :: cc.path, cc.stack, cc.cache⟩, some (kids n), ns :: q,
            counter'⟩)
    | [] :: q =>
      match cc.retire with
      | .error e => .error e
      | .ok cc =>
        if q.isEmpty then .ok (false, ⟨false, { cc with ancestors := [] }, none, [], 0⟩) else bfsCtxLoop bad q cc 0
termination_by queue.length

/-- `bfs_iterators/mod.rs` 30-88. -/
def bfsCtxAdvance [SplitNode N V] (bad : N → Bool) (s : Bfs.CtxState V (List N) N) :
    Except Panic (Bool × Bfs.CtxState V (List N) N) :=
  if s.isRoot then .ok (false, { s with isRoot := false })
  else if s.cc.ancestors.isEmpty then .ok (false, s)
  else
    match s.children with
    | none => .error .unwrapNone
    | some cs => bfsCtxLoop bad (s.queue ++ [cs]) s.cc s.counter

/-- `StreamingIterator::next`. -/
def bfsCtxNext [SplitNode N V] (bad : N → Bool) : Bfs.CtxState V (List N) N →
    Except Panic (Option (Option (Ctx V (List N))) × Bfs.CtxState V (List N) N) :=
  streamNextE (bfsCtxAdvance bad) Bfs.ctxGet

/-! ## Leaves -/

/-- `leaves_iterators/depth_first/mod.rs` 19-44. -/
def leavesLoop [TreeNode N V] (bad : N → Bool) :
    (bottom top : List (List N)) → (items : List V) → (just : Bool) → Option (Option V) × Leaves.State N V
  | bottom, (n :: ns) :: top, items, _ =>
    if bad n then (some none, ⟨none, bottom, ns :: top, items⟩)
    else leavesLoop bad bottom (kids n :: ns :: top) (val n :: items) true
  | bottom, [] :: top, items, true => (items.head?.map some, ⟨none, bottom, top, items.tail⟩)
  | bottom, [] :: top, items, false => leavesLoop bad bottom top items.tail false
  | (n :: ns) :: bottom, [], items, just =>
    if bad n then (some none, ⟨none, ns :: bottom, [], items⟩)
    else leavesLoop bad (ns :: bottom) [kids n] (val n :: items) just
  | [] :: bottom, [], items, just => leavesLoop bad bottom [] items just
  | [], [], items, _ => (none, ⟨none, [], [], items⟩)
termination_by bottom top => 2 * (stackNodes bottom + stackNodes top) + bottom.length + top.length
decreasing_by
  all_goals
    try have hs := size_unfold n
    simp only [stackNodes, List.map_cons, List.sum_cons, List.length_cons, List.map_nil, List.sum_nil,
      List.length_nil] at *
    omega

/-- `leaves_iterators/depth_first/mod.rs` 5-47. -/
def leavesNext [TreeNode N V] (bad : N → Bool) (s : Leaves.State N V) : Option (Option V) × Leaves.State N V :=
  match s.root with
  | some root =>
    if bad root then (some none, { s with root := none })
    else leavesLoop bad s.bottom (kids root :: s.top) (val root :: s.items) true
  | none => leavesLoop bad s.bottom s.top s.items false

/-- `leaves_iterators/ancestors_depth_first/mod.rs` 18-53. -/
def leavesAncLoop [TreeNode N V] (bad : N → Bool) (old new : List (List N)) (items : List V) (pushed : Bool) :
    Bool × Leaves.AncState N V :=
  match new with
  | (n :: ns) :: new =>
    if bad n then (true, ⟨none, items, old, ns :: new⟩)
    else leavesAncLoop bad old (kids n :: ns :: new) (val n :: items) true
  | new =>
    if pushed then (false, ⟨none, items, old, new.tail⟩)
    else
      match old with
      | (n :: ns) :: old =>
        if bad n then (true, ⟨none, items, ns :: old, new.tail⟩)
        else leavesAncLoop bad (ns :: old) (kids n :: new.tail) (val n :: items) true
      | old =>
        match _hi : items.tail with
        | [] => (false, ⟨none, [], old.tail, new.tail⟩)
        | i :: is => leavesAncLoop bad old.tail new.tail (i :: is) false
termination_by 3 * (stackNodes old + stackNodes new) + old.length + new.length + items.length
decreasing_by
  · have hs := size_unfold n
    simp only [stackNodes, List.map_cons, List.sum_cons, List.length_cons] at *
    omega
  · have hs := size_unfold n
    have h1 := Leaves.stackNodes_tail_le new
    have h2 : new.tail.length ≤ new.length := by simp
    simp only [stackNodes, List.map_cons, List.sum_cons, List.length_cons] at *
    omega
  · have h1 := Leaves.stackNodes_tail_le new
    have h2 : new.tail.length ≤ new.length := by simp
    have h3 := Leaves.stackNodes_tail_le old
    have h4 : old.tail.length ≤ old.length := by simp
    have h5 : items.length = is.length + 2 := by
      have := congrArg List.length _hi
      simp only [List.length_tail, List.length_cons] at this
      omega
    simp only [List.length_cons]
    omega

/-- `leaves_iterators/ancestors_depth_first/mod.rs` 5-54: the item answered last is popped first. -/
def leavesAncAdvance [TreeNode N V] (bad : N → Bool) (s : Leaves.AncState N V) : Bool × Leaves.AncState N V :=
  match s.root with
  | some root =>
    if bad root then (true, { s with root := none })
    else leavesAncLoop bad s.old (kids root :: s.new) (val root :: s.items) true
  | none => leavesAncLoop bad s.old s.new s.items.tail false

/-- `StreamingIterator::next`. -/
def leavesAncNext [TreeNode N V] (bad : N → Bool) :
    Leaves.AncState N V → Option (Option (List V)) × Leaves.AncState N V :=
  streamNext (leavesAncAdvance bad) Leaves.ancGet

/-- `leaves_iterators/breadth_first/mod.rs` 21-39. -/
def bfsLeavesLoopNew [SplitNode N V] (bad : N → Bool) :
    List (List N) → Option (Option (Bool × V)) × Bfs.LeavesState N
  | [] => (none, ⟨none, [], []⟩)
  | [] :: rest => bfsLeavesLoopNew bad rest
  | (n :: ns) :: rest =>
    if bad n then (some none, ⟨none, [], ns :: rest⟩)
    else (some (some (!(kids n).isEmpty, val n)), ⟨none, [], (ns :: rest) ++ [kids n]⟩)

/-- `leaves_iterators/breadth_first/mod.rs` 17-57. -/
def bfsLeavesLoop [SplitNode N V] (bad : N → Bool) (new : List (List N)) :
    List (List N) → Option (Option (Bool × V)) × Bfs.LeavesState N
  | [] => bfsLeavesLoopNew bad new
  | [] :: rest => bfsLeavesLoop bad new rest
  | (n :: ns) :: rest =>
    if bad n then (some none, ⟨none, ns :: rest, new⟩)
    else (some (some (!(kids n).isEmpty, val n)), ⟨none, ns :: rest, new ++ [kids n]⟩)

/-- `leaves_iterators/breadth_first/mod.rs` 5-61. -/
def bfsLeavesStep [SplitNode N V] (bad : N → Bool) (s : Bfs.LeavesState N) :
    Option (Option (Bool × V)) × Bfs.LeavesState N :=
  match s.root with
  | some root =>
    if bad root then (some none, { s with root := none })
    else (some (some (!(kids root).isEmpty, val root)), ⟨none, s.old, s.new ++ [kids root]⟩)
  | none => bfsLeavesLoop bad s.new s.old

theorem bfsLeavesStep_pending [TreeNode N V] (bad : N → Bool) (s s' : Bfs.LeavesState N)
    (x : Option (Bool × V)) (h : bfsLeavesStep bad s = (some x, s')) : s'.pending < s.pending := by
  obtain ⟨root, old, new⟩ := s
  cases root with
  | some r =>
    simp only [bfsLeavesStep] at h
    split at h <;> simp only [Prod.mk.injEq] at h <;> obtain ⟨-, rfl⟩ := h <;>
      simp [Bfs.LeavesState.pending, size_unfold r] <;> omega
  | none =>
    simp only [bfsLeavesStep] at h
    induction old with
    | nil =>
      simp only [bfsLeavesLoop] at h
      induction new with
      | nil => simp [bfsLeavesLoopNew] at h
      | cons ns rest ih =>
        cases ns with
        | nil => simpa [Bfs.LeavesState.pending] using ih h
        | cons n ns =>
          simp only [bfsLeavesLoopNew] at h
          split at h <;> simp only [Prod.mk.injEq] at h <;> obtain ⟨-, rfl⟩ := h <;>
            simp [Bfs.LeavesState.pending, size_unfold n] <;> omega
    | cons ns rest ih =>
      cases ns with
      | nil => simpa [Bfs.LeavesState.pending] using ih h
      | cons n ns =>
        simp only [bfsLeavesLoop] at h
        split at h <;> simp only [Prod.mk.injEq] at h <;> obtain ⟨-, rfl⟩ := h <;>
          simp [Bfs.LeavesState.pending, size_unfold n] <;> omega

/-- `leaves_iterators/breadth_first/mod.rs` 63-80. -/
def bfsLeavesNext [TreeNode N V] (bad : N → Bool) (s : Bfs.LeavesState N) :
    Option (Option V) × Bfs.LeavesState N :=
  match _h : bfsLeavesStep bad s with
  | (none, s') => (none, s')
  | (some none, s') => (some none, s')
  | (some (some (true, _)), s') => bfsLeavesNext bad s'
  | (some (some (false, v)), s') => (some (some v), s')
termination_by s.pending
decreasing_by exact bfsLeavesStep_pending bad _ _ _ _h

/-- `leaves_iterators/ancestors_breadth_first/mod.rs` 95-147: `is_root` is cleared before the user's code. -/
def bfsLeavesAncLoop [TreeNode N V] (bad : N → Bool) (isRoot : Bool) (queue : List (List N)) (cs : Bfs.CacheState V) :
    Except Panic (Bool × Bfs.AncState N V) :=
  match queue with
  | [] => .ok (false, ⟨isRoot, { cs with items := [] }, []⟩)
  | it :: q =>
    match Bfs.settle cs with
    | .error e => .error e
    | .ok cs =>
      match it with
      | n :: ns =>
        if bad n then .ok (true, ⟨false, cs, ns :: q⟩)
        else if (kids n).isEmpty then
          .ok (false, ⟨false, { cs with items := val n :: cs.items }, (ns :: q) ++ [kids n]⟩)
        else bfsLeavesAncLoop bad false ((ns :: q) ++ [kids n]) { cs with items := val n :: cs.items }
      | [] =>
        if isRoot then .ok (false, ⟨false, cs, [] :: q⟩)
        else
          match cs.retire with
          | .error e => .error e
          | .ok cs => bfsLeavesAncLoop bad isRoot q cs
termination_by 2 * stackNodes queue + queue.length
decreasing_by
  · have := Bfs.stackNodes_push n ns q
    simp only [List.length_append, List.length_cons, List.length_nil]
    omega
  · simp only [stackNodes, List.map_cons, List.sum_cons, List.map_nil, List.sum_nil, List.length_cons]
    omega

/-- `leaves_iterators/ancestors_breadth_first/mod.rs` 95-147: `advance`. -/
def bfsLeavesAncAdvance [TreeNode N V] (bad : N → Bool) (s : Bfs.AncState N V) :
    Except Panic (Bool × Bfs.AncState N V) :=
  bfsLeavesAncLoop bad s.isRoot s.queue s.cs

/-- `StreamingIterator::next`. -/
def bfsLeavesAncNext [TreeNode N V] (bad : N → Bool) :
    Bfs.AncState N V → Except Panic (Option (Option (List V)) × Bfs.AncState N V) :=
  streamNextE (bfsLeavesAncAdvance bad) Bfs.ancGet

/-! ## In-order -/

/-- `dfs_inorder_iterators/mod.rs` 24-30. -/
def inDescend [BinNode N V] (bad : N → Bool) :
    Option N → List (Option N) → List V → Bool × List (Option N) × List V
  | none, right, items => (false, right, items)
  | some n, right, items =>
    if bad n then (true, right, items)
    else inDescend bad (split2 n).2.1 ((split2 n).2.2 :: right) (val2 n :: items)
termination_by cur => Inorder.curSize cur
decreasing_by exact Inorder.curSize_left_lt n

/-- `dfs_inorder_iterators/mod.rs` 5-35. -/
def inNext [BinNode N V] (bad : N → Bool) (s : Inorder.State N V) : Option (Option V) × Inorder.State N V :=
  match Inorder.find s.items s.right with
  | (.ret, right) => (s.items.head?.map some, ⟨right, s.items.tail, true⟩)
  | (.cur cur, right) =>
    match inDescend bad cur right s.items with
    | (true, right, items) => (some none, ⟨right, items, true⟩)
    | (false, right, items) => (items.head?.map some, ⟨right, items.tail, true⟩)

/-- `dfs_inorder_iterators/mod.rs` 66-73. -/
def inAncDescend [BinNode N V] (bad : N → Bool) : Option N → Inorder.AncState N V → Bool × Inorder.AncState N V
  | none, s => (false, s)
  | some n, s =>
    if bad n then (true, s)
    else inAncDescend bad (split2 n).2.1 ⟨(split2 n).2.2 :: s.right, val2 n :: s.items, .wentLeft :: s.status⟩
termination_by cur => Inorder.curSize cur
decreasing_by exact Inorder.curSize_left_lt n

/-- `dfs_inorder_iterators/mod.rs` 37-77. -/
def inAncAdvance [BinNode N V] (bad : N → Bool) (s : Inorder.AncState N V) :
    Except Panic (Bool × Inorder.AncState N V) :=
  match Inorder.ancFind s.status s.items s.right with
  | .inl s' => .ok (false, s')
  | .inr (n, s') =>
    match inAncDescend bad (some n) s' with
    | (true, s'') => .ok (true, s'')
    | (false, s'') =>
      match s''.status with
      | [] => .error .indexOutOfRange
      | _ :: ss => .ok (false, { s'' with status := .returnedSelf :: ss })

/-- `StreamingIterator::next`. -/
def inAncNext [BinNode N V] (bad : N → Bool) :
    Inorder.AncState N V → Except Panic (Option (Option (List V)) × Inorder.AncState N V) :=
  streamNextE (inAncAdvance bad) Inorder.ancGet

/-- `dfs_inorder_iterators/owned.rs` 255-271: the user's code comes before all pushes. -/
def inOwnDescend [BinNode N V] (bad : N → Bool) :
    Option N → Inorder.OwnCtxState N V → Bool × Inorder.OwnCtxState N V
  | none, s => (false, s)
  | some n, s =>
    if bad n then (true, s)
    else inOwnDescend bad (split2 n).2.1
      ⟨(split2 n).2.2 :: s.right, Inorder.pushSegment s.status s.path, val2 n :: s.ancestors, .wentLeft :: s.status⟩
termination_by cur => Inorder.curSize cur
decreasing_by exact Inorder.curSize_left_lt n

/-- `dfs_inorder_iterators/owned.rs` 225-275. -/
def inOwnAdvance [BinNode N V] (bad : N → Bool) (s : Inorder.OwnCtxState N V) :
    Except Panic (Bool × Inorder.OwnCtxState N V) :=
  match Inorder.ownFind s.status s.ancestors s.path s.right with
  | .inl s' => .ok (false, s')
  | .inr (n, s') =>
    match inOwnDescend bad (some n) s' with
    | (true, s'') => .ok (true, s'')
    | (false, s'') =>
      match s''.status with
      | [] => .error .indexOutOfRange
      | _ :: ss => .ok (false, { s'' with status := .returnedSelf :: ss })

/-- `StreamingIterator::next`. -/
def inOwnNext [BinNode N V] (bad : N → Bool) : Inorder.OwnCtxState N V →
    Except Panic (Option (Option (Ctx V (Option N × Option N))) × Inorder.OwnCtxState N V) :=
  streamNextE (inOwnAdvance bad) Inorder.ownGet

/-- `dfs_inorder_iterators/borrow.rs` 252-270 (`mut_borrow.rs` 270-288). -/
def inCtxDescend [BinNode N V] (bad : N → Bool) :
    Option N → Inorder.CtxState N V → Bool × Inorder.CtxState N V
  | none, s => (false, s)
  | some n, s =>
    if bad n then (true, s)
    else inCtxDescend bad (split2 n).2.1
      ⟨(split2 n).2.2 :: s.right, Inorder.pushSegment s.status s.path, val2 n :: s.ancestors, s.children,
        (split2 n).2 :: s.into, .wentLeft :: s.status⟩
termination_by cur => Inorder.curSize cur
decreasing_by exact Inorder.curSize_left_lt n

/-- `dfs_inorder_iterators/borrow.rs` 222-280 (`mut_borrow.rs` 234-299). -/
def inCtxAdvance [BinNode N V] (bad : N → Bool) (s : Inorder.CtxState N V) :
    Except Panic (Bool × Inorder.CtxState N V) :=
  match Inorder.ctxFind s.children s.status s.ancestors s.path s.right s.into with
  | .error e => .error e
  | .ok (.inl s') => .ok (false, s')
  | .ok (.inr (n, s')) =>
    match inCtxDescend bad (some n) s' with
    | (true, s'') => .ok (true, s'')
    | (false, s'') =>
      match s''.status, s''.into with
      | [], _ => .error .indexOutOfRange
      | _ :: _, [] => .error .unwrapNone
      | _ :: ss, c :: into =>
        .ok (false, { s'' with status := .returnedSelf :: ss, into := into, children := some c })

/-- `StreamingIterator::next`. -/
def inCtxNext [BinNode N V] (bad : N → Bool) : Inorder.CtxState N V →
    Except Panic (Option (Option (Ctx V (Option N × Option N))) × Inorder.CtxState N V) :=
  streamNextE (inCtxAdvance bad) Inorder.ctxGet

end Fail

end TreeIter
