import Verif.Spec.Flaky
import Verif.Model.Fail

/-!
# The iterators when the `next` of a child iterator panics

Same sources as the models they copy.  The stacks and queues hold child iterators; such an iterator is the list of what
its calls of `next` will do (`callsF`).  A panic of `next` unwinds out of the crate's `next` or `advance` and leaves the
child iterator where it is, behind the call that panicked.  The crate's own panics are `Except.error`.

Simplified: a child iterator that panics at a call gives up this call only; one that panics for ever is not a list.

As in `Model/Fail`, a call answers `none` at the end, `some none` when the user's code panicked and `some (some o)`
otherwise; the stream functions tell with `true` that they panicked.
-/

universe u v w

namespace TreeIter

namespace Flaky

variable {N : Type u} {V : Type v}

/-- The tree of the calls of `next`, seen as nodes without values.  Only used to see that the loops end. -/
@[reducible] def pollNode [FlakyNode N V] : TreeNode (Option N) Unit where
  split o := ((), match o with | none => [] | some n => callsF n)
  size := pollSize
  size_lt := by
    intro o c h
    cases o with
    | none => cases h
    | some n => exact pollSize_lt h

attribute [local instance] pollNode

/-! ## Preorder -/

/-- `dfs_preorder_iterators/owned.rs` 139-145. -/
structure Pre (N : Type u) where
  root : Option N
  stack : List (List (Option N))

/-- `dfs_preorder_iterators/owned.rs` 151-156. -/
def Pre.new (root : N) : Pre N := ⟨some root, []⟩

/-- `dfs_preorder_iterators/mod.rs` 14-24: the result is what the last call of `next` did. -/
def preLoop : List (List (Option N)) → Option (Option N) × List (List (Option N))
  | [] => (none, [])
  | [] :: rest => preLoop rest
  | (o :: os) :: rest => (some o, os :: rest)

/-- `dfs_preorder_iterators/mod.rs` 5-33. -/
def preNext [FlakyNode N V] (s : Pre N) : Option (Option V) × Pre N :=
  match s.root with
  | some root => (some (some (valF root)), ⟨none, callsF root :: s.stack⟩)
  | none =>
    match preLoop s.stack with
    | (none, st) => (none, ⟨none, st⟩)
    | (some none, st) => (some none, ⟨none, st⟩)
    | (some (some n), st) => (some (some (valF n)), ⟨none, callsF n :: st⟩)

/-- `dfs_preorder_iterators/owned.rs` 291-298. -/
structure PreAnc (N : Type u) (V : Type v) where
  root : Option N
  stack : List (List (Option N))
  items : List V

/-- `dfs_preorder_iterators/owned.rs` 178-186 and 304-310: `attach_ancestors`. -/
def Pre.attachAncestors (s : Pre N) : Except Panic (PreAnc N V) :=
  match s.root with
  | none => .error .attachMidTraversal
  | some root => .ok ⟨some root, [], []⟩

/-- `dfs_preorder_iterators/mod.rs` 124-135. -/
def preAncLoop : List (List (Option N)) → List V → Option (Option N) × List (List (Option N)) × List V
  | [], it => (none, [], it)
  | [] :: rest, it => preAncLoop rest it.tail
  | (o :: os) :: rest, it => (some o, os :: rest, it)

/-- `dfs_preorder_iterators/mod.rs` 114-142. -/
def preAncAdvance [FlakyNode N V] (s : PreAnc N V) : Bool × PreAnc N V :=
  match s.root with
  | some root => (false, ⟨none, callsF root :: s.stack, valF root :: s.items⟩)
  | none =>
    match preAncLoop s.stack s.items with
    | (none, st, it) => (false, ⟨none, st, it⟩)
    | (some none, st, it) => (true, ⟨none, st, it⟩)
    | (some (some n), st, it) => (false, ⟨none, callsF n :: st, valF n :: it⟩)

/-- `dfs_preorder_iterators/mod.rs` 144-150. -/
def preAncGet (s : PreAnc N V) : Option (List V) :=
  if s.items.length > 0 then some s.items.reverse else none

/-- `StreamingIterator::next`. -/
def preAncNext [FlakyNode N V] : PreAnc N V → Option (Option (List V)) × PreAnc N V :=
  Fail.streamNext preAncAdvance preAncGet

/-- `dfs_preorder_iterators/owned.rs` 250-257. -/
structure PreCtx (N : Type u) (V : Type v) where
  root : Option N
  stack : List (List (Option N))
  path : List Nat
  ancestors : List V
  children : Option (List (Option N))

/-- `dfs_preorder_iterators/owned.rs` 168-176 and 263-273: `attach_context`. -/
def Pre.attachContext (s : Pre N) : Except Panic (PreCtx N V) :=
  match s.root with
  | none => .error .attachMidTraversal
  | some root => .ok ⟨some root, [], [], [], none⟩

/-- `dfs_preorder_iterators/mod.rs` 190-208: a panic of `next` comes before the path is changed. -/
def preCtxLoop : List (List (Option N)) → List Nat → List V →
    Except Panic (Option (Option N) × List (List (Option N)) × List Nat × List V)
  | [], path, anc => .ok (none, [], path, anc)
  | [] :: rest, path, anc => preCtxLoop rest path.tail anc.tail
  | (none :: os) :: rest, path, anc => .ok (some none, os :: rest, path, anc)
  | (some n :: os) :: rest, p :: path, anc => .ok (some (some n), os :: rest, wrapSucc p :: path, anc)
  | (some _ :: _) :: _, [], _ => .error .unwrapNone

/-- `dfs_preorder_iterators/mod.rs` 166-217. -/
def preCtxAdvance [FlakyNode N V] (s : PreCtx N V) : Except Panic (Bool × PreCtx N V) :=
  match s.root with
  | some root =>
    .ok (false, { s with root := none, ancestors := valF root :: s.ancestors, children := some (callsF root) })
  | none =>
    if s.ancestors.isEmpty then .ok (false, s)
    else
      let (stack, path, anc) :=
        match s.children with
        | some cs => (cs :: s.stack, usizeMax :: s.path, s.ancestors)
        | none => (s.stack, if s.path.head? = some usizeMax then s.path.tail else s.path, s.ancestors.tail)
      match preCtxLoop stack path anc with
      | .error e => .error e
      | .ok (none, st, path, _) => .ok (false, ⟨none, st, path, [], none⟩)
      | .ok (some none, st, path, anc) => .ok (true, ⟨none, st, path, anc, none⟩)
      | .ok (some (some n), st, path, anc) => .ok (false, ⟨none, st, path, valF n :: anc, some (callsF n)⟩)

/-- `dfs_preorder_iterators/mod.rs` 219-225. -/
def preCtxGet (s : PreCtx N V) : Option (Ctx V (List (Option N))) :=
  if s.ancestors.isEmpty then none else some ⟨s.path.reverse, s.ancestors.reverse, s.children⟩

/-- `StreamingIterator::next`. -/
def preCtxNext [FlakyNode N V] :
    PreCtx N V → Except Panic (Option (Option (Ctx V (List (Option N)))) × PreCtx N V) :=
  Fail.streamNextE preCtxAdvance preCtxGet

/-! ## Postorder -/

/-- `dfs_postorder_iterators/owned.rs` 44-51. -/
structure Post (N : Type u) (V : Type v) where
  root : Option N
  items : List V
  stack : List (List (Option N))

/-- `dfs_postorder_iterators/owned.rs` 57-63. -/
def Post.new (root : N) : Post N V := ⟨some root, [], []⟩

/-- `dfs_postorder_iterators/mod.rs` 16-29. -/
def postLoop [FlakyNode N V] :
    List (List (Option N)) → List V → Option (Option V) × List V × List (List (Option N))
  | [], items => (items.head?.map some, items.tail, [])
  | [] :: rest, items => (items.head?.map some, items.tail, rest)
  | (none :: os) :: rest, items => (some none, items, os :: rest)
  | (some n :: os) :: rest, items => postLoop (callsF n :: os :: rest) (valF n :: items)
termination_by st => Postorder.topSize st
decreasing_by exact Postorder.topSize_kids_lt (some n) ..

/-- `dfs_postorder_iterators/mod.rs` 5-33. -/
def postNext [FlakyNode N V] (s : Post N V) : Option (Option V) × Post N V :=
  match s.root with
  | some root =>
    let (o, items, stack) := postLoop (callsF root :: s.stack) (valF root :: s.items)
    (o, ⟨none, items, stack⟩)
  | none =>
    let (o, items, stack) := postLoop s.stack s.items
    (o, ⟨none, items, stack⟩)

/-- `dfs_postorder_iterators/owned.rs` 85-93 and 202-208: `attach_ancestors`; the iterator with ancestors has the same fields. -/
def Post.attachAncestors (s : Post N V) : Except Panic (Post N V) :=
  match s.root with
  | none => .error .attachMidTraversal
  | some root => .ok (Post.new root)

/-- `dfs_postorder_iterators/mod.rs` 58-69. -/
def postAncLoop [FlakyNode N V] : List (List (Option N)) → List V → Bool × List V × List (List (Option N))
  | [], items => (false, items, [])
  | [] :: rest, items => (false, items, rest)
  | (none :: os) :: rest, items => (true, items, os :: rest)
  | (some n :: os) :: rest, items => postAncLoop (callsF n :: os :: rest) (valF n :: items)
termination_by st => Postorder.topSize st
decreasing_by exact Postorder.topSize_kids_lt (some n) ..

/-- `dfs_postorder_iterators/mod.rs` 47-70. -/
def postAncAdvance [FlakyNode N V] (s : Post N V) : Bool × Post N V :=
  match s.root with
  | some root =>
    let (boom, items, stack) := postAncLoop (callsF root :: s.stack) (valF root :: s.items)
    (boom, ⟨none, items, stack⟩)
  | none =>
    let (boom, items, stack) := postAncLoop s.stack s.items.tail
    (boom, ⟨none, items, stack⟩)

/-- `dfs_postorder_iterators/mod.rs` 72-78. -/
def postAncGet (s : Post N V) : Option (List V) :=
  if s.items.length > 0 then some s.items.reverse else none

/-- `StreamingIterator::next`. -/
def postAncNext [FlakyNode N V] : Post N V → Option (Option (List V)) × Post N V :=
  Fail.streamNext postAncAdvance postAncGet

/-- `dfs_postorder_iterators/borrow.rs` 110-119 (`mut_borrow.rs` 115-124). -/
structure PostCtx (N : Type u) (V : Type v) where
  root : Option N
  stack : List (List (Option N))
  into : List (List (Option N))
  path : List Nat
  ancestors : List V
  children : Option (List (Option N))

/-- `attach_context` of a borrowed postorder iterator. -/
def Post.attachContext (s : Post N V) : Except Panic (PostCtx N V) :=
  match s.root with
  | none => .error .attachMidTraversal
  | some root => .ok ⟨some root, [], [], [], [], none⟩

/-- `dfs_postorder_iterators/borrow.rs` 156-189 (`mut_borrow.rs` 164-197); `ch` is the context's `children`, still that of
the last answer.  A panic of `next` comes before the path is advanced. -/
def postCtxLoop [FlakyNode N V] (ch : Option (List (Option N))) :
    List (List (Option N)) → List (List (Option N)) → List Nat → List V → Except Panic (Bool × PostCtx N V)
  | (none :: os) :: rest, into, path, anc => .ok (true, ⟨none, os :: rest, into, path, anc, ch⟩)
  | (some n :: os) :: rest, into, p :: path, anc =>
    postCtxLoop ch (callsF n :: os :: rest) (callsF n :: into) (usizeMax :: wrapSucc p :: path) (valF n :: anc)
  | (some _ :: _) :: _, _, [], _ => .error .unwrapNone
  | [] :: rest, c :: into, path, anc => .ok (false, ⟨none, rest, into, path.tail, anc, some c⟩)
  | [], c :: into, path, anc => .ok (false, ⟨none, [], into, path.tail, anc, some c⟩)
  | [] :: _, [], _, _ => .error .unwrapNone
  | [], [], _, _ => .error .unwrapNone
termination_by st => Postorder.topSize st
decreasing_by exact Postorder.topSize_kids_lt (some n) ..

/-- `dfs_postorder_iterators/borrow.rs` 138-190 (`mut_borrow.rs` 145-198). -/
def postCtxAdvance [FlakyNode N V] (s : PostCtx N V) : Except Panic (Bool × PostCtx N V) :=
  match s.root with
  | some root =>
    postCtxLoop s.children (callsF root :: s.stack) (callsF root :: s.into) (usizeMax :: s.path) (valF root :: s.ancestors)
  | none =>
    if s.ancestors.tail.isEmpty then .ok (false, { s with ancestors := s.ancestors.tail })
    else postCtxLoop s.children s.stack s.into s.path s.ancestors.tail

/-- `dfs_postorder_iterators/borrow.rs` 192-198. -/
def postCtxGet (s : PostCtx N V) : Option (Ctx V (List (Option N))) :=
  if s.ancestors.isEmpty then none else some ⟨s.path.reverse, s.ancestors.reverse, s.children⟩

/-- `StreamingIterator::next`. -/
def postCtxNext [FlakyNode N V] :
    PostCtx N V → Except Panic (Option (Option (Ctx V (List (Option N)))) × PostCtx N V) :=
  Fail.streamNextE postCtxAdvance postCtxGet

/-! ## Breadth-first -/

/-- `bfs_iterators/owned.rs` 45-51. -/
structure Wide (N : Type u) where
  root : Option N
  queue : List (List (Option N))

/-- `bfs_iterators/owned.rs` 57-62. -/
def Wide.new (root : N) : Wide N := ⟨some root, []⟩

/-- `bfs_iterators/mod.rs` 14-23. -/
def bfsLoop [FlakyNode N V] : List (List (Option N)) → Option (Option V) × Wide N
  | [] => (none, ⟨none, []⟩)
  | [] :: rest => bfsLoop rest
  | (none :: os) :: rest => (some none, ⟨none, os :: rest⟩)
  | (some n :: os) :: rest => (some (some (valF n)), ⟨none, (os :: rest) ++ [callsF n]⟩)

/-- `bfs_iterators/mod.rs` 5-26. -/
def bfsNext [FlakyNode N V] (s : Wide N) : Option (Option V) × Wide N :=
  match s.root with
  | some root => (some (some (valF root)), ⟨none, s.queue ++ [callsF root]⟩)
  | none => bfsLoop s.queue

/-- `bfs_iterators/owned.rs` 84-89 and 170-188: `attach_ancestors` splits the root. -/
def Wide.attachAncestors [FlakyNode N V] (s : Wide N) : Except Panic (Bfs.AncState (Option N) V) :=
  match s.root with
  | none => .error .attachMidTraversal
  | some root => .ok ⟨true, ⟨[valF root], [], .mk none []⟩, [callsF root]⟩

/-- `bfs_iterators/mod.rs` 280-319. -/
def bfsAncLoop [FlakyNode N V] (queue : List (List (Option N))) (cs : Bfs.CacheState V) :
    Except Panic (Bool × Bfs.AncState (Option N) V) :=
  match Bfs.settle cs with
  | .error e => .error e
  | .ok cs =>
    match queue with
    | [] => .error .indexOutOfRange
    | (none :: os) :: q => .ok (true, ⟨false, cs, os :: q⟩)
    | (some n :: os) :: q =>
      .ok (false, ⟨false, { cs with items := valF n :: cs.items }, (os :: q) ++ [callsF n]⟩)
    | [] :: q =>
      match cs.retire with
      | .error e => .error e
      | .ok cs =>
        if q.isEmpty then .ok (false, ⟨false, { cs with items := [] }, []⟩)
        else bfsAncLoop q cs
termination_by queue.length

/-- `bfs_iterators/mod.rs` 274-320. -/
def bfsAncAdvance [FlakyNode N V] (s : Bfs.AncState (Option N) V) : Except Panic (Bool × Bfs.AncState (Option N) V) :=
  if s.isRoot then .ok (false, { s with isRoot := false }) else bfsAncLoop s.queue s.cs

/-- `StreamingIterator::next`; `get` is `bfs_iterators/mod.rs` 322-328. -/
def bfsAncNext [FlakyNode N V] :
    Bfs.AncState (Option N) V → Except Panic (Option (Option (List V)) × Bfs.AncState (Option N) V) :=
  Fail.streamNextE bfsAncAdvance Bfs.ancGet

/-- `bfs_iterators/owned.rs` 76-81 and 116-136: `attach_context` splits the root. -/
def Wide.attachContext [FlakyNode N V] (s : Wide N) :
    Except Panic (Bfs.CtxState V (List (Option N)) (Option N)) :=
  match s.root with
  | none => .error .attachMidTraversal
  | some root => .ok ⟨true, ⟨[valF root], [], [], .mk none []⟩, some (callsF root), [], 0⟩

/-- `bfs_iterators/mod.rs` 42-87: a panic of `next` comes before the path segment is pushed and counted; the children of
the last answer were taken before the loop. -/
def bfsCtxLoop [FlakyNode N V] (queue : List (List (Option N))) (cc : Bfs.CtxCache V) (counter : Nat) :
    Except Panic (Bool × Bfs.CtxState V (List (Option N)) (Option N)) :=
  match cc.settle with
  | .error e => .error e
  | .ok cc =>
    match queue with
    | [] => .error .indexOutOfRange
    | (none :: os) :: q => .ok (true, ⟨false, cc, none, os :: q, counter⟩)
    | (some n :: os) :: q =>
      match Bfs.checkedSucc counter with
      | .error e => .error e
      | .ok counter' =>
        .ok (false, ⟨false, ⟨valF n :: cc.ancestors, counter :: cc.path, cc.stack, cc.cache⟩, some (callsF n), os :: q,
          counter'⟩)
    | [] :: q =>
      match cc.retire with
      | .error e => .error e
      | .ok cc =>
        if q.isEmpty then .ok (false, ⟨false, { cc with ancestors := [] }, none, [], 0⟩) else bfsCtxLoop q cc 0
termination_by queue.length

/-- `bfs_iterators/mod.rs` 30-88. -/
def bfsCtxAdvance [FlakyNode N V] (s : Bfs.CtxState V (List (Option N)) (Option N)) :
    Except Panic (Bool × Bfs.CtxState V (List (Option N)) (Option N)) :=
  if s.isRoot then .ok (false, { s with isRoot := false })
  else if s.cc.ancestors.isEmpty then .ok (false, s)
  else
    match s.children with
    | none => .error .unwrapNone
    | some cs => bfsCtxLoop (s.queue ++ [cs]) s.cc s.counter

/-- `StreamingIterator::next`. -/
def bfsCtxNext [FlakyNode N V] : Bfs.CtxState V (List (Option N)) (Option N) →
    Except Panic (Option (Option (Ctx V (List (Option N)))) × Bfs.CtxState V (List (Option N)) (Option N)) :=
  Fail.streamNextE bfsCtxAdvance Bfs.ctxGet

/-! ## Leaves -/

/-- `leaves_iterators/depth_first/owned.rs` 6-14. -/
structure Lv (N : Type u) (V : Type v) where
  root : Option N
  bottom : List (List (Option N))
  top : List (List (Option N))
  items : List V

/-- `dfs_preorder_iterators/owned.rs` 159-166: `leaves`. -/
def Pre.leaves (s : Pre N) : Lv N V := ⟨s.root, s.stack, [], []⟩

/-- `dfs_postorder_iterators/owned.rs` 66-73: `leaves`. -/
def Post.leaves (s : Post N V) : Lv N V := ⟨s.root, s.stack, [], []⟩

/-- `leaves_iterators/depth_first/mod.rs` 19-44. -/
def leavesLoop [FlakyNode N V] :
    (bottom top : List (List (Option N))) → (items : List V) → (just : Bool) → Option (Option V) × Lv N V
  | bottom, (none :: os) :: top, items, _ => (some none, ⟨none, bottom, os :: top, items⟩)
  | bottom, (some n :: os) :: top, items, _ => leavesLoop bottom (callsF n :: os :: top) (valF n :: items) true
  | bottom, [] :: top, items, true => (items.head?.map some, ⟨none, bottom, top, items.tail⟩)
  | bottom, [] :: top, items, false => leavesLoop bottom top items.tail false
  | (none :: os) :: bottom, [], items, _ => (some none, ⟨none, os :: bottom, [], items⟩)
  | (some n :: os) :: bottom, [], items, just => leavesLoop (os :: bottom) [callsF n] (valF n :: items) just
  | [] :: bottom, [], items, just => leavesLoop bottom [] items just
  | [], [], items, _ => (none, ⟨none, [], [], items⟩)
termination_by bottom top => 2 * (stackNodes bottom + stackNodes top) + bottom.length + top.length
decreasing_by
  all_goals
    try have hs : (unfold (some n)).size = 1 + _ := size_unfold (some n)
    try have hk : kids (some n) = callsF n := rfl
    try rw [hk] at hs
    simp only [stackNodes, List.map_cons, List.sum_cons, List.length_cons, List.map_nil, List.sum_nil,
      List.length_nil] at *
    omega

/-- `leaves_iterators/depth_first/mod.rs` 5-47. -/
def leavesNext [FlakyNode N V] (s : Lv N V) : Option (Option V) × Lv N V :=
  match s.root with
  | some root => leavesLoop s.bottom (callsF root :: s.top) (valF root :: s.items) true
  | none => leavesLoop s.bottom s.top s.items false

/-- `leaves_iterators/ancestors_depth_first/owned.rs` 7-15. -/
structure LvAnc (N : Type u) (V : Type v) where
  root : Option N
  items : List V
  old : List (List (Option N))
  new : List (List (Option N))

/-- `dfs_preorder_iterators/owned.rs` 313-325: `leaves`. -/
def PreAnc.leaves (s : PreAnc N V) : LvAnc N V := ⟨s.root, s.items, s.stack, []⟩

/-- `leaves_iterators/ancestors_depth_first/mod.rs` 18-53. -/
def leavesAncLoop [FlakyNode N V] (old new : List (List (Option N))) (items : List V) (pushed : Bool) :
    Bool × LvAnc N V :=
  match new with
  | (none :: os) :: new => (true, ⟨none, items, old, os :: new⟩)
  | (some n :: os) :: new => leavesAncLoop old (callsF n :: os :: new) (valF n :: items) true
  | new =>
    if pushed then (false, ⟨none, items, old, new.tail⟩)
    else
      match old with
      | (none :: os) :: old => (true, ⟨none, items, os :: old, new.tail⟩)
      | (some n :: os) :: old => leavesAncLoop (os :: old) (callsF n :: new.tail) (valF n :: items) true
      | old =>
        match _hi : items.tail with
        | [] => (false, ⟨none, [], old.tail, new.tail⟩)
        | i :: is => leavesAncLoop old.tail new.tail (i :: is) false
termination_by 3 * (stackNodes old + stackNodes new) + old.length + new.length + items.length
decreasing_by
  · have hs : (unfold (some n)).size = 1 + ((callsF n).map fun c => (unfold c).size).sum := size_unfold (some n)
    simp only [stackNodes, List.map_cons, List.sum_cons, List.length_cons] at *
    omega
  · have hs : (unfold (some n)).size = 1 + ((callsF n).map fun c => (unfold c).size).sum := size_unfold (some n)
    have h1 := Leaves.stackNodes_tail_le new
    have h2 : new.tail.length ≤ new.length := by simp
    simp only [stackNodes, List.map_cons, List.sum_cons, List.length_cons] at *
    omega
  · have h1 := Leaves.stackNodes_tail_le new
    have h2 : new.tail.length ≤ new.length := by simp
    have h3 := Leaves.stackNodes_tail_le old
    have h4 : old.tail.length ≤ old.length := by simp
    have h5 : items.length = is.length + 2 := by
      have := congrArg List.length _hi
      simp only [List.length_tail, List.length_cons] at this
      omega
    simp only [List.length_cons]
    omega

/-- `leaves_iterators/ancestors_depth_first/mod.rs` 5-54: the item answered last is popped first. -/
def leavesAncAdvance [FlakyNode N V] (s : LvAnc N V) : Bool × LvAnc N V :=
  match s.root with
  | some root => leavesAncLoop s.old (callsF root :: s.new) (valF root :: s.items) true
  | none => leavesAncLoop s.old s.new s.items.tail false

/-- `leaves_iterators/ancestors_depth_first/mod.rs` 56-62. -/
def leavesAncGet (s : LvAnc N V) : Option (List V) :=
  if s.items.isEmpty then none else some s.items.reverse

/-- `StreamingIterator::next`. -/
def leavesAncNext [FlakyNode N V] : LvAnc N V → Option (Option (List V)) × LvAnc N V :=
  Fail.streamNext leavesAncAdvance leavesAncGet

/-- `leaves_iterators/breadth_first/owned.rs` 9-17.  The new queue holds `Peekable`s that have been peeked at once. -/
structure WideLv (N : Type u) where
  root : Option N
  old : List (List (Option N))
  new : List (List (Option N))

/-- `bfs_iterators/owned.rs` 65-73: `leaves`. -/
def Wide.leaves (s : Wide N) : WideLv N := ⟨s.root, s.queue, []⟩

/-- `leaves_iterators/breadth_first/mod.rs` 10-14 (and 31-37, 47-53): split the node and peek at its children.  `none` is a
panic in `peek`; the value and the child iterator are dropped then. -/
def opened [FlakyNode N V] (n : N) : Option (Bool × V) :=
  match callsF n with
  | none :: _ => none
  | os => some (!os.isEmpty, valF n)

/-- `leaves_iterators/breadth_first/mod.rs` 21-39. -/
def bfsLeavesLoopNew [FlakyNode N V] : List (List (Option N)) → Option (Option (Bool × V)) × WideLv N
  | [] => (none, ⟨none, [], []⟩)
  | [] :: rest => bfsLeavesLoopNew rest
  | (none :: os) :: rest => (some none, ⟨none, [], os :: rest⟩)
  | (some n :: os) :: rest =>
    match opened n with
    | none => (some none, ⟨none, [], os :: rest⟩)
    | some a => (some (some a), ⟨none, [], (os :: rest) ++ [callsF n]⟩)

/-- `leaves_iterators/breadth_first/mod.rs` 17-57. -/
def bfsLeavesLoop [FlakyNode N V] (new : List (List (Option N))) :
    List (List (Option N)) → Option (Option (Bool × V)) × WideLv N
  | [] => bfsLeavesLoopNew new
  | [] :: rest => bfsLeavesLoop new rest
  | (none :: os) :: rest => (some none, ⟨none, os :: rest, new⟩)
  | (some n :: os) :: rest =>
    match opened n with
    | none => (some none, ⟨none, os :: rest, new⟩)
    | some a => (some (some a), ⟨none, os :: rest, new ++ [callsF n]⟩)

/-- `leaves_iterators/breadth_first/mod.rs` 5-61. -/
def bfsLeavesStep [FlakyNode N V] (s : WideLv N) : Option (Option (Bool × V)) × WideLv N :=
  match s.root with
  | some root =>
    match opened root with
    | none => (some none, { s with root := none })
    | some a => (some (some a), ⟨none, s.old, s.new ++ [callsF root]⟩)
  | none => bfsLeavesLoop s.new s.old

/-- How many calls of `next` are still to come. -/
def WideLv.pending [FlakyNode N V] (s : WideLv N) : Nat :=
  Bfs.LeavesState.pending (N := Option N) ⟨s.root.map some, s.old, s.new⟩

theorem bfsLeavesStep_pending [FlakyNode N V] (s s' : WideLv N)
    (x : Option (Bool × V)) (h : bfsLeavesStep s = (some x, s')) : s'.pending < s.pending := by
  obtain ⟨root, old, new⟩ := s
  have hn : ∀ n : N, (unfold (some n)).size = 1 + ((callsF n).map fun c => (unfold c).size).sum :=
    fun n => size_unfold (some n)
  have h0 : (unfold (none : Option N)).size = 1 := size_unfold none
  cases root with
  | some r =>
    simp only [bfsLeavesStep] at h
    split at h <;> simp only [Prod.mk.injEq] at h <;> obtain ⟨-, rfl⟩ := h <;>
      simp [WideLv.pending, Bfs.LeavesState.pending, hn r] <;> omega
  | none =>
    simp only [bfsLeavesStep] at h
    induction old with
    | nil =>
      simp only [bfsLeavesLoop] at h
      induction new with
      | nil => simp [bfsLeavesLoopNew] at h
      | cons ns rest ih =>
        match ns with
        | [] => simpa [WideLv.pending, Bfs.LeavesState.pending] using ih h
        | none :: os =>
          simp only [bfsLeavesLoopNew, Prod.mk.injEq] at h
          obtain ⟨-, rfl⟩ := h
          simp [WideLv.pending, Bfs.LeavesState.pending, h0]
        | some n :: os =>
          simp only [bfsLeavesLoopNew] at h
          split at h <;> simp only [Prod.mk.injEq] at h <;> obtain ⟨-, rfl⟩ := h <;>
            simp [WideLv.pending, Bfs.LeavesState.pending, hn n] <;> omega
    | cons ns rest ih =>
      match ns with
      | [] => simpa [WideLv.pending, Bfs.LeavesState.pending] using ih h
      | none :: os =>
        simp only [bfsLeavesLoop, Prod.mk.injEq] at h
        obtain ⟨-, rfl⟩ := h
        simp [WideLv.pending, Bfs.LeavesState.pending, h0]
      | some n :: os =>
        simp only [bfsLeavesLoop] at h
        split at h <;> simp only [Prod.mk.injEq] at h <;> obtain ⟨-, rfl⟩ := h <;>
          simp [WideLv.pending, Bfs.LeavesState.pending, hn n] <;> omega

/-- `leaves_iterators/breadth_first/mod.rs` 63-80. -/
def bfsLeavesNext [FlakyNode N V] (s : WideLv N) : Option (Option V) × WideLv N :=
  match _h : bfsLeavesStep s with
  | (none, s') => (none, s')
  | (some none, s') => (some none, s')
  | (some (some (true, _)), s') => bfsLeavesNext s'
  | (some (some (false, v)), s') => (some (some v), s')
termination_by s.pending
decreasing_by exact bfsLeavesStep_pending _ _ _ _h

/-- `leaves_iterators/ancestors_breadth_first/mod.rs` 95-147: the value has been pushed when `peek` panics, the child
iterator has not. -/
def bfsLeavesAncLoop [FlakyNode N V] (isRoot : Bool) (queue : List (List (Option N))) (cs : Bfs.CacheState V) :
    Except Panic (Bool × Bfs.AncState (Option N) V) :=
  match queue with
  | [] => .ok (false, ⟨isRoot, { cs with items := [] }, []⟩)
  | it :: q =>
    match Bfs.settle cs with
    | .error e => .error e
    | .ok cs =>
      match it with
      | none :: os => .ok (true, ⟨isRoot, cs, os :: q⟩)
      | some n :: os =>
        match callsF n with
        | none :: _ => .ok (true, ⟨false, { cs with items := valF n :: cs.items }, os :: q⟩)
        | [] => .ok (false, ⟨false, { cs with items := valF n :: cs.items }, (os :: q) ++ [callsF n]⟩)
        | some _ :: _ => bfsLeavesAncLoop false ((os :: q) ++ [callsF n]) { cs with items := valF n :: cs.items }
      | [] =>
        if isRoot then .ok (false, ⟨false, cs, [] :: q⟩)
        else
          match cs.retire with
          | .error e => .error e
          | .ok cs => bfsLeavesAncLoop isRoot q cs
termination_by 2 * stackNodes queue + queue.length
decreasing_by
  · have := Bfs.stackNodes_push (some n) os q
    have hk : kids (some n) = callsF n := rfl
    rw [hk] at this
    simp only [List.length_append, List.length_cons, List.length_nil]
    omega
  · simp only [stackNodes, List.map_cons, List.sum_cons, List.map_nil, List.sum_nil, List.length_cons]
    omega

/-- `leaves_iterators/ancestors_breadth_first/mod.rs` 95-147: `advance`. -/
def bfsLeavesAncAdvance [FlakyNode N V] (s : Bfs.AncState (Option N) V) :
    Except Panic (Bool × Bfs.AncState (Option N) V) :=
  bfsLeavesAncLoop s.isRoot s.queue s.cs

/-- `StreamingIterator::next`. -/
def bfsLeavesAncNext [FlakyNode N V] :
    Bfs.AncState (Option N) V → Except Panic (Option (Option (List V)) × Bfs.AncState (Option N) V) :=
  Fail.streamNextE bfsLeavesAncAdvance Bfs.ancGet

end Flaky

end TreeIter
