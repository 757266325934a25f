import Verif.Model.BfsCtx

/-!
# The iterators over child iterators that are arbitrary state machines

The other model files represent a child iterator by the list of nodes it still has to yield.  That hides one thing: a
Rust `Iterator` that has answered `None` may answer anything when it is asked again (only a `FusedIterator` promises
`None` forever), and a list would silently answer `None`.  Here a child iterator is an arbitrary state `I` with a
function `poll`, the `next` of the Rust trait, and the same loops are written with one `poll` per `next` call of the
code.

Simplified: the collection of children (`IntoIterator`) and its iterator are the same thing (`into_iter` of an iterator
is the identity).  Loops that descend take a bound on the number of iterations (`fuel`) and stop with `outOfFuel`, as
nothing is known about the depth.
-/

universe u v w

namespace TreeIter

/-- `prelude.rs` 742-759 (`OwnedTreeNode`, and its borrowed variants): a node gives its value and a child iterator;
`poll` is `Iterator::next` of that iterator. -/
class PollNode (N : Type u) (V : outParam (Type v)) (I : outParam (Type w)) where
  splitI : N → V × I
  poll : I → Option N × I

export PollNode (splitI poll)

/-- The iterator `i` yields the nodes `l` and then answers `None` for the first time.  Nothing is said about later
answers. -/
inductive Gives {N : Type u} {V : Type v} {I : Type w} [PollNode N V I] : I → List N → Prop
  | done {i : I} : (poll (N := N) i).1 = none → Gives i []
  | item {i : I} {n : N} {l : List N} : (poll i).1 = some n → Gives (poll (N := N) i).2 l → Gives i (n :: l)

/-- A node of a finite tree whose child iterators yield the children up to their first `None`. -/
class PollTree (N : Type u) (V : outParam (Type v)) (I : outParam (Type w)) extends PollNode N V I, TreeNode N V where
  splitI_value : ∀ n : N, (splitI n).1 = val n
  splitI_gives : ∀ n : N, Gives (splitI n).2 (kids n)

namespace Poll

variable {N : Type u} {V : Type v} {I : Type w}

/-! ## `dfs_preorder` -/

/-- `dfs_preorder_iterators/owned.rs` 139-145. -/
structure Pre (N : Type u) (I : Type w) where
  root : Option N
  stack : List I

/-- `dfs_preorder_iterators/mod.rs` 14-24. -/
def preLoop [PollNode N V I] : List I → Option N × List I
  | [] => (none, [])
  | i :: rest =>
    match poll (N := N) i with
    | (some n, i') => (some n, i' :: rest)
    | (none, _) => preLoop rest

/-- `dfs_preorder_iterators/mod.rs` 5-33. -/
def preNext [PollNode N V I] (s : Pre N I) : Option V × Pre N I :=
  match s.root with
  | some root => (some (splitI root).1, ⟨none, (splitI root).2 :: s.stack⟩)
  | none =>
    match preLoop (N := N) s.stack with
    | (none, st) => (none, ⟨none, st⟩)
    | (some n, st) => (some (splitI n).1, ⟨none, (splitI n).2 :: st⟩)

/-- `dfs_preorder_iterators/owned.rs` 291-298. -/
structure PreAnc (N : Type u) (V : Type v) (I : Type w) where
  root : Option N
  stack : List I
  items : List V

/-- `dfs_preorder_iterators/mod.rs` 124-135. -/
def preAncLoop [PollNode N V I] : List I → List V → Option N × List I × List V
  | [], it => (none, [], it)
  | i :: rest, it =>
    match poll (N := N) i with
    | (some n, i') => (some n, i' :: rest, it)
    | (none, _) => preAncLoop rest it.tail

/-- `dfs_preorder_iterators/mod.rs` 114-142. -/
def preAncAdvance [PollNode N V I] (s : PreAnc N V I) : PreAnc N V I :=
  match s.root with
  | some root => ⟨none, (splitI root).2 :: s.stack, (splitI root).1 :: s.items⟩
  | none =>
    match preAncLoop (N := N) s.stack s.items with
    | (none, st, it) => ⟨none, st, it⟩
    | (some n, st, it) => ⟨none, (splitI n).2 :: st, (splitI n).1 :: it⟩

/-- `dfs_preorder_iterators/mod.rs` 144-150: `get`. -/
def preAncGet (s : PreAnc N V I) : Option (List V) := if s.items.length > 0 then some s.items.reverse else none

/-- `StreamingIterator::next`. -/
def preAncNext [PollNode N V I] : PreAnc N V I → Option (List V) × PreAnc N V I := streamNext preAncAdvance preAncGet

/-- `dfs_preorder_iterators/owned.rs` 250-257. -/
structure PreCtx (N : Type u) (V : Type v) (I : Type w) where
  root : Option N
  stack : List I
  path : List Nat
  ancestors : List V
  children : Option I

/-- `dfs_preorder_iterators/mod.rs` 190-208. -/
def preCtxLoop [PollNode N V I] : List I → List Nat → List V → Except Panic (Option N × List I × List Nat × List V)
  | [], path, anc => .ok (none, [], path, anc)
  | i :: rest, path, anc =>
    match poll (N := N) i with
    | (some n, i') =>
      match path with
      | p :: path => .ok (some n, i' :: rest, wrapSucc p :: path, anc)
      | [] => .error .unwrapNone
    | (none, _) => preCtxLoop rest path.tail anc.tail

/-- `dfs_preorder_iterators/mod.rs` 166-217. -/
def preCtxAdvance [PollNode N V I] (s : PreCtx N V I) : Except Panic (PreCtx N V I) :=
  match s.root with
  | some root =>
    .ok { s with root := none, ancestors := (splitI root).1 :: s.ancestors, children := some (splitI root).2 }
  | none =>
    if s.ancestors.isEmpty then .ok s
    else
      let (stack, path, anc) :=
        match s.children with
        | some cs => (cs :: s.stack, usizeMax :: s.path, s.ancestors)
        | none => (s.stack, if s.path.head? = some usizeMax then s.path.tail else s.path, s.ancestors.tail)
      match preCtxLoop (N := N) stack path anc with
      | .error e => .error e
      | .ok (some n, st, path, anc) => .ok ⟨none, st, path, (splitI n).1 :: anc, some (splitI n).2⟩
      | .ok (none, st, path, _) => .ok ⟨none, st, path, [], none⟩

/-- `dfs_preorder_iterators/mod.rs` 219-225: `get`. -/
def preCtxGet (s : PreCtx N V I) : Option (Ctx V I) :=
  if s.ancestors.isEmpty then none else some ⟨s.path.reverse, s.ancestors.reverse, s.children⟩

/-- `StreamingIterator::next`. -/
def preCtxNext [PollNode N V I] : PreCtx N V I → Except Panic (Option (Ctx V I) × PreCtx N V I) :=
  streamNextE preCtxAdvance preCtxGet

/-! ## `dfs_postorder` -/

/-- `dfs_postorder_iterators/owned.rs` 44-51 and 189-196 (the same fields). -/
structure Post (N : Type u) (V : Type v) (I : Type w) where
  root : Option N
  items : List V
  stack : List I

/-- `dfs_postorder_iterators/mod.rs` 16-29. -/
def postLoop [PollNode N V I] : Nat → List I → List V → Except Panic (Option V × List V × List I)
  | 0, _, _ => .error .outOfFuel
  | _ + 1, [], items => .ok (items.head?, items.tail, [])
  | f + 1, i :: rest, items =>
    match poll (N := N) i with
    | (some n, i') => postLoop f ((splitI n).2 :: i' :: rest) ((splitI n).1 :: items)
    | (none, _) => .ok (items.head?, items.tail, rest)

/-- `dfs_postorder_iterators/mod.rs` 5-33. -/
def postNext [PollNode N V I] (fuel : Nat) (s : Post N V I) : Except Panic (Option V × Post N V I) :=
  let (items, stack) :=
    match s.root with
    | some root => ((splitI root).1 :: s.items, (splitI root).2 :: s.stack)
    | none => (s.items, s.stack)
  match postLoop (N := N) fuel stack items with
  | .error e => .error e
  | .ok (o, items, stack) => .ok (o, ⟨none, items, stack⟩)

/-- `dfs_postorder_iterators/mod.rs` 58-69. -/
def postAncLoop [PollNode N V I] : Nat → List I → List V → Except Panic (List V × List I)
  | 0, _, _ => .error .outOfFuel
  | _ + 1, [], items => .ok (items, [])
  | f + 1, i :: rest, items =>
    match poll (N := N) i with
    | (some n, i') => postAncLoop f ((splitI n).2 :: i' :: rest) ((splitI n).1 :: items)
    | (none, _) => .ok (items, rest)

/-- `dfs_postorder_iterators/mod.rs` 47-70. -/
def postAncAdvance [PollNode N V I] (fuel : Nat) (s : Post N V I) : Except Panic (Post N V I) :=
  let (items, stack) :=
    match s.root with
    | some root => ((splitI root).1 :: s.items, (splitI root).2 :: s.stack)
    | none => (s.items.tail, s.stack)
  match postAncLoop (N := N) fuel stack items with
  | .error e => .error e
  | .ok (items, stack) => .ok ⟨none, items, stack⟩

/-- `dfs_postorder_iterators/mod.rs` 72-78: `get`. -/
def postAncGet (s : Post N V I) : Option (List V) := if s.items.length > 0 then some s.items.reverse else none

/-- `StreamingIterator::next`. -/
def postAncNext [PollNode N V I] (fuel : Nat) : Post N V I → Except Panic (Option (List V) × Post N V I) :=
  streamNextE (postAncAdvance fuel) postAncGet

/-- `dfs_postorder_iterators/borrow.rs` 105-113 (`mut_borrow.rs` 109-117): fields of the iterator with context.  The
collections in `into_iterator_stack` are given by the iterators they turn into. -/
structure PostCtx (N : Type u) (V : Type v) (I : Type w) where
  root : Option N
  stack : List I
  into : List I
  path : List Nat
  ancestors : List V
  children : Option I

/-- `dfs_postorder_iterators/borrow.rs` 156-189. -/
def postCtxLoop [PollNode N V I] : Nat → List I → List I → List Nat → List V → Except Panic (PostCtx N V I)
  | 0, _, _, _, _ => .error .outOfFuel
  | f + 1, i :: rest, into, path, anc =>
    match poll (N := N) i with
    | (some n, i') =>
      match path with
      | p :: path =>
        postCtxLoop f ((splitI n).2 :: i' :: rest) ((splitI n).2 :: into) (usizeMax :: wrapSucc p :: path)
          ((splitI n).1 :: anc)
      | [] => .error .unwrapNone
    | (none, _) =>
      match into with
      | c :: into => .ok ⟨none, rest, into, path.tail, anc, some c⟩
      | [] => .error .unwrapNone
  | _ + 1, [], c :: into, path, anc => .ok ⟨none, [], into, path.tail, anc, some c⟩
  | _ + 1, [], [], _, _ => .error .unwrapNone

/-- `dfs_postorder_iterators/borrow.rs` 138-190: `advance`. -/
def postCtxAdvance [PollNode N V I] (fuel : Nat) (s : PostCtx N V I) : Except Panic (PostCtx N V I) :=
  match s.root with
  | some root =>
    postCtxLoop fuel ((splitI root).2 :: s.stack) ((splitI root).2 :: s.into) (usizeMax :: s.path)
      ((splitI root).1 :: s.ancestors)
  | none =>
    if s.ancestors.tail.isEmpty then .ok { s with ancestors := s.ancestors.tail }
    else postCtxLoop fuel s.stack s.into s.path s.ancestors.tail

/-- `dfs_postorder_iterators/borrow.rs` 192-198: `get`. -/
def postCtxGet (s : PostCtx N V I) : Option (Ctx V I) :=
  if s.ancestors.isEmpty then none else some ⟨s.path.reverse, s.ancestors.reverse, s.children⟩

/-- `StreamingIterator::next`. -/
def postCtxNext [PollNode N V I] (fuel : Nat) : PostCtx N V I → Except Panic (Option (Ctx V I) × PostCtx N V I) :=
  streamNextE (postCtxAdvance fuel) postCtxGet

/-- `dfs_postorder_iterators/owned.rs` 104-111: the same without the saved collections. -/
structure PostOwnCtx (N : Type u) (V : Type v) (I : Type w) where
  root : Option N
  stack : List I
  path : List Nat
  ancestors : List V

/-- `dfs_postorder_iterators/owned.rs` 148-170. -/
def postOwnCtxLoop [PollNode N V I] : Nat → List I → List Nat → List V → Except Panic (PostOwnCtx N V I)
  | 0, _, _, _ => .error .outOfFuel
  | f + 1, i :: rest, path, anc =>
    match poll (N := N) i with
    | (some n, i') =>
      match path with
      | p :: path =>
        postOwnCtxLoop f ((splitI n).2 :: i' :: rest) (usizeMax :: wrapSucc p :: path) ((splitI n).1 :: anc)
      | [] => .error .unwrapNone
    | (none, _) => .ok ⟨none, rest, path.tail, anc⟩
  | _ + 1, [], path, anc => .ok ⟨none, [], path.tail, anc⟩

/-- `dfs_postorder_iterators/owned.rs` 135-171: `advance`. -/
def postOwnCtxAdvance [PollNode N V I] (fuel : Nat) (s : PostOwnCtx N V I) : Except Panic (PostOwnCtx N V I) :=
  match s.root with
  | some root =>
    postOwnCtxLoop fuel ((splitI root).2 :: s.stack) (usizeMax :: s.path) ((splitI root).1 :: s.ancestors)
  | none =>
    if s.ancestors.tail.isEmpty then .ok { s with ancestors := s.ancestors.tail }
    else postOwnCtxLoop fuel s.stack s.path s.ancestors.tail

/-- `dfs_postorder_iterators/owned.rs` 173-179: `get`; `children` is always `None`. -/
def postOwnCtxGet (s : PostOwnCtx N V I) : Option (Ctx V I) :=
  if s.ancestors.isEmpty then none else some ⟨s.path.reverse, s.ancestors.reverse, none⟩

/-- `StreamingIterator::next`. -/
def postOwnCtxNext [PollNode N V I] (fuel : Nat) :
    PostOwnCtx N V I → Except Panic (Option (Ctx V I) × PostOwnCtx N V I) :=
  streamNextE (postOwnCtxAdvance fuel) postOwnCtxGet

/-! ## `bfs` -/

/-- `bfs_iterators/mod.rs` 14-23. -/
def bfsLoop [PollNode N V I] : List I → Option V × Pre N I
  | [] => (none, ⟨none, []⟩)
  | i :: rest =>
    match poll (N := N) i with
    | (some n, i') => (some (splitI n).1, ⟨none, (i' :: rest) ++ [(splitI n).2]⟩)
    | (none, _) => bfsLoop rest

/-- `bfs_iterators/mod.rs` 5-26; `stack` is `traversal_queue`, front first. -/
def bfsNext [PollNode N V I] (s : Pre N I) : Option V × Pre N I :=
  match s.root with
  | some root => (some (splitI root).1, ⟨none, s.stack ++ [(splitI root).2]⟩)
  | none => bfsLoop (N := N) s.stack

/-- `bfs_iterators/owned.rs` 155-164. -/
structure BfsAnc (V : Type v) (I : Type w) where
  isRoot : Bool
  cs : Bfs.CacheState V
  queue : List I

/-- `bfs_iterators/owned.rs` 170-188. -/
def BfsAnc.new [PollNode N V I] (root : N) : BfsAnc V I :=
  ⟨true, ⟨[(splitI root).1], [], .mk none []⟩, [(splitI root).2]⟩

/-- `bfs_iterators/mod.rs` 280-319. -/
def bfsAncLoop [PollNode N V I] : List I → Bfs.CacheState V → Except Panic (BfsAnc V I)
  | queue, cs =>
    match Bfs.settle cs with
    | .error e => .error e
    | .ok cs =>
      match queue with
      | [] => .error .indexOutOfRange
      | i :: q =>
        match poll (N := N) i with
        | (some n, i') => .ok ⟨false, { cs with items := (splitI n).1 :: cs.items }, (i' :: q) ++ [(splitI n).2]⟩
        | (none, _) =>
          match cs.retire with
          | .error e => .error e
          | .ok cs => if q.isEmpty then .ok ⟨false, { cs with items := [] }, []⟩ else bfsAncLoop q cs
termination_by queue => queue.length

/-- `bfs_iterators/mod.rs` 274-320. -/
def bfsAncAdvance (N : Type u) [PollNode N V I] (s : BfsAnc V I) : Except Panic (BfsAnc V I) :=
  if s.isRoot then .ok { s with isRoot := false } else bfsAncLoop (N := N) s.queue s.cs

/-- `bfs_iterators/mod.rs` 322-328: `get`. -/
def bfsAncGet (s : BfsAnc V I) : Option (List V) :=
  if s.cs.items.length = 0 then none else some s.cs.items.reverse

/-- `StreamingIterator::next`. -/
def bfsAncNext (N : Type u) [PollNode N V I] : BfsAnc V I → Except Panic (Option (List V) × BfsAnc V I) :=
  streamNextE (bfsAncAdvance N) bfsAncGet

/-- `bfs_iterators/owned.rs` 100-110. -/
structure BfsCtx (V : Type v) (I : Type w) where
  isRoot : Bool
  cc : Bfs.CtxCache V
  children : Option I
  queue : List I
  counter : Nat

/-- `bfs_iterators/owned.rs` 116-136. -/
def BfsCtx.new [PollNode N V I] (root : N) : BfsCtx V I :=
  ⟨true, ⟨[(splitI root).1], [], [], .mk none []⟩, some (splitI root).2, [], 0⟩

/-- `bfs_iterators/mod.rs` 42-87. -/
def bfsCtxLoop [PollNode N V I] : List I → Bfs.CtxCache V → Nat → Except Panic (BfsCtx V I)
  | queue, cc, counter =>
    match cc.settle with
    | .error e => .error e
    | .ok cc =>
      match queue with
      | [] => .error .indexOutOfRange
      | i :: q =>
        match poll (N := N) i with
        | (some n, i') =>
          match Bfs.checkedSucc counter with
          | .error e => .error e
          | .ok counter' =>
            .ok ⟨false, ⟨(splitI n).1 :: cc.ancestors, counter :: cc.path, cc.stack, cc.cache⟩, some (splitI n).2,
              i' :: q, counter'⟩
        | (none, _) =>
          match cc.retire with
          | .error e => .error e
          | .ok cc => if q.isEmpty then .ok ⟨false, { cc with ancestors := [] }, none, [], 0⟩ else bfsCtxLoop q cc 0
termination_by queue => queue.length

/-- `bfs_iterators/mod.rs` 30-88. -/
def bfsCtxAdvance (N : Type u) [PollNode N V I] (s : BfsCtx V I) : Except Panic (BfsCtx V I) :=
  if s.isRoot then .ok { s with isRoot := false }
  else if s.cc.ancestors.isEmpty then .ok s
  else
    match s.children with
    | none => .error .unwrapNone
    | some cs => bfsCtxLoop (N := N) (s.queue ++ [cs]) s.cc s.counter

/-- `bfs_iterators/mod.rs` 90-96: `get`. -/
def bfsCtxGet (s : BfsCtx V I) : Option (Ctx V I) :=
  if s.cc.ancestors.isEmpty then none else some ⟨s.cc.path.reverse, s.cc.ancestors.reverse, s.children⟩

/-- `StreamingIterator::next`. -/
def bfsCtxNext (N : Type u) [PollNode N V I] : BfsCtx V I → Except Panic (Option (Ctx V I) × BfsCtx V I) :=
  streamNextE (bfsCtxAdvance N) bfsCtxGet

/-! ## Depth-first `leaves()` -/

/-- `leaves_iterators/depth_first/owned.rs` 6-14. -/
structure Lv (N : Type u) (V : Type v) (I : Type w) where
  root : Option N
  bottom : List I
  top : List I
  items : List V

/-- `dfs_preorder_iterators/owned.rs` 159-166. -/
def Lv.ofPre (s : Pre N I) : Lv N V I := ⟨s.root, s.stack, [], []⟩

/-- `dfs_postorder_iterators/owned.rs` 66-73. -/
def Lv.ofPost (s : Post N V I) : Lv N V I := ⟨s.root, s.stack, [], []⟩

/-- `leaves_iterators/depth_first/mod.rs` 19-44. -/
def lvLoop [PollNode N V I] : Nat → (bottom top : List I) → List V → Bool → Except Panic (Option V × Lv N V I)
  | 0, _, _, _, _ => .error .outOfFuel
  | f + 1, bottom, i :: top, items, just =>
    match poll (N := N) i with
    | (some n, i') => lvLoop f bottom ((splitI n).2 :: i' :: top) ((splitI n).1 :: items) true
    | (none, _) =>
      if just then .ok (items.head?, ⟨none, bottom, top, items.tail⟩) else lvLoop f bottom top items.tail just
  | f + 1, i :: bottom, [], items, just =>
    match poll (N := N) i with
    | (some n, i') => lvLoop f (i' :: bottom) [(splitI n).2] ((splitI n).1 :: items) just
    | (none, _) => lvLoop f bottom [] items just
  | _ + 1, [], [], items, _ => .ok (none, ⟨none, [], [], items⟩)

/-- `leaves_iterators/depth_first/mod.rs` 5-47. -/
def lvNext [PollNode N V I] (fuel : Nat) (s : Lv N V I) : Except Panic (Option V × Lv N V I) :=
  match s.root with
  | some root => lvLoop fuel s.bottom ((splitI root).2 :: s.top) ((splitI root).1 :: s.items) true
  | none => lvLoop fuel s.bottom s.top s.items false

/-- `leaves_iterators/ancestors_depth_first/owned.rs` 7-16. -/
structure LvAnc (N : Type u) (V : Type v) (I : Type w) where
  root : Option N
  items : List V
  old : List I
  new : List I

/-- `dfs_preorder_iterators/owned.rs` 313-325. -/
def LvAnc.ofPre (s : PreAnc N V I) : LvAnc N V I := ⟨s.root, s.items, s.stack, []⟩

/-- `dfs_postorder_iterators/owned.rs` 211-223. -/
def LvAnc.ofPost (s : Post N V I) : LvAnc N V I := ⟨s.root, s.items, s.stack, []⟩

/-- `leaves_iterators/ancestors_depth_first/mod.rs` 37-53: the part of the loop after the top of `new_traversal_stack`
was found exhausted or missing and has been popped; `more` is the rest of the loop. -/
def lvAncOld [PollNode N V I] (more : List I → List I → List V → Bool → Except Panic (LvAnc N V I))
    (old new : List I) (items : List V) (pushed : Bool) : Except Panic (LvAnc N V I) :=
  if pushed then .ok ⟨none, items, old, new⟩
  else
    let giveUp (old : List I) :=
      match items.tail with
      | [] => .ok ⟨none, [], old, new⟩
      | i :: is => more old new (i :: is) false
    match old with
    | [] => giveUp []
    | i :: old =>
      match poll (N := N) i with
      | (some n, i') => more (i' :: old) ((splitI n).2 :: new) ((splitI n).1 :: items) true
      | (none, _) => giveUp old

/-- `leaves_iterators/ancestors_depth_first/mod.rs` 18-53. -/
def lvAncLoop [PollNode N V I] : Nat → (old new : List I) → List V → Bool → Except Panic (LvAnc N V I)
  | 0, _, _, _, _ => .error .outOfFuel
  | f + 1, old, [], items, pushed => lvAncOld (lvAncLoop f) old [] items pushed
  | f + 1, old, i :: new, items, pushed =>
    match poll (N := N) i with
    | (some n, i') => lvAncLoop f old ((splitI n).2 :: i' :: new) ((splitI n).1 :: items) true
    | (none, _) => lvAncOld (lvAncLoop f) old new items pushed

/-- `leaves_iterators/ancestors_depth_first/mod.rs` 5-54. -/
def lvAncAdvance [PollNode N V I] (fuel : Nat) (s : LvAnc N V I) : Except Panic (LvAnc N V I) :=
  match s.root with
  | some root => lvAncLoop fuel s.old ((splitI root).2 :: s.new) ((splitI root).1 :: s.items) true
  | none => lvAncLoop fuel s.old s.new s.items.tail false

/-- `leaves_iterators/ancestors_depth_first/mod.rs` 56-62: `get`. -/
def lvAncGet (s : LvAnc N V I) : Option (List V) := if s.items.isEmpty then none else some s.items.reverse

/-- `StreamingIterator::next`. -/
def lvAncNext [PollNode N V I] (fuel : Nat) : LvAnc N V I → Except Panic (Option (List V) × LvAnc N V I) :=
  streamNextE (lvAncAdvance fuel) lvAncGet

/-! ## Breadth-first `leaves()` -/

/-- `core::iter::Peekable`: the answer fetched ahead, if any, and the iterator. -/
structure Peek (N : Type u) (I : Type w) where
  peeked : Option (Option N)
  it : I

/-- `Peekable::next`. -/
def Peek.next [PollNode N V I] (p : Peek N I) : Option N × Peek N I :=
  match p.peeked with
  | some a => (a, ⟨none, p.it⟩)
  | none => ((poll p.it).1, ⟨none, (poll (N := N) p.it).2⟩)

/-- `Peekable::peek` on a fresh `Peekable`; the state after it. -/
def Peek.ahead [PollNode N V I] (i : I) : Peek N I := ⟨some (poll i).1, (poll (N := N) i).2⟩

/-- `leaves_iterators/breadth_first/owned.rs` 9-18. -/
structure BfsLv (N : Type u) (I : Type w) where
  root : Option N
  old : List I
  new : List (Peek N I)

/-- `bfs_iterators/owned.rs` 65-73. -/
def BfsLv.of (s : Pre N I) : BfsLv N I := ⟨s.root, s.stack, []⟩

/-- `leaves_iterators/breadth_first/mod.rs` 21-39. -/
def bfsLvLoopNew [PollNode N V I] : List (Peek N I) → Option (Bool × V) × BfsLv N I
  | [] => (none, ⟨none, [], []⟩)
  | i :: rest =>
    match i.next with
    | (none, _) => bfsLvLoopNew rest
    | (some n, i') =>
      (some ((poll (N := N) (splitI n).2).1.isSome, (splitI n).1),
        ⟨none, [], (i' :: rest) ++ [Peek.ahead (splitI n).2]⟩)

/-- `leaves_iterators/breadth_first/mod.rs` 17-57. -/
def bfsLvLoop [PollNode N V I] (new : List (Peek N I)) : List I → Option (Bool × V) × BfsLv N I
  | [] => bfsLvLoopNew new
  | i :: rest =>
    match poll (N := N) i with
    | (none, _) => bfsLvLoop new rest
    | (some n, i') =>
      (some ((poll (N := N) (splitI n).2).1.isSome, (splitI n).1),
        ⟨none, i' :: rest, new ++ [Peek.ahead (splitI n).2]⟩)

/-- `leaves_iterators/breadth_first/mod.rs` 5-61. -/
def bfsLvStep [PollNode N V I] (s : BfsLv N I) : Option (Bool × V) × BfsLv N I :=
  match s.root with
  | some root =>
    (some ((poll (N := N) (splitI root).2).1.isSome, (splitI root).1),
      ⟨none, s.old, s.new ++ [Peek.ahead (splitI root).2]⟩)
  | none => bfsLvLoop s.new s.old

/-- `leaves_iterators/breadth_first/mod.rs` 63-80. -/
def bfsLvNext [PollNode N V I] : Nat → BfsLv N I → Except Panic (Option V × BfsLv N I)
  | 0, _ => .error .outOfFuel
  | f + 1, s =>
    match bfsLvStep s with
    | (none, s') => .ok (none, s')
    | (some (true, _), s') => bfsLvNext f s'
    | (some (false, v), s') => .ok (some v, s')

/-- `leaves_iterators/ancestors_breadth_first/owned.rs` 14-23. -/
structure BfsLvAnc (N : Type u) (V : Type v) (I : Type w) where
  isRoot : Bool
  cs : Bfs.CacheState V
  queue : List (Peek N I)

/-- `bfs_iterators/owned.rs` 191-203: the iterators are made peekable; nothing is fetched ahead. -/
def BfsLvAnc.of (s : BfsAnc V I) : BfsLvAnc N V I := ⟨s.isRoot, s.cs, s.queue.map (Peek.mk none)⟩

/-- `leaves_iterators/ancestors_breadth_first/mod.rs` 95-147. -/
def bfsLvAncLoop [PollNode N V I] : Nat → Bool → List (Peek N I) → Bfs.CacheState V → Except Panic (BfsLvAnc N V I)
  | 0, _, _, _ => .error .outOfFuel
  | _ + 1, isRoot, [], cs => .ok ⟨isRoot, { cs with items := [] }, []⟩
  | f + 1, isRoot, i :: q, cs =>
    match Bfs.settle cs with
    | .error e => .error e
    | .ok cs =>
      match i.next with
      | (some n, i') =>
        if (poll (N := N) (splitI n).2).1.isSome then
          bfsLvAncLoop f false ((i' :: q) ++ [Peek.ahead (splitI n).2]) { cs with items := (splitI n).1 :: cs.items }
        else
          .ok ⟨false, { cs with items := (splitI n).1 :: cs.items }, (i' :: q) ++ [Peek.ahead (splitI n).2]⟩
      | (none, i') =>
        if isRoot then .ok ⟨false, cs, i' :: q⟩
        else
          match cs.retire with
          | .error e => .error e
          | .ok cs => bfsLvAncLoop f isRoot q cs

/-- `leaves_iterators/ancestors_breadth_first/mod.rs` 149-155: `get`. -/
def bfsLvAncGet (s : BfsLvAnc N V I) : Option (List V) :=
  if s.cs.items.length = 0 then none else some s.cs.items.reverse

/-- `leaves_iterators/ancestors_breadth_first/mod.rs` 95-147. -/
def bfsLvAncAdvance [PollNode N V I] (fuel : Nat) (s : BfsLvAnc N V I) : Except Panic (BfsLvAnc N V I) :=
  bfsLvAncLoop fuel s.isRoot s.queue s.cs

/-- `StreamingIterator::next`. -/
def bfsLvAncNext [PollNode N V I] (fuel : Nat) : BfsLvAnc N V I → Except Panic (Option (List V) × BfsLvAnc N V I) :=
  streamNextE (bfsLvAncAdvance fuel) bfsLvAncGet

/-! ## Collections

The source of a collection is given by the answers it will give, one by one, `None` among them; it answers `None` when they
are used up. -/

/-- `collection_iterators.rs` 3-10. -/
structure Source (N : Type u) (S : Type v) where
  source : List (Option N)
  inner : Option S

/-- As `Coll.pull`: `collection_iterators.rs` 41-46 and the next turn of the loop. -/
def pull {S : Type v} {O : Type w} (mk : N → S) (next : S → Option O × S) : List (Option N) → Option O × Source N S
  | [] => (none, ⟨[], none⟩)
  | none :: source => (none, ⟨source, none⟩)
  | some n :: source =>
    match next (mk n) with
    | (some o, s) => (some o, ⟨source, some s⟩)
    | (none, _) => pull mk next source

/-- `collection_iterators.rs` 32-48. -/
def sourceNext {S : Type v} {O : Type w} (mk : N → S) (innerNext : S → Option O × S) (s : Source N S) :
    Option O × Source N S :=
  match s.inner with
  | none => pull mk innerNext s.source
  | some i =>
    match innerNext i with
    | (some o, i') => (some o, ⟨s.source, some i'⟩)
    | (none, _) => pull mk innerNext s.source

end Poll

end TreeIter
