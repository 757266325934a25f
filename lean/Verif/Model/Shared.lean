import Verif.Model.Bfs
import Verif.Model.Inorder

/-!
# The iterators over nodes that share state

The other models take nodes for values: what a node has to show does not depend on when it is asked.  With interior
mutability (`Rc<RefCell<_>>`, a file system, a counter) it does: `get_value_and_children`, the `next` of a child
iterator and the body of the loop may all read and write the same state.  Here that state is a world `W`, passed through
every call in the order in which the code makes the calls.

Simplified: `into_iter` of the collection of children is part of `get_value_and_children`, as the plain iterators and the
iterators with ancestors call it right after.  A panic of the user's code is not modelled here (see `Fail`).  The loops of
`postorder`, `leaves` and `inorder` may never end on such nodes; they take a bound on their rounds (`fuel`) and give `none`
when it is used up.
-/

universe u v w x y z

namespace TreeIter

/-- `prelude.rs` 742-759 (`OwnedTreeNode` and its borrowed variants): `splitW` is `get_value_and_children`, `pollW` is
`Iterator::next` of the child iterator; both act on the world. -/
class SharedNode (W : Type x) (N : Type u) (V : outParam (Type v)) (I : outParam (Type w)) where
  splitW : N → W → V × I × W
  pollW : I → W → Option N × I × W

/-- The binary variant: `get_value_and_children_binary`. -/
class SharedBin (W : Type x) (N : Type u) (V : outParam (Type v)) where
  split2W : N → W → V × Option N × Option N × W

export SharedNode (splitW pollW)
export SharedBin (split2W)

namespace Shared

variable {W : Type x} {N : Type u} {V : Type v} {I : Type w} {S : Type y} {O : Type v}

/-! ## `for` loops -/

/-- The body of a `for` loop: `false` is `break`. -/
abbrev Body (W : Type x) (O : Type v) := O → W → Bool × W

/-- What follows a call of `next`: the loop ends, or the body runs, and after it the rest of the loop. -/
def conclude (again : S → W → Option (Bool × W)) (body : Body W O) : Option (Option O × S × W) → Option (Bool × W)
  | none => none
  | some (none, _, w) => some (true, w)
  | some (some o, s, w) =>
    match body o w with
    | (false, w) => some (false, w)
    | (true, w) => again s w

/-- `for o in it { body }`: whether the iterator came to its end, and the world.  `none` if the loop has not ended after `k`
calls of `next`. -/
def forLoop (next : S → W → Option (Option O × S × W)) (body : Body W O) : Nat → S → W → Option (Bool × W)
  | 0, _, _ => none
  | k + 1, s, w => conclude (forLoop next body k) body (next s w)

/-! ## Preorder -/

/-- `dfs_preorder_iterators/owned.rs` 139-145. -/
structure Pre (N : Type u) (I : Type w) where
  root : Option N
  stack : List I

/-- `dfs_preorder_iterators/owned.rs` 151-156. -/
def Pre.new (root : N) : Pre N I := ⟨some root, []⟩

/-- `dfs_preorder_iterators/mod.rs` 14-24. -/
def preLoop [SharedNode W N V I] : List I → W → Option N × List I × W
  | [], w => (none, [], w)
  | i :: rest, w =>
    match pollW (N := N) i w with
    | (some n, i, w) => (some n, i :: rest, w)
    | (none, _, w) => preLoop rest w

/-- `dfs_preorder_iterators/mod.rs` 5-33. -/
def preNext [SharedNode W N V I] (s : Pre N I) (w : W) : Option (Option V × Pre N I × W) :=
  match s.root with
  | some root =>
    let (v, i, w) := splitW root w
    some (some v, ⟨none, i :: s.stack⟩, w)
  | none =>
    match preLoop (N := N) s.stack w with
    | (none, st, w) => some (none, ⟨none, st⟩, w)
    | (some n, st, w) =>
      let (v, i, w) := splitW n w
      some (some v, ⟨none, i :: st⟩, w)

/-- `dfs_preorder_iterators/owned.rs` 291-298. -/
structure PreAnc (N : Type u) (V : Type v) (I : Type w) where
  root : Option N
  stack : List I
  items : List V

/-- `dfs_preorder_iterators/owned.rs` 304-310. -/
def PreAnc.new (root : N) : PreAnc N V I := ⟨some root, [], []⟩

/-- `dfs_preorder_iterators/mod.rs` 124-135. -/
def preAncLoop [SharedNode W N V I] : List I → List V → W → Option N × List I × List V × W
  | [], it, w => (none, [], it, w)
  | i :: rest, it, w =>
    match pollW (N := N) i w with
    | (some n, i, w) => (some n, i :: rest, it, w)
    | (none, _, w) => preAncLoop rest it.tail w

/-- `dfs_preorder_iterators/mod.rs` 114-142. -/
def preAncAdvance [SharedNode W N V I] (s : PreAnc N V I) (w : W) : PreAnc N V I × W :=
  match s.root with
  | some root =>
    let (v, i, w) := splitW root w
    (⟨none, i :: s.stack, v :: s.items⟩, w)
  | none =>
    match preAncLoop (N := N) s.stack s.items w with
    | (none, st, it, w) => (⟨none, st, it⟩, w)
    | (some n, st, it, w) =>
      let (v, i, w) := splitW n w
      (⟨none, i :: st, v :: it⟩, w)

/-- `StreamingIterator::next` with `get`, `dfs_preorder_iterators/mod.rs` 144-150. -/
def preAncNext [SharedNode W N V I] (s : PreAnc N V I) (w : W) : Option (Option (List V) × PreAnc N V I × W) :=
  let (s, w) := preAncAdvance s w
  some (if s.items.length > 0 then some s.items.reverse else none, s, w)

/-! ## Postorder -/

/-- `dfs_postorder_iterators/owned.rs` 44-51, and 189-196 for the iterator with ancestors. -/
structure Post (N : Type u) (V : Type v) (I : Type w) where
  root : Option N
  items : List V
  stack : List I

/-- `dfs_postorder_iterators/owned.rs` 57-63 and 202-208. -/
def Post.new (root : N) : Post N V I := ⟨some root, [], []⟩

/-- `dfs_postorder_iterators/mod.rs` 16-29. -/
def postLoop [SharedNode W N V I] : Nat → List I → List V → W → Option (Option V × Post N V I × W)
  | 0, _, _, _ => none
  | _ + 1, [], items, w => some (items.head?, ⟨none, items.tail, []⟩, w)
  | fuel + 1, i :: rest, items, w =>
    match pollW (N := N) i w with
    | (some n, i, w) =>
      let (v, j, w) := splitW n w
      postLoop fuel (j :: i :: rest) (v :: items) w
    | (none, _, w) => some (items.head?, ⟨none, items.tail, rest⟩, w)

/-- `dfs_postorder_iterators/mod.rs` 5-33. -/
def postNext [SharedNode W N V I] (fuel : Nat) (s : Post N V I) (w : W) : Option (Option V × Post N V I × W) :=
  match s.root with
  | some root =>
    let (v, i, w) := splitW root w
    postLoop fuel (i :: s.stack) (v :: s.items) w
  | none => postLoop fuel s.stack s.items w

/-- `dfs_postorder_iterators/mod.rs` 58-69. -/
def postAncLoop [SharedNode W N V I] : Nat → List I → List V → W → Option (Post N V I × W)
  | 0, _, _, _ => none
  | _ + 1, [], items, w => some (⟨none, items, []⟩, w)
  | fuel + 1, i :: rest, items, w =>
    match pollW (N := N) i w with
    | (some n, i, w) =>
      let (v, j, w) := splitW n w
      postAncLoop fuel (j :: i :: rest) (v :: items) w
    | (none, _, w) => some (⟨none, items, rest⟩, w)

/-- `dfs_postorder_iterators/mod.rs` 47-70. -/
def postAncAdvance [SharedNode W N V I] (fuel : Nat) (s : Post N V I) (w : W) : Option (Post N V I × W) :=
  match s.root with
  | some root =>
    let (v, i, w) := splitW root w
    postAncLoop fuel (i :: s.stack) (v :: s.items) w
  | none => postAncLoop fuel s.stack s.items.tail w

/-- `StreamingIterator::next` with `get`, `dfs_postorder_iterators/mod.rs` 72-78. -/
def postAncNext [SharedNode W N V I] (fuel : Nat) (s : Post N V I) (w : W) :
    Option (Option (List V) × Post N V I × W) :=
  match postAncAdvance fuel s w with
  | none => none
  | some (s, w) => some (if s.items.length > 0 then some s.items.reverse else none, s, w)

/-! ## Depth-first leaves -/

/-- `leaves_iterators/depth_first/owned.rs` 6-14. -/
structure Lv (N : Type u) (V : Type v) (I : Type w) where
  root : Option N
  bottom : List I
  top : List I
  items : List V

/-- `dfs_preorder_iterators/owned.rs` 159-166, of an iterator not yet used; the one of postorder is the same. -/
def Pre.leaves (s : Pre N I) : Lv N V I := ⟨s.root, s.stack, [], []⟩

/-- `leaves_iterators/depth_first/mod.rs` 19-44; `just` is `just_added`. -/
def leavesLoop [SharedNode W N V I] :
    Nat → List I → List I → List V → Bool → W → Option (Option V × Lv N V I × W)
  | 0, _, _, _, _, _ => none
  | fuel + 1, bottom, i :: top, items, just, w =>
    match pollW (N := N) i w with
    | (some n, i, w) =>
      let (v, j, w) := splitW n w
      leavesLoop fuel bottom (j :: i :: top) (v :: items) true w
    | (none, _, w) =>
      if just then some (items.head?, ⟨none, bottom, top, items.tail⟩, w)
      else leavesLoop fuel bottom top items.tail just w
  | fuel + 1, i :: bottom, [], items, just, w =>
    match pollW (N := N) i w with
    | (some n, i, w) =>
      let (v, j, w) := splitW n w
      leavesLoop fuel (i :: bottom) [j] (v :: items) just w
    | (none, _, w) => leavesLoop fuel bottom [] items just w
  | _ + 1, [], [], items, _, w => some (none, ⟨none, [], [], items⟩, w)

/-- `leaves_iterators/depth_first/mod.rs` 5-47. -/
def leavesNext [SharedNode W N V I] (fuel : Nat) (s : Lv N V I) (w : W) : Option (Option V × Lv N V I × W) :=
  match s.root with
  | some root =>
    let (v, i, w) := splitW root w
    leavesLoop fuel s.bottom (i :: s.top) (v :: s.items) true w
  | none => leavesLoop fuel s.bottom s.top s.items false w

/-! ## In order -/

/-- `dfs_inorder_iterators/mod.rs` 24-30. -/
def inDescend [SharedBin W N V] :
    Nat → Option N → List (Option N) → List V → W → Option (List (Option N) × List V × W)
  | 0, _, _, _, _ => none
  | _ + 1, none, right, items, w => some (right, items, w)
  | fuel + 1, some n, right, items, w =>
    let (v, l, r, w) := split2W n w
    inDescend fuel l (r :: right) (v :: items) w

/-- `dfs_inorder_iterators/mod.rs` 5-35; the first loop calls no code of the nodes and is that of `Inorder`. -/
def inNext [SharedBin W N V] (fuel : Nat) (s : Inorder.State N V) (w : W) :
    Option (Option V × Inorder.State N V × W) :=
  match Inorder.find s.items s.right with
  | (.ret, right) => some (s.items.head?, ⟨right, s.items.tail, true⟩, w)
  | (.cur cur, right) =>
    match inDescend fuel cur right s.items w with
    | none => none
    | some (right, items, w) => some (items.head?, ⟨right, items.tail, true⟩, w)

/-! ## Breadth first -/

/-- `bfs_iterators/owned.rs` 45-51. -/
structure Wide (N : Type u) (I : Type w) where
  root : Option N
  queue : List I

/-- `bfs_iterators/owned.rs` 57-62. -/
def Wide.new (root : N) : Wide N I := ⟨some root, []⟩

/-- `bfs_iterators/mod.rs` 14-23. -/
def bfsLoop [SharedNode W N V I] : List I → W → Option (Option V × Wide N I × W)
  | [], w => some (none, ⟨none, []⟩, w)
  | i :: rest, w =>
    match pollW (N := N) i w with
    | (some n, i, w) =>
      let (v, j, w) := splitW n w
      some (some v, ⟨none, (i :: rest) ++ [j]⟩, w)
    | (none, _, w) => bfsLoop rest w

/-- `bfs_iterators/mod.rs` 5-26. -/
def bfsNext [SharedNode W N V I] (s : Wide N I) (w : W) : Option (Option V × Wide N I × W) :=
  match s.root with
  | some root =>
    let (v, i, w) := splitW root w
    some (some v, ⟨none, s.queue ++ [i]⟩, w)
  | none => bfsLoop s.queue w

/-! ## Breadth-first leaves -/

/-- A `Peekable`: what `peek` has fetched, if anything, and the iterator. -/
structure Peeked (N : Type u) (I : Type w) where
  ahead : Option (Option N)
  iter : I

/-- `Peekable::next`: what was fetched, even if it is `None`, is given before the iterator is asked again. -/
def Peeked.next [SharedNode W N V I] (p : Peeked N I) (w : W) : Option N × Peeked N I × W :=
  match p.ahead with
  | some o => (o, ⟨none, p.iter⟩, w)
  | none =>
    let (o, i, w) := pollW (N := N) p.iter w
    (o, ⟨none, i⟩, w)

/-- `leaves_iterators/breadth_first/owned.rs`: fields of `OwnedLeavesIterator`, made from an iterator not yet used: the old
queue is empty and stays so. -/
structure WideLv (N : Type u) (I : Type w) where
  root : Option N
  queue : List (Peeked N I)

/-- `bfs_iterators/owned.rs` 65-73, of an iterator not yet used. -/
def Wide.leaves (s : Wide N I) : WideLv N I := ⟨s.root, s.queue.map fun i => ⟨none, i⟩⟩

/-- `leaves_iterators/breadth_first/mod.rs` 9-16 and 30-39: ask a node, make its iterator peekable and peek. -/
def openPeek [SharedNode W N V I] (n : N) (w : W) : V × Peeked N I × W :=
  let (v, i, w) := splitW n w
  let (o, i, w) := pollW (N := N) i w
  (v, ⟨some o, i⟩, w)

/-- `leaves_iterators/breadth_first/mod.rs` 17-41; the flag is `has_children`. -/
def wideLvLoop [SharedNode W N V I] : List (Peeked N I) → W → Option (Bool × V) × WideLv N I × W
  | [], w => (none, ⟨none, []⟩, w)
  | p :: rest, w =>
    match p.next w with
    | (some n, p, w) =>
      let (v, q, w) := openPeek n w
      (some (q.ahead.join.isSome, v), ⟨none, (p :: rest) ++ [q]⟩, w)
    | (none, _, w) => wideLvLoop rest w

/-- `leaves_iterators/breadth_first/mod.rs` 5-61: `bfs_next!`. -/
def wideLvStep [SharedNode W N V I] (s : WideLv N I) (w : W) : Option (Bool × V) × WideLv N I × W :=
  match s.root with
  | some root =>
    let (v, q, w) := openPeek root w
    (some (q.ahead.join.isSome, v), ⟨none, s.queue ++ [q]⟩, w)
  | none => wideLvLoop s.queue w

/-- `leaves_iterators/breadth_first/mod.rs` 64-80: `next!`. -/
def wideLvNext [SharedNode W N V I] : Nat → WideLv N I → W → Option (Option V × WideLv N I × W)
  | 0, _, _ => none
  | fuel + 1, s, w =>
    match wideLvStep s w with
    | (none, s, w) => some (none, s, w)
    | (some (true, _), s, w) => wideLvNext fuel s w
    | (some (false, v), s, w) => some (some v, s, w)

/-! ## Collections -/

/-- `collection_iterators.rs` 3-10: the iterator over the trees of the collection, and the traversal of the current tree. -/
structure Coll (C : Type z) (S : Type y) where
  source : C
  inner : Option S

/-- `collection_iterators.rs` 41-46 and what follows in the next rounds of the loop; `ask` is the `next` of the source. -/
def collPull {C : Type z} (ask : C → W → Option N × C × W) (mk : N → S) (next : S → W → Option (Option O × S × W)) :
    Nat → C → W → Option (Option O × Coll C S × W)
  | 0, _, _ => none
  | fuel + 1, c, w =>
    match ask c w with
    | (none, c, w) => some (none, ⟨c, none⟩, w)
    | (some n, c, w) =>
      match next (mk n) w with
      | none => none
      | some (some o, s, w) => some (some o, ⟨c, some s⟩, w)
      | some (none, _, w) => collPull ask mk next fuel c w

/-- `collection_iterators.rs` 32-49. -/
def collNext {C : Type z} (ask : C → W → Option N × C × W) (mk : N → S) (next : S → W → Option (Option O × S × W))
    (fuel : Nat) (s : Coll C S) (w : W) : Option (Option O × Coll C S × W) :=
  match s.inner with
  | none => collPull ask mk next fuel s.source w
  | some i =>
    match next i w with
    | none => none
    | some (some o, i, w) => some (some o, ⟨s.source, some i⟩, w)
    | some (none, _, w) => collPull ask mk next fuel s.source w

end Shared

end TreeIter
