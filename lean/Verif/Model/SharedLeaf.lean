import Verif.Model.SharedWide

/-!
# The leaves with ancestors over nodes that share state
-/

universe u v w x

namespace TreeIter

namespace Shared

variable {W : Type x} {N : Type u} {V : Type v} {I : Type w}

/-- `leaves_iterators/ancestors_depth_first/owned.rs` 7-16. -/
structure LfAnc (N : Type u) (V : Type v) (I : Type w) where
  root : Option N
  items : List V
  old : List I
  new : List I

/-- `dfs_preorder_iterators/owned.rs` 313-325; the one of postorder is the same, as is, for an iterator not yet used, the one of
in order. -/
def PreAnc.leaves (s : PreAnc N V I) : LfAnc N V I := ⟨s.root, s.items, s.stack, []⟩

/-- `leaves_iterators/ancestors_depth_first/mod.rs` 19-28 and 34-43: ask the iterator on top of a stack, if there is one, and take it
away if it has no node to give. -/
def askTop (N : Type u) [SharedNode W N V I] : List I → W → Option N × List I × W
  | [], w => (none, [], w)
  | i :: st, w =>
    match pollW (N := N) i w with
    | (some n, i, w) => (some n, i :: st, w)
    | (none, _, w) => (none, st, w)

/-- `leaves_iterators/ancestors_depth_first/mod.rs` 18-53: the loop; `pushed` is `pushed_another_iterator`. -/
def lfAncLoop [SharedNode W N V I] : Nat → List I → List I → List V → Bool → W → Option (LfAnc N V I × W)
  | 0, _, _, _, _, _ => none
  | fuel + 1, old, new, items, pushed, w =>
    match askTop N new w with
    | (some n, new, w) =>
      let (v, j, w) := splitW n w
      lfAncLoop fuel old (j :: new) (v :: items) true w
    | (none, new, w) =>
      if pushed then some (⟨none, items, old, new⟩, w)
      else
        match askTop N old w with
        | (some n, old, w) =>
          let (v, j, w) := splitW n w
          lfAncLoop fuel old (j :: new) (v :: items) true w
        | (none, old, w) =>
          if items.tail.isEmpty then some (⟨none, [], old, new⟩, w)
          else lfAncLoop fuel old new items.tail false w

/-- `leaves_iterators/ancestors_depth_first/mod.rs` 7-54: `advance`. -/
def lfAncAdvance [SharedNode W N V I] (fuel : Nat) (s : LfAnc N V I) (w : W) : Option (LfAnc N V I × W) :=
  match s.root with
  | some root =>
    let (v, i, w) := splitW root w
    lfAncLoop fuel s.old (i :: s.new) (v :: s.items) true w
  | none => lfAncLoop fuel s.old s.new s.items.tail false w

/-- `StreamingIterator::next` with `get`, `leaves_iterators/ancestors_depth_first/mod.rs` 56-62. -/
def lfAncNext [SharedNode W N V I] (fuel : Nat) (s : LfAnc N V I) (w : W) : Option (Option (List V) × LfAnc N V I × W) :=
  match lfAncAdvance fuel s w with
  | none => none
  | some (s, w) => some (if s.items.isEmpty then none else some s.items.reverse, s, w)

/-! ## Breadth first -/

open Bfs (CacheState settle)

/-- `leaves_iterators/ancestors_breadth_first/owned.rs` 14-23. -/
structure WlAnc (N : Type u) (V : Type v) (I : Type w) where
  isRoot : Bool
  cs : CacheState V
  queue : List (Peeked N I)

/-- `bfs_iterators/owned.rs` 191-203. -/
def WideAnc.leaves (s : WideAnc V I) : WlAnc N V I := ⟨s.isRoot, s.cs, s.queue.map fun i => ⟨none, i⟩⟩

/-- `leaves_iterators/ancestors_breadth_first/mod.rs` 97-147: the loop of `advance`. -/
def wlAncLoop [SharedNode W N V I] : Nat → Bool → List (Peeked N I) → CacheState V → W → Option (Except Panic (WlAnc N V I × W))
  | 0, _, _, _, _ => none
  | _ + 1, isRoot, [], cs, w => some (.ok (⟨isRoot, { cs with items := [] }, []⟩, w))
  | fuel + 1, isRoot, p :: q, cs, w =>
    match settle cs with
    | .error e => some (.error e)
    | .ok cs =>
      match p.next w with
      | (some n, p, w) =>
        let (v, j, w) := splitW n w
        let (o, j, w) := pollW (N := N) j w
        let cs := { cs with items := v :: cs.items }
        let queue := (p :: q) ++ [⟨some o, j⟩]
        if o.isSome then wlAncLoop fuel false queue cs w else some (.ok (⟨false, cs, queue⟩, w))
      | (none, p, w) =>
        if isRoot then some (.ok (⟨false, cs, p :: q⟩, w))
        else
          match cs.retire with
          | .error e => some (.error e)
          | .ok cs => wlAncLoop fuel isRoot q cs w

/-- What follows a call of `advance`: `get` (`leaves_iterators/ancestors_breadth_first/mod.rs` 149-155), the body, and the rest of the
loop. -/
def wlAncConclude (again : WlAnc N V I → W → Option (Ending W)) (body : Body W (List V)) :
    Option (Except Panic (WlAnc N V I × W)) → Option (Ending W)
  | none => none
  | some (.error _) => some .panicked
  | some (.ok (s, w)) =>
    if s.cs.items.isEmpty then some (.ended w)
    else
      match body s.cs.items.reverse w with
      | (false, w) => some (.broke w)
      | (true, w) => again s w

/-- `while let Some(slice) = it.next() { body }`. -/
def wlAncWhile [SharedNode W N V I] (fuel : Nat) (body : Body W (List V)) : Nat → WlAnc N V I → W → Option (Ending W)
  | 0, _, _ => none
  | k + 1, s, w => wlAncConclude (wlAncWhile fuel body k) body (wlAncLoop fuel s.isRoot s.queue s.cs w)

end Shared

end TreeIter
