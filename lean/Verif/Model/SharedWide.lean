import Verif.Model.SharedCtx
import Verif.Model.Shared
import Verif.Model.BfsCtx

/-!
# The breadth-first iterators with ancestors and with context over nodes that share state

The caches call no code of the nodes and are those of `BfsCache` and `BfsCtx`.  The body of the loop reads the ancestors; it may
write to the children of a context.
-/

universe u v w x y

namespace TreeIter

namespace Shared

open Bfs (CacheState CtxCache settle checkedSucc)

variable {W : Type x} {N : Type u} {V : Type v} {C : Type y} {I : Type w}

/-! ## `attach_ancestors` -/

/-- `bfs_iterators/owned.rs` 157-164. -/
structure WideAnc (V : Type v) (I : Type w) where
  isRoot : Bool
  cs : CacheState V
  queue : List I

/-- `bfs_iterators/owned.rs` 170-188: the root is asked here, before the first `next`. -/
def WideAnc.new [SharedNode W N V I] (root : N) (w : W) : WideAnc V I × W :=
  let (v, i, w) := splitW root w
  (⟨true, ⟨[v], [], .mk none []⟩, [i]⟩, w)

/-- `bfs_iterators/mod.rs` 280-319: the loop of `advance`. -/
def wideAncLoop (N : Type u) [SharedNode W N V I] (queue : List I) (cs : CacheState V) (w : W) :
    Except Panic (WideAnc V I × W) :=
  match settle cs with
  | .error e => .error e
  | .ok cs =>
    match queue with
    | [] => .error .indexOutOfRange
    | i :: q =>
      match pollW (N := N) i w with
      | (some n, i, w) =>
        let (v, j, w) := splitW n w
        .ok (⟨false, { cs with items := v :: cs.items }, (i :: q) ++ [j]⟩, w)
      | (none, _, w) =>
        match cs.retire with
        | .error e => .error e
        | .ok cs => if q.isEmpty then .ok (⟨false, { cs with items := [] }, []⟩, w) else wideAncLoop N q cs w
termination_by queue.length

/-- `bfs_iterators/mod.rs` 274-320: `advance`. -/
def wideAncAdvance (N : Type u) [SharedNode W N V I] (s : WideAnc V I) (w : W) : Except Panic (WideAnc V I × W) :=
  if s.isRoot then .ok ({ s with isRoot := false }, w) else wideAncLoop N s.queue s.cs w

/-- What follows a call of `advance`: `get` (`bfs_iterators/mod.rs` 322-328), the body, and the rest of the loop. -/
def wideAncConclude (again : WideAnc V I → W → Option (Ending W)) (body : Body W (List V)) :
    Except Panic (WideAnc V I × W) → Option (Ending W)
  | .error _ => some .panicked
  | .ok (s, w) =>
    if s.cs.items.length = 0 then some (.ended w)
    else
      match body s.cs.items.reverse w with
      | (false, w) => some (.broke w)
      | (true, w) => again s w

/-- `while let Some(slice) = it.next() { body }`. -/
def wideAncWhile (N : Type u) [SharedNode W N V I] (body : Body W (List V)) : Nat → WideAnc V I → W → Option (Ending W)
  | 0, _, _ => none
  | k + 1, s, w => wideAncConclude (wideAncWhile N body k) body (wideAncAdvance N s w)

/-! ## `attach_context` -/

/-- The body is given the path and the ancestors, both from the root on, and the children, to which it may write. -/
abbrev WideBody (W : Type x) (V : Type v) (C : Type y) := List Nat → List V → C → W → Bool × C × W

/-- `bfs_iterators/owned.rs` 100-110 and 349-359. -/
structure WideCtx (V : Type v) (C : Type y) (I : Type w) where
  isRoot : Bool
  cc : CtxCache V
  children : Option C
  queue : List I
  counter : Nat

/-- `bfs_iterators/owned.rs` 116-136 and 365-385, with an empty path: the root is asked here, before the first `next`. -/
def WideCtx.new [CtxNode W N V C I] (root : N) (w : W) : WideCtx V C I × W :=
  let (v, c, w) := splitC root w
  (⟨true, ⟨[v], [], [], .mk none []⟩, some c, [], 0⟩, w)

/-- `bfs_iterators/mod.rs` 49 and 217-229: ask an iterator until it gives a node or ends; empty slots are counted. -/
def wideScan (N : Type u) [CtxNode W N V C I] : Nat → I → Nat → W → Option (Except Panic (Option N × I × Nat × W))
  | 0, _, _, _ => none
  | fuel + 1, i, k, w =>
    match pollC (N := N) i w with
    | (some (some n), i, w) => some (.ok (some n, i, k, w))
    | (some none, i, w) =>
      match checkedSucc k with
      | .error e => some (.error e)
      | .ok k => wideScan N fuel i k w
    | (none, i, w) => some (.ok (none, i, k, w))

/-- `bfs_iterators/mod.rs` 42-87 and 210-257: the loop of `advance`. -/
def wideCtxLoop (N : Type u) [CtxNode W N V C I] (fuel : Nat) (queue : List I) (cc : CtxCache V) (counter : Nat) (w : W) :
    Option (Except Panic (WideCtx V C I × W)) :=
  match cc.settle with
  | .error e => some (.error e)
  | .ok cc =>
    match queue with
    | [] => some (.error .indexOutOfRange)
    | i :: q =>
      match wideScan N fuel i counter w with
      | none => none
      | some (.error e) => some (.error e)
      | some (.ok (some n, i, counter, w)) =>
        match checkedSucc counter with
        | .error e => some (.error e)
        | .ok counter' =>
          let (v, c, w) := splitC n w
          some (.ok (⟨false, ⟨v :: cc.ancestors, counter :: cc.path, cc.stack, cc.cache⟩, some c, i :: q, counter'⟩, w))
      | some (.ok (none, _, _, w)) =>
        match cc.retire with
        | .error e => some (.error e)
        | .ok cc =>
          if q.isEmpty then some (.ok (⟨false, { cc with ancestors := [] }, none, [], 0⟩, w))
          else wideCtxLoop N fuel q cc 0 w
termination_by queue.length

/-- `bfs_iterators/mod.rs` 30-88 and 198-258: `advance`. -/
def wideCtxAdvance (N : Type u) [CtxNode W N V C I] (fuel : Nat) (s : WideCtx V C I) (w : W) :
    Option (Except Panic (WideCtx V C I × W)) :=
  if s.isRoot then some (.ok ({ s with isRoot := false }, w))
  else if s.cc.ancestors.isEmpty then some (.ok (s, w))
  else
    match s.children with
    | none => some (.error .unwrapNone)
    | some c =>
      let (i, w) := intoC (N := N) c w
      wideCtxLoop N fuel (s.queue ++ [i]) s.cc s.counter w

/-- What follows a call of `advance`: `get_mut` (`bfs_iterators/mod.rs` 100-110), the body, which unwraps the children, and the rest of
the loop. -/
def wideCtxConclude (again : WideCtx V C I → W → Option (Ending W)) (body : WideBody W V C) :
    Option (Except Panic (WideCtx V C I × W)) → Option (Ending W)
  | none => none
  | some (.error _) => some .panicked
  | some (.ok (s, w)) =>
    if s.cc.ancestors.isEmpty then some (.ended w)
    else
      match s.children with
      | none => some .panicked
      | some c =>
        match body s.cc.path.reverse s.cc.ancestors.reverse c w with
        | (false, _, w) => some (.broke w)
        | (true, c, w) => again { s with children := some c } w

/-- `while let Some(context) = it.next_mut() { body }`. -/
def wideCtxWhile (N : Type u) [CtxNode W N V C I] (fuel : Nat) (body : WideBody W V C) :
    Nat → WideCtx V C I → W → Option (Ending W)
  | 0, _, _ => none
  | k + 1, s, w => wideCtxConclude (wideCtxWhile N fuel body k) body (wideCtxAdvance N fuel s w)

end Shared

end TreeIter
