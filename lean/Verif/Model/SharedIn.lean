import Verif.Model.SharedPost
import Verif.Model.Shared

/-!
# The in-order iterators with context and with ancestors over nodes that share state

As `Verif.Model.SharedPost`, for `dfs_inorder().attach_context()` and `dfs_inorder().attach_ancestors()`.  Again `keep` tells the
borrowed and mutably borrowed iterators, which show the children, from the owned ones.
-/

universe u v w x y

namespace TreeIter

namespace Shared

open Inorder (Status)

variable {W : Type x} {N : Type u} {V : Type v}

/-- `dfs_inorder_iterators/borrow.rs` 180-188, `mut_borrow.rs` 192-200; without `into`, `owned.rs` 188-195. -/
structure InCtx (N : Type u) (V : Type v) where
  right : List (Option N)
  into : List (Option N × Option N)
  path : List Nat
  ancestors : List V
  status : List Status
  children : Option (Option N × Option N)

/-- `dfs_inorder_iterators/borrow.rs` 194-213, `mut_borrow.rs` 206-225, `owned.rs` 201-216, with an empty path. -/
def InCtx.new (root : N) : InCtx N V := ⟨[some root], [], [], [], [], none⟩

/-- How the first loop of `advance` ends. -/
inductive InFound (N : Type u) (V : Type v) where
  /-- Nothing is left: `return`. -/
  | over (s : InCtx N V)
  /-- Back from the left: `return` with the node. -/
  | back (s : InCtx N V)
  | node (n : N) (s : InCtx N V)

/-- `dfs_inorder_iterators/borrow.rs` 223-250, `mut_borrow.rs` 235-268, `owned.rs` 226-253: the first loop, but for the children shown
on the way back from the left. -/
def inCtxFind (into : List (Option N × Option N)) (ch : Option (Option N × Option N)) :
    List Status → List Nat → List V → List (Option N) → InFound N V
  | .wentRight :: ss, path, anc, right => inCtxFind into ch ss path.tail anc.tail right
  | .wentLeft :: ss, path, anc, right => .back ⟨right, into, path, anc, .returnedSelf :: ss, ch⟩
  | .returnedSelf :: ss, path, _, [] => .over ⟨[], into, path, [], .wentRight :: ss, ch⟩
  | .returnedSelf :: ss, path, anc, some n :: right => .node n ⟨right, into, path, anc, .wentRight :: ss, ch⟩
  | .returnedSelf :: ss, path, anc, none :: right => inCtxFind into ch (.wentRight :: ss) path anc right
  | [], path, _, [] => .over ⟨[], into, path, [], [], ch⟩
  | [], path, anc, some n :: right => .node n ⟨right, into, path, anc, [], ch⟩
  | [], path, anc, none :: right => inCtxFind into ch [] path anc right
termination_by st _ _ right => st.length + right.length

/-- `dfs_inorder_iterators/borrow.rs` 252-270, `mut_borrow.rs` 270-288, `owned.rs` 255-271: the second loop. -/
def inCtxDescend [SharedBin W N V] (keep : Bool) : Nat → Option N → InCtx N V → W → Option (InCtx N V × W)
  | 0, _, _, _ => none
  | _ + 1, none, s, w => some (s, w)
  | fuel + 1, some n, s, w =>
    let (v, l, r, w) := split2W n w
    inCtxDescend keep fuel l
      { right := r :: s.right
        into := if keep then (l, r) :: s.into else s.into
        path :=
          match s.status with
          | [] => s.path
          | .wentRight :: _ => 1 :: s.path
          | _ :: _ => 0 :: s.path
        ancestors := v :: s.ancestors
        status := .wentLeft :: s.status
        children := s.children } w

/-- `dfs_inorder_iterators/borrow.rs` 235-236 and 275-279, `mut_borrow.rs` 247-252 and 293-298: the children shown.  The owned iterator shows
none, and `children_mut` cannot change that. -/
def inCtxTake (keep : Bool) (s : InCtx N V) : Except Panic (InCtx N V) :=
  if keep then
    match s.into with
    | [] => .error .unwrapNone
    | c :: into => .ok { s with into := into, children := some c }
  else .ok { s with children := none }

/-- The end of `advance` when it comes to a node, together with the state of the world. -/
def inCtxShow (keep : Bool) (s : InCtx N V) (w : W) : Except Panic (InCtx N V × W) :=
  match inCtxTake keep s with
  | .error e => .error e
  | .ok s => .ok (s, w)

/-- `dfs_inorder_iterators/borrow.rs` 272-279, `mut_borrow.rs` 290-298, `owned.rs` 273-274. -/
def inCtxFinish (keep : Bool) : Option (InCtx N V × W) → Option (Except Panic (InCtx N V × W))
  | none => none
  | some (s, w) =>
    match s.status with
    | [] => some (.error .indexOutOfRange)
    | _ :: ss => some (inCtxShow keep { s with status := .returnedSelf :: ss } w)

/-- `dfs_inorder_iterators/borrow.rs` 222-280, `mut_borrow.rs` 234-299, `owned.rs` 225-275: `advance`. -/
def inCtxAdvance [SharedBin W N V] (keep : Bool) (fuel : Nat) (s : InCtx N V) (w : W) :
    Option (Except Panic (InCtx N V × W)) :=
  match inCtxFind s.into s.children s.status s.path s.ancestors s.right with
  | .over s => some (.ok (s, w))
  | .back s => some (inCtxShow keep s w)
  | .node n s => inCtxFinish keep (inCtxDescend keep fuel (some n) s w)

/-- What follows a call of `advance`: `get_mut` (`dfs_inorder_iterators/mod.rs` 99-109), the body, and the rest of the loop. -/
def inConclude (again : InCtx N V → W → Option (Ending W)) (body : PostBody W V (Option N × Option N)) :
    Option (Except Panic (InCtx N V × W)) → Option (Ending W)
  | none => none
  | some (.error _) => some .panicked
  | some (.ok (s, w)) =>
    if s.ancestors.isEmpty then some (.ended w)
    else
      match body s.path.reverse s.ancestors.reverse s.children w with
      | (false, _, _, w) => some (.broke w)
      | (true, as, ch, w) => again { s with ancestors := as.reverse, children := ch } w

/-- `while let Some(context) = it.next_mut() { body }`. -/
def inWhile [SharedBin W N V] (keep : Bool) (fuel : Nat) (body : PostBody W V (Option N × Option N)) :
    Nat → InCtx N V → W → Option (Ending W)
  | 0, _, _ => none
  | k + 1, s, w => inConclude (inWhile keep fuel body k) body (inCtxAdvance keep fuel s w)

/-! ## `attach_ancestors` -/

/-- The body is given the slice mutably. -/
abbrev SliceBody (W : Type x) (V : Type v) := List V → W → Bool × List V × W

/-- `dfs_inorder_iterators/mod.rs` 66-73. -/
def inAncDescend [SharedBin W N V] : Nat → Option N → Inorder.AncState N V → W → Option (Inorder.AncState N V × W)
  | 0, _, _, _ => none
  | _ + 1, none, s, w => some (s, w)
  | fuel + 1, some n, s, w =>
    let (v, l, r, w) := split2W n w
    inAncDescend fuel l ⟨r :: s.right, v :: s.items, .wentLeft :: s.status⟩ w

/-- `dfs_inorder_iterators/mod.rs` 75-76. -/
def inAncFinish : Option (Inorder.AncState N V × W) → Option (Except Panic (Inorder.AncState N V × W))
  | none => none
  | some (s, w) =>
    match s.status with
    | [] => some (.error .indexOutOfRange)
    | _ :: ss => some (.ok ({ s with status := .returnedSelf :: ss }, w))

/-- `dfs_inorder_iterators/mod.rs` 39-77; the first loop calls no code of the nodes and is that of `Inorder`. -/
def inAncAdvance [SharedBin W N V] (fuel : Nat) (s : Inorder.AncState N V) (w : W) :
    Option (Except Panic (Inorder.AncState N V × W)) :=
  match Inorder.ancFind s.status s.items s.right with
  | .inl s => some (.ok (s, w))
  | .inr (n, s) => inAncFinish (inAncDescend fuel (some n) s w)

/-- `while let Some(slice) = it.next_mut() { body }`; `get_mut` is `dfs_inorder_iterators/mod.rs` 87-97. -/
def inAncWhile [SharedBin W N V] (fuel : Nat) (body : SliceBody W V) :
    Nat → Inorder.AncState N V → W → Option (Ending W)
  | 0, _, _ => none
  | k + 1, s, w =>
    match inAncAdvance fuel s w with
    | none => none
    | some (.error _) => some .panicked
    | some (.ok (s, w)) =>
      if s.items.isEmpty then some (.ended w)
      else
        match body s.items.reverse w with
        | (false, _, w) => some (.broke w)
        | (true, as, w) => inAncWhile fuel body k { s with items := as.reverse } w

end Shared

end TreeIter
