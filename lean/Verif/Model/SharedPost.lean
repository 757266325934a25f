import Verif.Model.SharedCtx

/-!
# The postorder iterators with context over nodes that share state

As `Verif.Model.SharedCtx`, for `dfs_postorder().attach_context()`.  One model stands for the six iterators: child iterators give
slots, which of general nodes are always full; and the borrowed and mutably borrowed iterators keep the children of the nodes
under way to show them (`keep`), while the owned ones do not and show none.  The copy of the children that is kept (`ptr::read`) is
taken to be as good as the original.
-/

universe u v w x y

namespace TreeIter

namespace Shared

variable {W : Type x} {N : Type u} {V : Type v} {C : Type y} {I : Type w}

/-- The body is given the path and the ancestors, both from the root on, and the children if they are shown. -/
abbrev PostBody (W : Type x) (V : Type v) (C : Type y) := List Nat → List V → Option C → W → Bool × List V × Option C × W

/-- `dfs_postorder_iterators/borrow.rs` 105-113 and 375-383, `owned.rs` 104-111 and 373-380,
`mut_borrow.rs` 109-117 and 406-414. -/
structure PostCtx (N : Type u) (V : Type v) (C : Type y) (I : Type w) where
  root : Option N
  stack : List I
  into : List C
  path : List Nat
  ancestors : List V
  children : Option C

/-- `dfs_postorder_iterators/borrow.rs` 119-130 and 389-403, `owned.rs` 117-127 and 386-396,
`mut_borrow.rs` 123-137 and 420-434, with an empty path. -/
def PostCtx.new (root : N) : PostCtx N V C I := ⟨some root, [], [], [], [], none⟩

/-- `dfs_postorder_iterators/borrow.rs` 156-189 and 429-464, `owned.rs` 148-170 and 417-443,
`mut_borrow.rs` 164-197 and 466-505: the loop. -/
def postCtxLoop [CtxNode W N V C I] (keep : Bool) : Nat → List I → List C → List Nat → List V → W →
    Option (Except Panic (PostCtx N V C I × W))
  | 0, _, _, _, _, _ => none
  | fuel + 1, i :: rest, into, path, anc, w =>
    match pollC (N := N) i w with
    | (some o, i, w) =>
      match path with
      | [] => some (.error .unwrapNone)
      | p :: path =>
        match o with
        | some n =>
          let (v, c, w) := splitC n w
          let (j, w) := intoC (N := N) c w
          postCtxLoop keep fuel (j :: i :: rest) (if keep then c :: into else into) (usizeMax :: wrapSucc p :: path)
            (v :: anc) w
        | none => postCtxLoop keep fuel (i :: rest) into (wrapSucc p :: path) anc w
    | (none, _, w) =>
      if keep then
        match into with
        | [] => some (.error .unwrapNone)
        | c :: into => some (.ok (⟨none, rest, into, path.tail, anc, some c⟩, w))
      else some (.ok (⟨none, rest, into, path.tail, anc, none⟩, w))
  | _ + 1, [], into, path, anc, w =>
    if keep then
      match into with
      | [] => some (.error .unwrapNone)
      | c :: into => some (.ok (⟨none, [], into, path.tail, anc, some c⟩, w))
    else some (.ok (⟨none, [], into, path.tail, anc, none⟩, w))

/-- `dfs_postorder_iterators/borrow.rs` 138-190 and 411-465, `owned.rs` 135-171 and 404-444,
`mut_borrow.rs` 145-198 and 442-506: `advance`.  The mutably borrowed binary one first clears the children shown, which no one sees. -/
def postCtxAdvance [CtxNode W N V C I] (keep : Bool) (fuel : Nat) (s : PostCtx N V C I) (w : W) :
    Option (Except Panic (PostCtx N V C I × W)) :=
  match s.root with
  | some n =>
    let (v, c, w) := splitC n w
    let (j, w) := intoC (N := N) c w
    postCtxLoop keep fuel (j :: s.stack) (if keep then c :: s.into else s.into) (usizeMax :: s.path) (v :: s.ancestors) w
  | none =>
    if s.ancestors.tail.isEmpty then some (.ok ({ s with ancestors := s.ancestors.tail }, w))
    else postCtxLoop keep fuel s.stack s.into s.path s.ancestors.tail w

/-- What follows a call of `advance`: `get_mut`, the body, and the rest of the loop. -/
def ctxConclude (again : PostCtx N V C I → W → Option (Ending W)) (body : PostBody W V C) :
    Option (Except Panic (PostCtx N V C I × W)) → Option (Ending W)
  | none => none
  | some (.error _) => some .panicked
  | some (.ok (s, w)) =>
    if s.ancestors.isEmpty then some (.ended w)
    else
      match body s.path.reverse s.ancestors.reverse s.children w with
      | (false, _, _, w) => some (.broke w)
      | (true, as, ch, w) => again { s with ancestors := as.reverse, children := ch } w

/-- `while let Some(context) = it.next_mut() { body }`. -/
def postWhile [CtxNode W N V C I] (keep : Bool) (fuel : Nat) (body : PostBody W V C) :
    Nat → PostCtx N V C I → W → Option (Ending W)
  | 0, _, _ => none
  | k + 1, s, w => ctxConclude (postWhile keep fuel body k) body (postCtxAdvance keep fuel s w)

end Shared

end TreeIter
