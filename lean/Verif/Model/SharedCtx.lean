import Verif.Model.Preorder

/-!
# The preorder iterators with context over nodes that share state

As `Verif.Model.Shared`, for `dfs_preorder().attach_context()`, general and binary, in a loop whose body is given the context
mutably: `while let Some(context) = it.next_mut() { body }`.  The children are a collection until the call of `next` after the
body, which makes it an iterator; so `into_iter` is a function of its own here.

One model stands for both macros: a child iterator gives slots, which of general nodes are always full, and of binary nodes
may be empty.  As a shared iterator may give empty slots without end, the loop carries a bound (`fuel`) on its rounds; `none` is
the answer when it is used up.  Panics of the iterator's own code are answers, panics of the user's code are not modelled here.
-/

universe u v w x y

namespace TreeIter

/-- `prelude.rs` 742-759 and 163-188 with the borrowed variants: `splitC` is `get_value_and_children` (`_binary`), `intoC` is
`IntoIterator::into_iter` of the children, `pollC` is `Iterator::next` of the iterator made by it. -/
class CtxNode (W : Type x) (N : Type u) (V : outParam (Type v)) (C : outParam (Type y)) (I : outParam (Type w)) where
  splitC : N → W → V × C × W
  intoC : C → W → I × W
  pollC : I → W → Option (Option N) × I × W

export CtxNode (splitC intoC pollC)

namespace Shared

variable {W : Type x} {N : Type u} {V : Type v} {C : Type y} {I : Type w}

/-- The body of the loop: it is given the path and the ancestors, both from the root on, and the children, and may write to the
ancestors and the children (`tree_context.rs` 40-64); `false` is `break`. -/
abbrev CtxBody (W : Type x) (V : Type v) (C : Type y) := List Nat → List V → C → W → Bool × List V × C × W

/-- How a loop ends. -/
inductive Ending (W : Type x) where
  | panicked
  | broke (w : W)
  | ended (w : W)
  deriving DecidableEq

/-- `dfs_preorder_iterators/owned.rs` 250-257 and 605-612. -/
structure PreCtx (N : Type u) (V : Type v) (C : Type y) (I : Type w) where
  root : Option N
  stack : List I
  path : List Nat
  ancestors : List V
  children : Option C

/-- `dfs_preorder_iterators/owned.rs` 263-273 and 618-628, with an empty path. -/
def PreCtx.new (root : N) : PreCtx N V C I := ⟨some root, [], [], [], none⟩

/-- `dfs_preorder_iterators/mod.rs` 190-208 and 253-274: look for the next node. -/
def preCtxLoop [CtxNode W N V C I] : Nat → List I → List Nat → List V → W →
    Option (Except Panic (Option N × List I × List Nat × List V × W))
  | 0, _, _, _, _ => none
  | _ + 1, [], path, anc, w => some (.ok (none, [], path, anc, w))
  | fuel + 1, i :: rest, path, anc, w =>
    match pollC (N := N) i w with
    | (some o, i, w) =>
      match path with
      | [] => some (.error .unwrapNone)
      | p :: path =>
        match o with
        | some n => some (.ok (some n, i :: rest, wrapSucc p :: path, anc, w))
        | none => preCtxLoop fuel (i :: rest) (wrapSucc p :: path) anc w
    | (none, _, w) => preCtxLoop fuel rest path.tail anc.tail w

/-- `dfs_preorder_iterators/mod.rs` 210-216 and 276-282. -/
def preCtxFinish [CtxNode W N V C I] : Option N × List I × List Nat × List V × W → PreCtx N V C I × W
  | (some n, st, path, anc, w) =>
    let (v, c, w) := splitC n w
    (⟨none, st, path, v :: anc, some c⟩, w)
  | (none, st, path, _, w) => (⟨none, st, path, [], none⟩, w)

/-- `dfs_preorder_iterators/mod.rs` 166-217 and 229-283: `advance`. -/
def preCtxAdvance [CtxNode W N V C I] (fuel : Nat) (s : PreCtx N V C I) (w : W) : Option (Except Panic (PreCtx N V C I × W)) :=
  match s.root with
  | some root =>
    let (v, c, w) := splitC root w
    some (.ok ({ s with root := none, ancestors := v :: s.ancestors, children := some c }, w))
  | none =>
    if s.ancestors.isEmpty then some (.ok (s, w))
    else
      let (stack, path, anc, w) :=
        match s.children with
        | some c =>
          let (i, w) := intoC (N := N) c w
          (i :: s.stack, usizeMax :: s.path, s.ancestors, w)
        | none => (s.stack, if s.path.head? = some usizeMax then s.path.tail else s.path, s.ancestors.tail, w)
      match preCtxLoop (N := N) fuel stack path anc w with
      | none => none
      | some (.error e) => some (.error e)
      | some (.ok r) => some (.ok (preCtxFinish r))

/-- `while let Some(context) = it.next_mut() { body }`; `next_mut` is `advance` and `get_mut`, `mod.rs` 219-225 and 294-304.  The
body looks at the children: `tree_context.rs` 55-64 unwraps them. -/
def ctxWhile [CtxNode W N V C I] (fuel : Nat) (body : CtxBody W V C) : Nat → PreCtx N V C I → W → Option (Ending W)
  | 0, _, _ => none
  | k + 1, s, w =>
    match preCtxAdvance fuel s w with
    | none => none
    | some (.error _) => some .panicked
    | some (.ok (s, w)) =>
      if s.ancestors.isEmpty then some (.ended w)
      else
        match s.children with
        | none => some .panicked
        | some c =>
          match body s.path.reverse s.ancestors.reverse c w with
          | (false, _, _, w) => some (.broke w)
          | (true, as, c, w) => ctxWhile fuel body k { s with ancestors := as.reverse, children := some c } w

end Shared

end TreeIter
