import Verif.Model.Preorder
import Verif.Model.Postorder
import Verif.Model.Inorder
import Verif.Model.BfsCtx

/-!
# Editing the ancestors of an owned traversal

The owned `attach_ancestors()` iterators implement `StreamingIteratorMut`: `get_mut` hands out `&mut [Value]`, a view of
the item stack of the iterator itself, whose values the client may replace (`get_mut_ancestors!` in
`dfs_preorder_iterators/mod.rs` 154-164, `dfs_postorder_iterators/mod.rs` 82-92, `dfs_inorder_iterators/mod.rs` 89-99,
`bfs_iterators/mod.rs` 332-342).  The owned `attach_context()` iterators hand out the context, whose `ancestors_mut`
(`tree_context.rs` 49-52) is a slice of the same kind.
-/

universe u v w x

namespace TreeIter

variable {N : Type u} {V : Type v} {σ : Type w}

/-- What a slice holds after the values `ys` were written to it from the left.  A slice keeps its length. -/
def overwrite (xs ys : List V) : List V := ys.take xs.length ++ xs.drop ys.length

/-- Writing to the slice is writing to the item stack, whose top is the last element of the slice. -/
def overwriteStack (items ys : List V) : List V := (overwrite items.reverse ys).reverse

/-- Writing through `get_mut`, preorder. -/
def Preorder.AncState.edit (s : Preorder.AncState N V) (ys : List V) : Preorder.AncState N V :=
  { s with items := overwriteStack s.items ys }

/-- Writing through `get_mut`, postorder. -/
def Postorder.AncState.edit (s : Postorder.AncState N V) (ys : List V) : Postorder.AncState N V :=
  { s with items := overwriteStack s.items ys }

/-- Writing through `get_mut`, in order. -/
def Inorder.AncState.edit (s : Inorder.AncState N V) (ys : List V) : Inorder.AncState N V :=
  { s with items := overwriteStack s.items ys }

/-- Writing through `get_mut`, breadth first. -/
def Bfs.AncState.edit (s : Bfs.AncState N V) (ys : List V) : Bfs.AncState N V :=
  { s with cs := { s.cs with items := overwriteStack s.cs.items ys } }

/-- `while let Some(slice) = it.next_mut() { body }`, stopped after at most `k` rounds.  The body sees the slice and
says what to write to it; `edit` writes to the state of the iterator. -/
def editLoop {S : Type u} (next : S → Except Panic (Option (List V) × S)) (edit : S → List V → S)
    (f : σ → List V → σ × List V) : Nat → S → σ → Except Panic σ
  | 0, _, w => .ok w
  | k + 1, s, w =>
    match next s with
    | .error e => .error e
    | .ok (none, _) => .ok w
    | .ok (some xs, s') => editLoop next edit f k (edit s' (f w xs).2) (f w xs).1

/-- Writing through `get_mut` and `ancestors_mut`, preorder (`dfs_preorder_iterators/mod.rs` 295-306). -/
def Preorder.CtxState.edit (s : Preorder.CtxState N V) (ys : List V) : Preorder.CtxState N V :=
  { s with ancestors := overwriteStack s.ancestors ys }

/-- Writing through `get_mut` and `ancestors_mut`, preorder, binary nodes. -/
def Preorder.BinCtxState.edit (s : Preorder.BinCtxState N V) (ys : List V) : Preorder.BinCtxState N V :=
  { s with ancestors := overwriteStack s.ancestors ys }

/-- Writing through `get_mut` and `ancestors_mut`, owned postorder (`dfs_postorder_iterators/mod.rs` 35-46). -/
def Postorder.OwnCtxState.edit (s : Postorder.OwnCtxState N V) (ys : List V) : Postorder.OwnCtxState N V :=
  { s with ancestors := overwriteStack s.ancestors ys }

/-- Writing through `get_mut` and `ancestors_mut`, owned postorder, binary nodes (`owned.rs` 459-466). -/
def Postorder.OwnBinCtxState.edit (s : Postorder.OwnBinCtxState N V) (ys : List V) : Postorder.OwnBinCtxState N V :=
  { s with ancestors := overwriteStack s.ancestors ys }

/-- Writing through `get_mut` and `ancestors_mut`, owned in order (`dfs_inorder_iterators/mod.rs` 101-111). -/
def Inorder.OwnCtxState.edit (s : Inorder.OwnCtxState N V) (ys : List V) : Inorder.OwnCtxState N V :=
  { s with ancestors := overwriteStack s.ancestors ys }

/-- Writing through `get_mut` and `ancestors_mut`, breadth first, general or binary (`bfs_iterators/mod.rs` 100-110). -/
def Bfs.CtxState.edit {C : Type w} {I : Type u} (s : Bfs.CtxState V C I) (ys : List V) : Bfs.CtxState V C I :=
  { s with cc := { s.cc with ancestors := overwriteStack s.cc.ancestors ys } }

/-- `while let Some(context) = it.next_mut() { body }`, stopped after at most `k` rounds.  The body sees the path and the
ancestors and says what to write to the ancestors. -/
def ctxEditLoop {S : Type u} {C : Type x} (next : S → Except Panic (Option (Ctx V C) × S)) (edit : S → List V → S)
    (f : List Nat → σ → List V → σ × List V) : Nat → S → σ → Except Panic σ
  | 0, _, w => .ok w
  | k + 1, s, w =>
    match next s with
    | .error e => .error e
    | .ok (none, _) => .ok w
    | .ok (some c, s') =>
      ctxEditLoop next edit f k (edit s' (f c.path w c.ancestors).2) (f c.path w c.ancestors).1

end TreeIter
