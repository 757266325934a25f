import Verif.Model.BfsCtx
import Verif.Model.Inorder
import Verif.Model.Postorder

/-! # Editing the context between two steps

`get_mut` (`dfs_preorder_iterators/mod.rs` 295-306, `bfs_iterators/mod.rs` 100-110) hands out the context itself when
`get` would hand out a reference to it.  Through it a client can call `TreeContext::children_mut` (`tree_context.rs`
61-64) and `TreeContext::ancestors_mut` (`tree_context.rs` 49-52).

A client is a function `w → context → w × new contents` on a world `w`; it is called after every step that
stopped at a node. -/

universe u v w x y

namespace TreeIter

/-- One turn of `while let Some(context) = { it.advance(); it.get_mut() } { … }`: `put` writes what the client `e` left in
the context. -/
def editNext {S : Type u} {O : Type v} {E : Type w} {σ : Type x} (next : S → Except Panic (Option O × S)) (put : S → E → S)
    (e : σ → O → σ × E) (s : S × σ) : Except Panic (Option O × S × σ) :=
  match next s.1 with
  | .error p => .error p
  | .ok (none, s') => .ok (none, s', s.2)
  | .ok (some c, s') => .ok (some c, put s' (e s.2 c).2, (e s.2 c).1)

variable {N : Type u} {V : Type v} {C : Type w}

/-- Write `ancestors` (handed out as a slice, root first) and `children`. -/
def Preorder.putCtx (s : Preorder.CtxState N V) (x : List V × List N) : Preorder.CtxState N V :=
  { s with ancestors := x.1.reverse, children := some x.2 }

/-- Write `ancestors` and `children` of the binary iterator. -/
def Preorder.putBinCtx (s : Preorder.BinCtxState N V) (x : List V × Option N × Option N) : Preorder.BinCtxState N V :=
  { s with ancestors := x.1.reverse, children := some x.2 }

/-- Write `children` of a breadth-first iterator, general or binary. -/
def Bfs.putChildren {I : Type x} (s : Bfs.CtxState V C I) (cs : C) : Bfs.CtxState V C I :=
  { s with children := some cs }

/-- Write `children` of a mutably borrowed postorder iterator (`dfs_postorder_iterators/mod.rs` 35-46).  The collection is
a value of its own here: types that own memory are the subject of `Model/Handles`. -/
def Postorder.putChildren (s : Postorder.CtxState N V) (cs : List N) : Postorder.CtxState N V :=
  { s with children := some cs }

/-- Write `children` of a mutably borrowed binary postorder iterator (`dfs_postorder_iterators/mut_borrow.rs` 521-527). -/
def Postorder.putBinChildren (s : Postorder.BinCtxState N V) (cs : Option N × Option N) : Postorder.BinCtxState N V :=
  { s with children := some cs }

/-- Write `children` of a mutably borrowed in-order iterator (`dfs_inorder_iterators/mod.rs` 101-111): the array of
references, not the nodes behind them. -/
def Inorder.putChildren (s : Inorder.CtxState N V) (cs : Option N × Option N) : Inorder.CtxState N V :=
  { s with children := some cs }

end TreeIter
