import Verif.Tree

/-! # The cells of a tree in memory: reading and overwriting the value at a path -/

universe u v w

namespace TreeIter

variable {V : Type u}

/-- The value of the node reached by the child indexes. -/
def Tree.cell : Tree V → List Nat → Option V
  | .node a _, [] => some a
  | .node _ cs, i :: p =>
    match cs[i]? with
    | none => none
    | some c => c.cell p

/-- Overwrite the value of the node reached by the child indexes. -/
def Tree.setCell : Tree V → List Nat → V → Tree V
  | .node _ cs, [], x => .node x cs
  | .node a cs, i :: p, x =>
    match cs[i]? with
    | none => .node a cs
    | some c => .node a (cs.set i (c.setCell p x))

/-- The value of the node reached by left (`0`) and right (`1`) steps. -/
def BinTree.cell : BinTree V → List Nat → Option V
  | .node a _ _, [] => some a
  | .node _ (some l) _, 0 :: p => l.cell p
  | .node _ _ (some r), 1 :: p => r.cell p
  | _, _ => none

/-- Overwrite the value of the node reached by left (`0`) and right (`1`) steps. -/
def BinTree.setCell : BinTree V → List Nat → V → BinTree V
  | .node _ l r, [], x => .node x l r
  | .node a (some l) r, 0 :: p, x => .node a (some (l.setCell p x)) r
  | .node a l (some r), 1 :: p, x => .node a l (some (r.setCell p x))
  | t, _, _ => t

/-- The value of a node in a collection of trees: the number of the tree, then the path inside it. -/
def forestCell {T : Type v} (cell : T → List Nat → Option V) (ts : List T) : List Nat → Option V
  | [] => none
  | i :: p => ts[i]?.bind fun t => cell t p

/-- Overwrite the value of a node in a collection of trees. -/
def forestSet {T : Type v} (set : T → List Nat → V → T) (ts : List T) : List Nat → V → List T
  | [], _ => ts
  | i :: p, x => ts.modify i fun t => set t p x

/-- Run a stateful function over a list from left to right. -/
def mapAccum {σ : Type w} (f : σ → V → σ × V) : σ → List V → List V × σ
  | w, [] => ([], w)
  | w, x :: xs =>
    let r := mapAccum f (f w x).1 xs
    ((f w x).2 :: r.1, r.2)

/-- The shape of a tree. -/
def Tree.shape (t : Tree V) : Tree Unit := t.map fun _ => ()

/-- The shape of a binary tree. -/
def BinTree.shape (t : BinTree V) : BinTree Unit := t.map fun _ => ()

/-- The paths of the nodes from the root down to the node at `p`. -/
def prefixes (p : List Nat) : List (List Nat) := (List.range (p.length + 1)).map fun i => p.take i

/-- One visit to the node at `p` by a body that rewrites the values from the root down to that node; `read` and
`write` access a cell. -/
def visitAlong {M : Type v} {σ : Type w} (read : M → List Nat → Option V) (write : M → List Nat → V → M)
    (f : σ → List V → σ × List V) (mw : M × σ) (p : List Nat) : M × σ :=
  let r := f mw.2 ((prefixes p).filterMap (read mw.1))
  (((prefixes p).zip r.2).foldl (fun m c => write m c.1 c.2) mw.1, r.1)

end TreeIter
