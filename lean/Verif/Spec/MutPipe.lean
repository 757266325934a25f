import Verif.Spec.Pipeline

/-! # Specification of folds that rewrite the values they visit -/

universe u v w

namespace TreeIter

/-- A folding body that also rewrites the value, as a fold that returns the rewritten tree beside the result. -/
def Tree.rebuild {V : Type u} {O : Type v} {σ : Type w} (body : σ → List O → V → σ × V × O) (w : σ)
    (rs : List (Tree V × O)) (x : V) : σ × Tree V × O :=
  ((body w (rs.map Prod.snd) x).1, .node (body w (rs.map Prod.snd) x).2.1 (rs.map Prod.fst),
    (body w (rs.map Prod.snd) x).2.2)

/-- The same for a body that is also given the path of the node. -/
def Tree.rebuildPath {V : Type u} {O : Type v} {σ : Type w} (body : σ → List O → List Nat → V → σ × V × O) (w : σ)
    (rs : List (Tree V × O)) (p : List Nat) (x : V) : σ × Tree V × O :=
  Tree.rebuild (fun w os x => body w os p x) w rs x

/-- The same for binary trees. -/
def BinTree.rebuild {V : Type u} {O : Type v} {σ : Type w} (body : σ → Option O × Option O → V → σ × V × O) (w : σ)
    (rs : Option (BinTree V × O) × Option (BinTree V × O)) (x : V) : σ × BinTree V × O :=
  ((body w (rs.1.map Prod.snd, rs.2.map Prod.snd) x).1,
    .node (body w (rs.1.map Prod.snd, rs.2.map Prod.snd) x).2.1 (rs.1.map Prod.fst) (rs.2.map Prod.fst),
    (body w (rs.1.map Prod.snd, rs.2.map Prod.snd) x).2.2)

/-- The same for a body that is also given the path of the node. -/
def BinTree.rebuildPath {V : Type u} {O : Type v} {σ : Type w}
    (body : σ → Option O × Option O → List Nat → V → σ × V × O) (w : σ)
    (rs : Option (BinTree V × O) × Option (BinTree V × O)) (p : List Nat) (x : V) : σ × BinTree V × O :=
  BinTree.rebuild (fun w os x => body w os p x) w rs x

end TreeIter
