import Verif.Spec.FailAfter

/-! # What binary postorder contexts answer after a panic of the user's code

As `Tree.lossyPostCtx` in `Spec/FailAfter`. -/

universe u v

namespace TreeIter

variable {N : Type u} {V : Type v} [SplitNode2 N V]

mutual
/-- Contexts of binary nodes in postorder: every call with the ancestors it finds and, if the user's code does not panic, the path
and the children of the node; and the ancestors afterwards. -/
def BinTree.lossyPostCtx (bad : N → Bool) (p : List Nat) (anc : List V) :
    BinTree N → List (List V × Option (List Nat × (Option N × Option N))) × List V
  | .node n l r =>
    if bad n then ([(anc, none)], anc.dropLast)
    else
      ((BinTree.lossyPostCtxO bad (p ++ [0]) (anc ++ [val2 n]) l).1 ++
          (BinTree.lossyPostCtxO bad (p ++ [1]) (BinTree.lossyPostCtxO bad (p ++ [0]) (anc ++ [val2 n]) l).2 r).1 ++
          [((BinTree.lossyPostCtxO bad (p ++ [1]) (BinTree.lossyPostCtxO bad (p ++ [0]) (anc ++ [val2 n]) l).2 r).2,
            some (p, (split2 n).2))],
        (BinTree.lossyPostCtxO bad (p ++ [1]) (BinTree.lossyPostCtxO bad (p ++ [0]) (anc ++ [val2 n]) l).2 r).2.dropLast)
/-- The same for a slot. -/
def BinTree.lossyPostCtxO (bad : N → Bool) (p : List Nat) (anc : List V) :
    Option (BinTree N) → List (List V × Option (List Nat × (Option N × Option N))) × List V
  | none => ([], anc)
  | some t => t.lossyPostCtx bad p anc
end

end TreeIter
