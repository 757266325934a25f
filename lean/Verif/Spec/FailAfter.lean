import Verif.Spec.Fail

/-!
# What the iterators that lose ancestors do after a panic of the user's code

These iterators take one ancestor away at the beginning of a call, in the belief that the call before has added one.  A call
in which the user's code panicked has added none.  The functions here thread the list of ancestors, the root first, through the
traversal: every call, also one that ends in a panic, takes the last one away.
-/

universe u v w

namespace TreeIter

section
variable {N : Type u} {V : Type v} [SplitNode N V]

mutual
/-- Postorder: the calls that are made for a tree below the ancestors `anc`, and the ancestors afterwards.  `none` is a panic,
`some l` a call that finds the ancestors `l` (the node itself is meant to be the last of them). -/
def Tree.lossyPost (bad : N → Bool) (anc : List V) : Tree N → List (Option (List V)) × List V
  | .node n cs =>
    if bad n then ([none], anc.dropLast)
    else ((Tree.lossyPostL bad (anc ++ [val n]) cs).1 ++ [some (Tree.lossyPostL bad (anc ++ [val n]) cs).2],
      (Tree.lossyPostL bad (anc ++ [val n]) cs).2.dropLast)
/-- The same for a forest. -/
def Tree.lossyPostL (bad : N → Bool) (anc : List V) : List (Tree N) → List (Option (List V)) × List V
  | [] => ([], anc)
  | t :: ts => ((t.lossyPost bad anc).1 ++ (Tree.lossyPostL bad (t.lossyPost bad anc).2 ts).1,
      (Tree.lossyPostL bad (t.lossyPost bad anc).2 ts).2)
end

mutual
/-- The leaves with their ancestors, depth first: as `lossyPost`, but a node with children is passed without an answer, unless
no ancestor is left then: that call finds an empty list. -/
def Tree.lossyLeaves (bad : N → Bool) (anc : List V) : Tree N → List (Option (List V)) × List V
  | .node n [] => if bad n then ([none], anc.dropLast) else ([some (anc ++ [val n])], anc)
  | .node n (c :: cs) =>
    if bad n then ([none], anc.dropLast)
    else
      ((Tree.lossyLeavesL bad (anc ++ [val n]) (c :: cs)).1 ++
          (if (Tree.lossyLeavesL bad (anc ++ [val n]) (c :: cs)).2.dropLast.isEmpty then [some []] else []),
        (Tree.lossyLeavesL bad (anc ++ [val n]) (c :: cs)).2.dropLast)
/-- The same for a forest. -/
def Tree.lossyLeavesL (bad : N → Bool) (anc : List V) : List (Tree N) → List (Option (List V)) × List V
  | [] => ([], anc)
  | t :: ts => ((t.lossyLeaves bad anc).1 ++ (Tree.lossyLeavesL bad (t.lossyLeaves bad anc).2 ts).1,
      (Tree.lossyLeavesL bad (t.lossyLeaves bad anc).2 ts).2)
end

/-- The answer of the `k`-th call: a list without ancestors is answered by `None`. -/
def lossyAnswer (l : List (Option (List V))) (k : Nat) : Option (Option (List V)) :=
  match l[k]? with
  | none => none
  | some none => some none
  | some (some []) => none
  | some (some (a :: as)) => some (some (a :: as))

mutual
/-- Contexts in postorder: every call with the ancestors it finds and, if the user's code does not panic, the path and the
children of the node. -/
def Tree.lossyPostCtx (bad : N → Bool) (p : List Nat) (anc : List V) :
    Tree N → List (List V × Option (List Nat × List N)) × List V
  | .node n cs =>
    if bad n then ([(anc, none)], anc.dropLast)
    else ((Tree.lossyPostCtxL bad p 0 (anc ++ [val n]) cs).1 ++
        [((Tree.lossyPostCtxL bad p 0 (anc ++ [val n]) cs).2, some (p, kids n))],
      (Tree.lossyPostCtxL bad p 0 (anc ++ [val n]) cs).2.dropLast)
/-- The same for the children from number `i` on of the node at `p`. -/
def Tree.lossyPostCtxL (bad : N → Bool) (p : List Nat) (i : Nat) (anc : List V) :
    List (Tree N) → List (List V × Option (List Nat × List N)) × List V
  | [] => ([], anc)
  | t :: ts => ((t.lossyPostCtx bad (p ++ [i]) anc).1 ++
        (Tree.lossyPostCtxL bad p (i + 1) (t.lossyPostCtx bad (p ++ [i]) anc).2 ts).1,
      (Tree.lossyPostCtxL bad p (i + 1) (t.lossyPostCtx bad (p ++ [i]) anc).2 ts).2)
end

mutual
/-- Contexts in preorder. -/
def Tree.lossyPreCtx (bad : N → Bool) (p : List Nat) (anc : List V) :
    Tree N → List (List V × Option (List Nat × List N)) × List V
  | .node n cs =>
    if bad n then ([(anc, none)], anc.dropLast)
    else ((anc ++ [val n], some (p, kids n)) :: (Tree.lossyPreCtxL bad p 0 (anc ++ [val n]) cs).1,
      (Tree.lossyPreCtxL bad p 0 (anc ++ [val n]) cs).2.dropLast)
/-- The same for the children from number `i` on of the node at `p`. -/
def Tree.lossyPreCtxL (bad : N → Bool) (p : List Nat) (i : Nat) (anc : List V) :
    List (Tree N) → List (List V × Option (List Nat × List N)) × List V
  | [] => ([], anc)
  | t :: ts => ((t.lossyPreCtx bad (p ++ [i]) anc).1 ++
        (Tree.lossyPreCtxL bad p (i + 1) (t.lossyPreCtx bad (p ++ [i]) anc).2 ts).1,
      (Tree.lossyPreCtxL bad p (i + 1) (t.lossyPreCtx bad (p ++ [i]) anc).2 ts).2)
end

end

section
variable {N : Type u} {V : Type v} [SplitNode2 N V]

mutual
/-- Contexts of binary nodes in preorder. -/
def BinTree.lossyPreCtx (bad : N → Bool) (p : List Nat) (anc : List V) :
    BinTree N → List (List V × Option (List Nat × (Option N × Option N))) × List V
  | .node n l r =>
    if bad n then ([(anc, none)], anc.dropLast)
    else
      ((anc ++ [val2 n], some (p, (split2 n).2)) :: ((BinTree.lossyPreCtxO bad (p ++ [0]) (anc ++ [val2 n]) l).1 ++
          (BinTree.lossyPreCtxO bad (p ++ [1]) (BinTree.lossyPreCtxO bad (p ++ [0]) (anc ++ [val2 n]) l).2 r).1),
        (BinTree.lossyPreCtxO bad (p ++ [1]) (BinTree.lossyPreCtxO bad (p ++ [0]) (anc ++ [val2 n]) l).2 r).2.dropLast)
/-- The same for a slot. -/
def BinTree.lossyPreCtxO (bad : N → Bool) (p : List Nat) (anc : List V) :
    Option (BinTree N) → List (List V × Option (List Nat × (Option N × Option N))) × List V
  | none => ([], anc)
  | some t => t.lossyPreCtx bad p anc
end

end

/-- The calls up to the first after which the iterator takes itself for finished, with their answers. -/
def upTo {V : Type v} {C : Type w} (stop : List V → Bool) : List (List V × Option (List Nat × C)) → List (Option (Ctx V C))
  | [] => []
  | (anc, o) :: l => o.map (fun x => ⟨x.1, anc, some x.2⟩) :: if stop anc then [] else upTo stop l

end TreeIter
