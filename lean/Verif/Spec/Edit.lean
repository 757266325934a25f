import Verif.Node

/-! # What editing the children does to a traversal

A client is a function `e : w → context → w × new contents`.  Because children can be added without end, the traversals are
given as relations that hold when the traversal is finite. -/

universe u v w

namespace TreeIter

variable {N : Type u} {V : Type v} {σ : Type w}

/-- The context of a node at `path` below the values `anc`. -/
def ctxAt [TreeNode N V] (path : List Nat) (anc : List V) (n : N) : Ctx V (List N) := ⟨path, anc ++ [val n], some (kids n)⟩

/-- The context of a binary node at `path` below the values `anc`. -/
def ctxAt2 [BinNode N V] (path : List Nat) (anc : List V) (n : N) : Ctx V (Option N × Option N) :=
  ⟨path, anc ++ [val2 n], some (split2 n).2⟩

/-! ## Preorder -/

/-- `EditPre e path i ns (w, anc) (w', anc') out`: the nodes `ns` are children number `i`, `i + 1`, … of a node at `path`,
and `anc` are the values from the root to that node.  Visiting `ns` and everything below in preorder shows the client
the contexts `out`.  At each node the client leaves other children, which are visited next, and other values for the
node and those above it. -/
inductive EditPre [TreeNode N V] (e : σ → Ctx V (List N) → σ × List V × List N) :
    List Nat → Nat → List N → σ × List V → σ × List V → List (Ctx V (List N)) → Prop where
  | nil {path : List Nat} {i : Nat} {s : σ × List V} : EditPre e path i [] s s []
  | cons {path : List Nat} {i : Nat} {n : N} {ns : List N} {w w1 w2 : σ} {anc anc1 anc2 : List V} {cs : List N}
      {s : σ × List V} {out1 out2 : List (Ctx V (List N))}
      (he : e w (ctxAt (path ++ [i]) anc n) = (w1, anc1, cs)) (hanc : anc1.length = anc.length + 1)
      (hcs : cs.length ≤ 2 ^ 64)
      (hkids : EditPre e (path ++ [i]) 0 cs (w1, anc1) (w2, anc2) out1)
      (hrest : EditPre e path (i + 1) ns (w2, anc2.dropLast) s out2) :
      EditPre e path i (n :: ns) (w, anc) s (ctxAt (path ++ [i]) anc n :: (out1 ++ out2))

/-- The same for a root: `EditRoot e n w w' out`. -/
inductive EditRoot [TreeNode N V] (e : σ → Ctx V (List N) → σ × List V × List N) (n : N) (w : σ) :
    σ → List (Ctx V (List N)) → Prop where
  | mk {w1 w2 : σ} {anc1 anc2 : List V} {cs : List N} {out : List (Ctx V (List N))}
      (he : e w (ctxAt [] [] n) = (w1, anc1, cs)) (hanc : anc1.length = 1) (hcs : cs.length ≤ 2 ^ 64)
      (hkids : EditPre e [] 0 cs (w1, anc1) (w2, anc2) out) : EditRoot e n w w2 (ctxAt [] [] n :: out)

/-- `EditPre` for binary nodes: `i` counts the slots, empty ones too. -/
inductive EditPre2 [BinNode N V] (e : σ → Ctx V (Option N × Option N) → σ × List V × Option N × Option N) :
    List Nat → Nat → List (Option N) → σ × List V → σ × List V → List (Ctx V (Option N × Option N)) → Prop where
  | nil {path : List Nat} {i : Nat} {s : σ × List V} : EditPre2 e path i [] s s []
  | none {path : List Nat} {i : Nat} {ss : List (Option N)} {s s' : σ × List V} {out : List (Ctx V (Option N × Option N))}
      (hrest : EditPre2 e path (i + 1) ss s s' out) : EditPre2 e path i (none :: ss) s s' out
  | some {path : List Nat} {i : Nat} {n : N} {ss : List (Option N)} {w w1 w2 : σ} {anc anc1 anc2 : List V} {l r : Option N}
      {s : σ × List V} {out1 out2 : List (Ctx V (Option N × Option N))}
      (he : e w (ctxAt2 (path ++ [i]) anc n) = (w1, anc1, l, r)) (hanc : anc1.length = anc.length + 1)
      (hkids : EditPre2 e (path ++ [i]) 0 [l, r] (w1, anc1) (w2, anc2) out1)
      (hrest : EditPre2 e path (i + 1) ss (w2, anc2.dropLast) s out2) :
      EditPre2 e path i (some n :: ss) (w, anc) s (ctxAt2 (path ++ [i]) anc n :: (out1 ++ out2))

/-- The same for a root. -/
inductive EditRoot2 [BinNode N V] (e : σ → Ctx V (Option N × Option N) → σ × List V × Option N × Option N) (n : N) (w : σ) :
    σ → List (Ctx V (Option N × Option N)) → Prop where
  | mk {w1 w2 : σ} {anc1 anc2 : List V} {l r : Option N} {out : List (Ctx V (Option N × Option N))}
      (he : e w (ctxAt2 [] [] n) = (w1, anc1, l, r)) (hanc : anc1.length = 1)
      (hkids : EditPre2 e [] 0 [l, r] (w1, anc1) (w2, anc2) out) : EditRoot2 e n w w2 (ctxAt2 [] [] n :: out)

/-! ## Breadth first: the client changes the children only -/

/-- A node that will be visited, with its path and the values above it. -/
structure Spot (N : Type u) (V : Type v) where
  path : List Nat
  above : List V
  node : N

/-- The children `ns` of a node at `path`, the first having number `i`. -/
def spots (path : List Nat) (anc : List V) : Nat → List N → List (Spot N V)
  | _, [] => []
  | i, n :: ns => ⟨path ++ [i], anc, n⟩ :: spots path anc (i + 1) ns

/-- The occupied slots among `ss`, the first having number `i`. -/
def slotSpots (path : List Nat) (anc : List V) : Nat → List (Option N) → List (Spot N V)
  | _, [] => []
  | i, none :: ss => slotSpots path anc (i + 1) ss
  | i, some n :: ss => ⟨path ++ [i], anc, n⟩ :: slotSpots path anc (i + 1) ss

/-- Visit a level from left to right: the client's world afterwards, the contexts it saw, and the next level, made of the
children it left. -/
def editLevel [TreeNode N V] (e : σ → Ctx V (List N) → σ × List N) (w : σ) :
    List (Spot N V) → σ × List (Ctx V (List N)) × List (Spot N V)
  | [] => (w, [], [])
  | sp :: sps =>
    let c := ctxAt sp.path sp.above sp.node
    let r := editLevel e (e w c).1 sps
    (r.1, c :: r.2.1, spots sp.path c.ancestors 0 (e w c).2 ++ r.2.2)

/-- The client never leaves `2 ^ 64` or more children at a node of the level. -/
def levelOk [TreeNode N V] (e : σ → Ctx V (List N) → σ × List N) (w : σ) : List (Spot N V) → Prop
  | [] => True
  | sp :: sps =>
    (e w (ctxAt sp.path sp.above sp.node)).2.length < 2 ^ 64 ∧ levelOk e (e w (ctxAt sp.path sp.above sp.node)).1 sps

/-- `EditBfs e w level w' out`: visiting `level` and everything below, level by level, shows the client the contexts
`out`. -/
inductive EditBfs [TreeNode N V] (e : σ → Ctx V (List N) → σ × List N) :
    σ → List (Spot N V) → σ → List (Ctx V (List N)) → Prop where
  | nil {w : σ} : EditBfs e w [] w []
  | level {w w' : σ} {level : List (Spot N V)} {out : List (Ctx V (List N))} (hl : level ≠ []) (hok : levelOk e w level)
      (hnext : EditBfs e (editLevel e w level).1 (editLevel e w level).2.2 w' out) :
      EditBfs e w level w' ((editLevel e w level).2.1 ++ out)

/-- `editLevel` for binary nodes. -/
def editLevel2 [BinNode N V] (e : σ → Ctx V (Option N × Option N) → σ × Option N × Option N) (w : σ) :
    List (Spot N V) → σ × List (Ctx V (Option N × Option N)) × List (Spot N V)
  | [] => (w, [], [])
  | sp :: sps =>
    let c := ctxAt2 sp.path sp.above sp.node
    let r := editLevel2 e (e w c).1 sps
    (r.1, c :: r.2.1, slotSpots sp.path c.ancestors 0 [(e w c).2.1, (e w c).2.2] ++ r.2.2)

/-- `EditBfs` for binary nodes. -/
inductive EditBfs2 [BinNode N V] (e : σ → Ctx V (Option N × Option N) → σ × Option N × Option N) :
    σ → List (Spot N V) → σ → List (Ctx V (Option N × Option N)) → Prop where
  | nil {w : σ} : EditBfs2 e w [] w []
  | level {w w' : σ} {level : List (Spot N V)} {out : List (Ctx V (Option N × Option N))} (hl : level ≠ [])
      (hnext : EditBfs2 e (editLevel2 e w level).1 (editLevel2 e w level).2.2 w' out) :
      EditBfs2 e w level w' ((editLevel2 e w level).2.1 ++ out)

/-! ## A client that cuts the tree -/

mutual
/-- The tree without the nodes below those where `p` holds. -/
def Tree.cut {α : Type u} (p : α → Bool) : Tree α → Tree α
  | .node a cs => .node a (if p a then [] else Tree.cutL p cs)
/-- `cut` every tree of a forest. -/
def Tree.cutL {α : Type u} (p : α → Bool) : List (Tree α) → List (Tree α)
  | [] => []
  | t :: ts => t.cut p :: Tree.cutL p ts
end

/-- The slots `s` hold nodes found in `t` only. -/
def SlotsSub (s t : Option N × Option N) : Prop :=
  (∀ x ∈ s.1, x ∈ t.1 ∨ x ∈ t.2) ∧ ∀ x ∈ s.2, x ∈ t.1 ∨ x ∈ t.2

end TreeIter
