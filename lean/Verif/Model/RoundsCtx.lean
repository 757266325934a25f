import Verif.Model.Rounds
import Verif.Model.Collection

/-!
# The work of a call, with contexts

As `Verif.Model.Rounds`, for the iterators with context of binary nodes, in order, and breadth first.
-/

universe u v w

namespace TreeIter

variable {N : Type u} {V : Type v}

/-- Calls of `next` of slot iterators until one gives a node: the loop of the preorder iterator with context of binary nodes,
`dfs_preorder_iterators/mod.rs` 253-274, and that of the breadth-first one, `bfs_iterators/mod.rs` 210-257. -/
def slotPolls : List (List (Option N)) → Nat
  | [] => 0
  | [] :: rest => slotPolls rest + 1
  | (some _ :: _) :: _ => 1
  | (none :: ss) :: rest => slotPolls (ss :: rest) + 1
termination_by st => (st.map fun l => l.length + 1).sum

namespace Preorder

/-- Those in `Preorder.binCtxAdvance`: the slots of the node shown last are pushed first. -/
def binCtxPolls (s : BinCtxState N V) : Nat :=
  match s.root with
  | some _ => 0
  | none =>
    if s.ancestors.isEmpty then 0
    else
      match s.children with
      | some cs => slotPolls ([cs.1, cs.2] :: s.stack)
      | none => slotPolls s.stack

end Preorder

namespace Postorder

/-- Calls of `next` of slot iterators in `Postorder.binCtxLoop`, `dfs_postorder_iterators/borrow.rs` 429-464, and in
`Postorder.ownBinCtxLoop`, `owned.rs` 417-443. -/
def binLoopPolls [BinNode N V] : List (List (Option N)) → Nat
  | [] => 0
  | [] :: _ => 1
  | (some n :: ss) :: rest => binLoopPolls (slots n :: ss :: rest) + 1
  | (none :: ss) :: rest => binLoopPolls (ss :: rest) + 1
termination_by st => 3 * topSlotSize st + (st.head?.getD []).length
decreasing_by
  · have := slotSize_slots_lt n ss
    simp only [topSlotSize, slots, List.head?_cons, Option.getD_some, List.length_cons, List.length_nil] at this ⊢
    omega
  · simp [topSlotSize, slotSize]

/-- Those in `Postorder.binCtxAdvance` and `Postorder.mutBinCtxAdvance`. -/
def binCtxPolls [BinNode N V] (s : BinCtxState N V) : Nat :=
  match s.root with
  | some root => binLoopPolls (slots root :: s.stack)
  | none => if s.ancestors.tail.isEmpty then 0 else binLoopPolls s.stack

/-- Those in `Postorder.ownBinCtxAdvance`. -/
def ownBinCtxPolls [BinNode N V] (s : OwnBinCtxState N V) : Nat :=
  match s.root with
  | some root => binLoopPolls (slots root :: s.stack)
  | none => if s.ancestors.tail.isEmpty then 0 else binLoopPolls s.stack

end Postorder

namespace Inorder

/-- Entries taken off a stack and nodes split in `Inorder.ownAdvance`, `dfs_inorder_iterators/owned.rs` 225-275; the loop that
looks for a node pops as that of the iterator with ancestors does. -/
def ownWork [LeftNode N V] (s : OwnCtxState N V) : Nat :=
  match ownFind s.status s.ancestors s.path s.right with
  | .inl _ => ancFindPops s.status s.right
  | .inr (n, _) => ancFindPops s.status s.right + descendSplits (some n)

/-- The same in `Inorder.ctxAdvance`, `dfs_inorder_iterators/borrow.rs` 222-280. -/
def ctxWork [LeftNode N V] (s : CtxState N V) : Nat :=
  match ctxFind s.children s.status s.ancestors s.path s.right s.into with
  | .error _ => ancFindPops s.status s.right
  | .ok (.inl _) => ancFindPops s.status s.right
  | .ok (.inr (n, _)) => ancFindPops s.status s.right + descendSplits (some n)

end Inorder

namespace Bfs

namespace CtxCache

/-- Rounds of the loop of `advance_dfs`, `bfs_iterators/mod.rs` 112-173. -/
def advanceRounds (start : Nat) : Nat → CtxCache V → Nat
  | 0, _ => 0
  | fuel + 1, s =>
    match s.topChildren with
    | [] => 1
    | some c :: rest =>
      match c.value with
      | none => 1
      | some (v, p) =>
        let s1 := s.setTop rest
        let s2 : CtxCache V := ⟨v :: s1.ancestors, p :: s1.path, .mk none c.children :: s1.stack, s1.cache⟩
        if c.children.isEmpty && decide (s2.ancestors.length ≥ start) then 1
        else advanceRounds start fuel s2 + 1
    | none :: rest =>
      match (s.setTop (if rest.isEmpty then [] else rest ++ [none])).giveBack with
      | .error _ => 1
      | .ok s1 => advanceRounds start fuel s1.popToParent + 1

/-- Rounds of `advance_dfs` and of the loop that pops spent cache nodes in `retire`, `bfs_iterators/mod.rs` 57-77. -/
def retireRounds (s : CtxCache V) : Nat :=
  if !s.topChildren.isEmpty then
    let s1 := s.setTop (none :: s.topChildren)
    advanceRounds s1.ancestors.length (2 * s1.total + 2) s1
  else
    let (st, anc, path) := dropSpent s.stack s.ancestors s.path
    let s1 : CtxCache V := ⟨anc, path, st, s.cache⟩
    CacheState.dropRounds s.stack + advanceRounds s1.ancestors.length (2 * s1.total + 2) s1

end CtxCache

/-- Rounds of all loops in `ctxLoop`, `bfs_iterators/mod.rs` 42-87. -/
def ctxLoopRounds [SplitNode N V] (queue : List (List N)) (cc : CtxCache V) : Nat :=
  match cc.settle with
  | .error _ => 1
  | .ok cc =>
    match queue with
    | [] => 1
    | (_ :: _) :: _ => 1
    | [] :: q =>
      cc.retireRounds + 1 +
      match cc.retire with
      | .error _ => 0
      | .ok cc => if q.isEmpty then 0 else ctxLoopRounds q cc
termination_by queue.length

/-- Those in `ctxAdvance`. -/
def ctxRounds [SplitNode N V] (s : CtxState V (List N) N) : Nat :=
  if s.isRoot then 0
  else if s.cc.ancestors.isEmpty then 0
  else
    match s.children with
    | none => 0
    | some cs => ctxLoopRounds (s.queue ++ [cs]) s.cc

/-- Calls of `next` of child iterators in `ctxAdvance`. -/
def ctxPolls (s : CtxState V (List N) N) : Nat :=
  if s.isRoot then 0
  else if s.cc.ancestors.isEmpty then 0
  else
    match s.children with
    | none => 0
    | some cs => loopPolls (s.queue ++ [cs])

/-- Calls of `next` of slot iterators in `binCtxAdvance`, `bfs_iterators/mod.rs` 198-258. -/
def binCtxPolls (s : CtxState V (Option N × Option N) (Option N)) : Nat :=
  if s.isRoot then 0
  else if s.cc.ancestors.isEmpty then 0
  else
    match s.children with
    | none => 0
    | some (l, r) => slotPolls (s.queue ++ [[l, r]])

end Bfs

namespace Coll
variable {S : Type v} {O : Type w}

/-- The work of the single-tree iterators in `Coll.pull`, `collection_iterators.rs` 33-47. -/
def pullWork (mk : N → S) (next : S → Option O × S) (cost : S → Nat) : List N → Nat
  | [] => 0
  | n :: rest =>
    cost (mk n) +
      match next (mk n) with
      | (some _, _) => 0
      | (none, _) => pullWork mk next cost rest

/-- That in `Coll.next`. -/
def work (mk : N → S) (next : S → Option O × S) (cost : S → Nat) (s : State N S) : Nat :=
  match s.inner with
  | none => pullWork mk next cost s.rest
  | some i =>
    cost i +
      match next i with
      | (some _, _) => 0
      | (none, _) => pullWork mk next cost s.rest

/-- The work of the single-tree iterators in `Coll.ctxPull`, `collection_iterators.rs` 94-121. -/
def ctxPullWork (mk : N → List Nat → S) (next : S → Except Panic (Option O × S)) (cost : S → Nat) (index : Nat) : List N → Nat
  | [] => 0
  | n :: rest =>
    cost (mk n [wrapSucc index]) +
      match next (mk n [wrapSucc index]) with
      | .ok (none, _) => ctxPullWork mk next cost (wrapSucc index) rest
      | _ => 0

/-- That in `Coll.ctxAdvance`. -/
def ctxWork (mk : N → List Nat → S) (next : S → Except Panic (Option O × S)) (cost : S → Nat) (s : CtxState N S) : Nat :=
  match s.inner with
  | none => ctxPullWork mk next cost s.index s.rest
  | some i =>
    cost i +
      match next i with
      | .ok (none, _) => ctxPullWork mk next cost s.index s.rest
      | _ => 0

end Coll

end TreeIter
