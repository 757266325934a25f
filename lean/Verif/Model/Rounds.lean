import Verif.Model.BfsCtx

/-!
# The work of a call

For each iterator, how often a call of `next` goes around its loops.  A round asks one child iterator for its next node (in
order: takes one entry off a stack, or splits one node), and does nothing else that depends on the tree.  The functions follow
the loops of the models, case by case; they give numbers only, the states are those of the models.
-/

universe u v w

namespace TreeIter

/-- The work of the first `k` calls. -/
def totalOver {S : Type u} {O : Type v} (next : S → Option O × S) (cost : S → Nat) : Nat → S → Nat
  | 0, _ => 0
  | k + 1, s => cost s + totalOver next cost k (next s).2

/-- The work of the first `k` calls, or of those up to the first that panics. -/
def totalOverE {S : Type u} {O : Type v} (next : S → Except Panic (Option O × S)) (cost : S → Nat) : Nat → S → Nat
  | 0, _ => 0
  | k + 1, s =>
    cost s +
      match next s with
      | .error _ => 0
      | .ok (_, s') => totalOverE next cost k s'

variable {N : Type u} {V : Type v}

namespace Preorder

/-- Calls of `next` of child iterators in `Preorder.loop`, `dfs_preorder_iterators/mod.rs` 14-24; the loops of the iterators with
ancestors (124-135) and context (190-208) ask in the same way. -/
def loopPolls : List (List N) → Nat
  | [] => 0
  | [] :: rest => loopPolls rest + 1
  | (_ :: _) :: _ => 1

/-- Those in `Preorder.next`. -/
def polls (s : State N) : Nat :=
  match s.root with
  | some _ => 0
  | none => loopPolls s.stack

/-- Those in `Preorder.ancAdvance`. -/
def ancPolls (s : AncState N V) : Nat :=
  match s.root with
  | some _ => 0
  | none => loopPolls s.stack

/-- Those in `Preorder.ctxAdvance`: the children of the node shown last are pushed first. -/
def ctxPolls (s : CtxState N V) : Nat :=
  match s.root with
  | some _ => 0
  | none =>
    if s.ancestors.isEmpty then 0
    else
      match s.children with
      | some cs => loopPolls (cs :: s.stack)
      | none => loopPolls s.stack

end Preorder

namespace Postorder

/-- Calls of `next` of child iterators in `Postorder.loop`, `dfs_postorder_iterators/mod.rs` 16-29; with ancestors 58-69, with
context `owned.rs` 148-170 and `borrow.rs` 156-189. -/
def loopPolls [TreeNode N V] : List (List N) → Nat
  | [] => 0
  | [] :: _ => 1
  | (n :: ns) :: rest => loopPolls (kids n :: ns :: rest) + 1
termination_by st => topSize st
decreasing_by exact topSize_kids_lt ..

/-- Those in `Postorder.next`. -/
def polls [TreeNode N V] (s : State N V) : Nat :=
  match s.root with
  | some root => loopPolls (kids root :: s.stack)
  | none => loopPolls s.stack

/-- Those in `Postorder.ancAdvance`. -/
def ancPolls [TreeNode N V] (s : AncState N V) : Nat :=
  match s.root with
  | some root => loopPolls (kids root :: s.stack)
  | none => loopPolls s.stack

/-- Those in `Postorder.ctxAdvance`. -/
def ctxPolls [TreeNode N V] (s : CtxState N V) : Nat :=
  match s.root with
  | some root => loopPolls (kids root :: s.stack)
  | none => if s.ancestors.tail.isEmpty then 0 else loopPolls s.stack

/-- Those in `Postorder.ownCtxAdvance`. -/
def ownCtxPolls [TreeNode N V] (s : OwnCtxState N V) : Nat :=
  match s.root with
  | some root => loopPolls (kids root :: s.stack)
  | none => if s.ancestors.tail.isEmpty then 0 else loopPolls s.stack

end Postorder

namespace Inorder

/-- Entries taken off `right_stack` in `Inorder.find`, `dfs_inorder_iterators/mod.rs` 10-22. -/
def findPops (items : List V) : List (Option N) → Nat
  | [] => 0
  | popped :: rest =>
    if (popped :: rest).length = items.length then 0
    else if rest.isEmpty then 1
    else
      match popped with
      | some _ => 1
      | none => findPops items rest + 1

/-- Nodes split in `Inorder.descend`, `dfs_inorder_iterators/mod.rs` 24-30. -/
def descendSplits [LeftNode N V] : Option N → Nat
  | none => 0
  | some n => descendSplits (split2 n).2.1 + 1
termination_by cur => curSize cur
decreasing_by exact curSize_left_lt n

/-- Both in `Inorder.next`. -/
def work [LeftNode N V] (s : State N V) : Nat :=
  match find s.items s.right with
  | (.ret, _) => findPops s.items s.right
  | (.cur cur, _) => findPops s.items s.right + descendSplits cur

/-- Entries taken off `right_stack` or `status_stack` in `Inorder.ancFind`, `dfs_inorder_iterators/mod.rs` 41-64. -/
def ancFindPops : List Status → List (Option N) → Nat
  | .wentRight :: ss, right => ancFindPops ss right + 1
  | .wentLeft :: _, _ => 0
  | .returnedSelf :: _, [] => 0
  | .returnedSelf :: _, some _ :: _ => 1
  | .returnedSelf :: ss, none :: right => ancFindPops (.wentRight :: ss) right + 1
  | [], [] => 0
  | [], some _ :: _ => 1
  | [], none :: right => ancFindPops [] right + 1
termination_by st right => st.length + right.length

/-- Both in `Inorder.ancAdvance`. -/
def ancWork [LeftNode N V] (s : AncState N V) : Nat :=
  match ancFind s.status s.items s.right with
  | .inl _ => ancFindPops s.status s.right
  | .inr (n, _) => ancFindPops s.status s.right + descendSplits (some n)

end Inorder

namespace Leaves

/-- Calls of `next` of child iterators in `Leaves.loop`, `leaves_iterators/depth_first/mod.rs` 19-44. -/
def loopPolls [TreeNode N V] : (bottom top : List (List N)) → (just : Bool) → Nat
  | bottom, (n :: ns) :: top, _ => loopPolls bottom (kids n :: ns :: top) true + 1
  | _, [] :: _, true => 1
  | bottom, [] :: top, false => loopPolls bottom top false + 1
  | (n :: ns) :: bottom, [], just => loopPolls (ns :: bottom) [kids n] just + 1
  | [] :: bottom, [], just => loopPolls bottom [] just + 1
  | [], [], _ => 0
termination_by bottom top => 2 * (stackNodes bottom + stackNodes top) + bottom.length + top.length
decreasing_by
  all_goals
    try have hs := size_unfold n
    simp only [stackNodes, List.map_cons, List.sum_cons, List.length_cons, List.map_nil, List.sum_nil,
      List.length_nil] at *
    omega

/-- Those in `Leaves.next`. -/
def polls [TreeNode N V] (s : State N V) : Nat :=
  match s.root with
  | some root => loopPolls s.bottom (kids root :: s.top) true
  | none => loopPolls s.bottom s.top false

/-- Calls of `next` of child iterators in `Leaves.ancLoop`, `leaves_iterators/ancestors_depth_first/mod.rs` 18-53: a round may ask
an iterator of each stack. -/
def ancLoopPolls [TreeNode N V] (old new : List (List N)) (items : List V) (pushed : Bool) : Nat :=
  match new with
  | (n :: ns) :: new => ancLoopPolls old (kids n :: ns :: new) (val n :: items) true + 1
  | new =>
    min new.length 1 +
      if pushed then 0
      else
        match old with
        | (n :: ns) :: old => ancLoopPolls (ns :: old) (kids n :: new.tail) (val n :: items) true + 1
        | old =>
          min old.length 1 +
            match _hi : items.tail with
            | [] => 0
            | i :: is => ancLoopPolls old.tail new.tail (i :: is) false
termination_by 3 * (stackNodes old + stackNodes new) + old.length + new.length + items.length
decreasing_by
  · have hs := size_unfold n
    simp only [stackNodes, List.map_cons, List.sum_cons, List.length_cons] at *
    omega
  · have hs := size_unfold n
    have h1 := stackNodes_tail_le new
    have h2 : new.tail.length ≤ new.length := by simp
    simp only [stackNodes, List.map_cons, List.sum_cons, List.length_cons] at *
    omega
  · have h1 := stackNodes_tail_le new
    have h2 : new.tail.length ≤ new.length := by simp
    have h3 := stackNodes_tail_le old
    have h4 : old.tail.length ≤ old.length := by simp
    have h5 : items.length = is.length + 2 := by
      have := congrArg List.length _hi
      simp only [List.length_tail, List.length_cons] at this
      omega
    simp only [List.length_cons]
    omega

/-- Those in `Leaves.ancAdvance`. -/
def ancPolls [TreeNode N V] (s : AncState N V) : Nat :=
  match s.root with
  | some root => ancLoopPolls s.old (kids root :: s.new) (val root :: s.items) true
  | none => ancLoopPolls s.old s.new s.items.tail false

end Leaves

namespace Bfs

/-- Calls of `next` of child iterators in `Bfs.loop`, `bfs_iterators/mod.rs` 14-23. -/
def loopPolls : List (List N) → Nat
  | [] => 0
  | [] :: rest => loopPolls rest + 1
  | (_ :: _) :: _ => 1

/-- Those in `Bfs.next`. -/
def polls (s : State N) : Nat :=
  match s.root with
  | some _ => 0
  | none => loopPolls s.queue

/-- Calls of `next` of the `Peekable`s in `Bfs.leavesBfsNext`, `leaves_iterators/breadth_first/mod.rs` 17-57. -/
def leavesBfsPolls (s : LeavesState N) : Nat :=
  match s.root with
  | some _ => 0
  | none => loopPolls (s.old ++ s.new)

/-- Those in `Bfs.leavesNext`. -/
def leavesPolls [TreeNode N V] (s : LeavesState N) : Nat :=
  leavesBfsPolls s +
    match _h : leavesBfsNext s with
    | (none, _) => 0
    | (some (true, _), s') => leavesPolls s'
    | (some (false, _), _) => 0
termination_by s.pending
decreasing_by exact leavesBfsNext_pending _ _ _ _h

namespace CacheState
variable {β : Type w}

/-- Rounds of the loop of `advance_dfs`, `bfs_iterators/mod.rs` 346-399. -/
def advanceRounds (start : Nat) : Nat → CacheState β → Nat
  | 0, _ => 0
  | fuel + 1, s =>
    match s.topChildren with
    | [] => 1
    | some c :: rest =>
      match c.value with
      | none => 1
      | some v =>
        let s1 := s.setTop rest
        let s2 : CacheState β := ⟨v :: s1.items, .mk none c.children :: s1.stack, s1.cache⟩
        if c.children.isEmpty && decide (s2.items.length ≥ start) then 1
        else advanceRounds start fuel s2 + 1
    | none :: rest =>
      match (s.setTop (if rest.isEmpty then [] else rest ++ [none])).moveUp with
      | .error _ => 1
      | .ok s1 => advanceRounds start fuel s1 + 1

/-- Rounds of the loop that pops spent cache nodes, `bfs_iterators/mod.rs` 303-310. -/
def dropRounds : List (Cache β) → Nat
  | t :: st => if t.children.length > 1 then 0 else dropRounds st + 1
  | [] => 0

/-- Both in `retire`, `bfs_iterators/mod.rs` 294-313. -/
def retireRounds (s : CacheState β) : Nat :=
  if !s.topChildren.isEmpty then
    let s1 := s.setTop (none :: s.topChildren)
    advanceRounds s1.items.length (2 * s1.total + 2) s1
  else
    let (st, items) := dropSpent s.stack s.items
    let s1 : CacheState β := ⟨items, st, s.cache⟩
    dropRounds s.stack + advanceRounds s1.items.length (2 * s1.total + 2) s1

end CacheState

/-- Rounds of all loops in `ancLoop`, `bfs_iterators/mod.rs` 280-319. -/
def ancLoopRounds [SplitNode N V] (queue : List (List N)) (cs : CacheState V) : Nat :=
    match settle cs with
    | .error _ => 1
    | .ok cs =>
      match queue with
      | [] => 1
      | (_ :: _) :: _ => 1
      | [] :: q =>
        cs.retireRounds + 1 +
        match cs.retire with
        | .error _ => 0
        | .ok cs => if q.isEmpty then 0 else ancLoopRounds q cs
termination_by queue.length

/-- Those in `ancAdvance`. -/
def ancRounds [SplitNode N V] (s : AncState N V) : Nat := if s.isRoot then 0 else ancLoopRounds s.queue s.cs

/-- Calls of `next` of child iterators in `ancAdvance`. -/
def ancPolls (s : AncState N V) : Nat := if s.isRoot then 0 else loopPolls s.queue

end Bfs

end TreeIter
