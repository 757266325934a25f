import Verif.Model.Preorder

/-!
# Model of the plain breadth-first iterator and its `leaves()`

Source: `/repo/tree_iterators_rs/src/bfs_iterators/{mod,owned}.rs` and
`/repo/tree_iterators_rs/src/leaves_iterators/breadth_first/mod.rs`.  A `VecDeque` is a list with its front
at the head.
-/

universe u v w

namespace TreeIter

namespace Bfs

variable {N : Type u} {V : Type v}

/-- `bfs_iterators/owned.rs` 45-51: fields of `OwnedBFSIterator`. -/
structure State (N : Type u) where
  root : Option N
  queue : List (List N)

/-- `bfs_iterators/owned.rs` 57-62. -/
def new (root : N) : State N := ⟨some root, []⟩

/-- `bfs_iterators/mod.rs` 14-23: the loop that looks for the next node, dropping exhausted iterators. -/
def loop [SplitNode N V] : List (List N) → Option V × State N
  | [] => (none, ⟨none, []⟩)
  | [] :: rest => loop rest
  | (n :: ns) :: rest => (some (val n), ⟨none, (ns :: rest) ++ [kids n]⟩)

/-- `bfs_iterators/mod.rs` 5-26: `bfs_next!`. -/
def next [SplitNode N V] (s : State N) : Option V × State N :=
  match s.root with
  | some root => (some (val root), ⟨none, s.queue ++ [kids root]⟩)
  | none => loop s.queue

/-! ## `leaves()` -/

/-- `leaves_iterators/breadth_first/owned.rs`: fields of `OwnedLeavesIterator`. A `Peekable` is the list of
items it has yet to yield. -/
structure LeavesState (N : Type u) where
  root : Option N
  old : List (List N)
  new : List (List N)

/-- `bfs_iterators/owned.rs` 65-73. -/
def leaves (s : State N) : LeavesState N := ⟨s.root, s.queue, []⟩

/-- `leaves_iterators/breadth_first/mod.rs` 21-39: the case where the old queue is used up. -/
def leavesLoopNew [SplitNode N V] : List (List N) → Option (Bool × V) × LeavesState N
  | [] => (none, ⟨none, [], []⟩)
  | [] :: rest => leavesLoopNew rest
  | (n :: ns) :: rest => (some (!(kids n).isEmpty, val n), ⟨none, [], (ns :: rest) ++ [kids n]⟩)

/-- `leaves_iterators/breadth_first/mod.rs` 17-57: the loop. -/
def leavesLoop [SplitNode N V] (new : List (List N)) : List (List N) → Option (Bool × V) × LeavesState N
  | [] => leavesLoopNew new
  | [] :: rest => leavesLoop new rest
  | (n :: ns) :: rest => (some (!(kids n).isEmpty, val n), ⟨none, ns :: rest, new ++ [kids n]⟩)

/-- `leaves_iterators/breadth_first/mod.rs` 5-61: `bfs_next!`. -/
def leavesBfsNext [SplitNode N V] (s : LeavesState N) : Option (Bool × V) × LeavesState N :=
  match s.root with
  | some root => (some (!(kids root).isEmpty, val root), ⟨none, s.old, s.new ++ [kids root]⟩)
  | none => leavesLoop s.new s.old

/-- Number of nodes waiting in a state; bounds the number of iterations of `leavesNext`. -/
def LeavesState.pending [TreeNode N V] (s : LeavesState N) : Nat :=
  (s.root.map fun n => (unfold n).size).getD 0 +
    ((s.old ++ s.new).flatten.map fun n => (unfold n).size).sum

theorem size_unfold [TreeNode N V] (n : N) :
    (unfold n).size = 1 + ((kids n).map fun c => (unfold c).size).sum := by
  rw [unfold_eq, Tree.size, Tree.sizeL_eq, List.map_map]
  rfl

theorem leavesBfsNext_pending [TreeNode N V] (s s' : LeavesState N) (x : Bool × V)
    (h : leavesBfsNext s = (some x, s')) : s'.pending < s.pending := by
  obtain ⟨root, old, new⟩ := s
  cases root with
  | some r =>
    simp only [leavesBfsNext, Prod.mk.injEq] at h
    obtain ⟨-, rfl⟩ := h
    simp [LeavesState.pending, size_unfold r]
    omega
  | none =>
    simp only [leavesBfsNext] at h
    induction old with
    | nil =>
      simp only [leavesLoop] at h
      induction new with
      | nil => simp [leavesLoopNew] at h
      | cons ns rest ih =>
        cases ns with
        | nil => simpa [LeavesState.pending] using ih h
        | cons n ns =>
          simp only [leavesLoopNew, Prod.mk.injEq] at h
          obtain ⟨-, rfl⟩ := h
          simp [LeavesState.pending, size_unfold n]
          omega
    | cons ns rest ih =>
      cases ns with
      | nil => simpa [LeavesState.pending] using ih h
      | cons n ns =>
        simp only [leavesLoop, Prod.mk.injEq] at h
        obtain ⟨-, rfl⟩ := h
        simp [LeavesState.pending, size_unfold n]
        omega

/-- `leaves_iterators/breadth_first/mod.rs` 63-80: `next!`, skip everything that has children. -/
def leavesNext [TreeNode N V] (s : LeavesState N) : Option V × LeavesState N :=
  match _h : leavesBfsNext s with
  | (none, s') => (none, s')
  | (some (true, _), s') => leavesNext s'
  | (some (false, v), s') => (some v, s')
termination_by s.pending
decreasing_by exact leavesBfsNext_pending _ _ _ _h

end Bfs

end TreeIter
