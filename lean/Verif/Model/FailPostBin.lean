import Verif.Model.Fail

/-! # Postorder contexts of binary and of owned nodes, and breadth-first contexts of binary nodes, whose split may panic

The remaining contexts of C62.  As in `Fail`, `bad` tells where the user's code panics, and `true` in what `advance` gives
that it did. -/

universe u v

namespace TreeIter

variable {N : Type u} {V : Type v}

namespace Fail

/-- `dfs_postorder_iterators/borrow.rs` 430-464 (`mut_borrow.rs` 465-505); `ch` is the context's `children`.  The path has been advanced
before the user's code. -/
def postBinCtxLoop [BinNode N V] (bad : N → Bool) (ch : Option (Option N × Option N)) :
    List (List (Option N)) → List (Option N × Option N) → List Nat → List V → Except Panic (Bool × Postorder.BinCtxState N V)
  | (some n :: ss) :: rest, into, p :: path, anc =>
    if bad n then .ok (true, ⟨none, ss :: rest, into, wrapSucc p :: path, anc, ch⟩)
    else postBinCtxLoop bad ch (slots n :: ss :: rest) ((split2 n).2 :: into) (usizeMax :: wrapSucc p :: path) (val2 n :: anc)
  | (none :: ss) :: rest, into, p :: path, anc => postBinCtxLoop bad ch (ss :: rest) into (wrapSucc p :: path) anc
  | (_ :: _) :: _, _, [], _ => .error .unwrapNone
  | [] :: rest, c :: into, path, anc => .ok (false, ⟨none, rest, into, path.tail, anc, some c⟩)
  | [], c :: into, path, anc => .ok (false, ⟨none, [], into, path.tail, anc, some c⟩)
  | [] :: _, [], _, _ => .error .unwrapNone
  | [], [], _, _ => .error .unwrapNone
termination_by st => 3 * Postorder.topSlotSize st + (st.head?.getD []).length
decreasing_by
  · have := Postorder.slotSize_slots_lt n ss
    simp only [Postorder.topSlotSize, slots, List.head?_cons, Option.getD_some, List.length_cons, List.length_nil] at this ⊢
    omega
  · simp [Postorder.topSlotSize, Postorder.slotSize]

/-- `dfs_postorder_iterators/borrow.rs` 411-465. -/
def postBinCtxAdvance [BinNode N V] (bad : N → Bool) (s : Postorder.BinCtxState N V) :
    Except Panic (Bool × Postorder.BinCtxState N V) :=
  match s.root with
  | some root =>
    if bad root then .ok (true, { s with root := none })
    else
      postBinCtxLoop bad s.children (slots root :: s.stack) ((split2 root).2 :: s.into) (usizeMax :: s.path)
        (val2 root :: s.ancestors)
  | none =>
    if s.ancestors.tail.isEmpty then .ok (false, { s with ancestors := s.ancestors.tail })
    else postBinCtxLoop bad s.children s.stack s.into s.path s.ancestors.tail

/-- `StreamingIterator::next` of borrowed binary nodes. -/
def postBinCtxNext [BinNode N V] (bad : N → Bool) : Postorder.BinCtxState N V →
    Except Panic (Option (Option (Ctx V (Option N × Option N))) × Postorder.BinCtxState N V) :=
  streamNextE (postBinCtxAdvance bad) Postorder.binCtxGet

/-- `dfs_postorder_iterators/mut_borrow.rs` 442-506: `children` is cleared first. -/
def postMutBinCtxAdvance [BinNode N V] (bad : N → Bool) (s : Postorder.BinCtxState N V) :
    Except Panic (Bool × Postorder.BinCtxState N V) :=
  postBinCtxAdvance bad { s with children := none }

/-- `StreamingIterator::next` of mutably borrowed binary nodes. -/
def postMutBinCtxNext [BinNode N V] (bad : N → Bool) : Postorder.BinCtxState N V →
    Except Panic (Option (Option (Ctx V (Option N × Option N))) × Postorder.BinCtxState N V) :=
  streamNextE (postMutBinCtxAdvance bad) Postorder.binCtxGet

/-- `dfs_postorder_iterators/owned.rs` 417-443. -/
def postOwnBinCtxLoop [BinNode N V] (bad : N → Bool) :
    List (List (Option N)) → List Nat → List V → Except Panic (Bool × Postorder.OwnBinCtxState N V)
  | (some n :: ss) :: rest, p :: path, anc =>
    if bad n then .ok (true, ⟨none, ss :: rest, wrapSucc p :: path, anc⟩)
    else postOwnBinCtxLoop bad (slots n :: ss :: rest) (usizeMax :: wrapSucc p :: path) (val2 n :: anc)
  | (none :: ss) :: rest, p :: path, anc => postOwnBinCtxLoop bad (ss :: rest) (wrapSucc p :: path) anc
  | (_ :: _) :: _, [], _ => .error .unwrapNone
  | [] :: rest, path, anc => .ok (false, ⟨none, rest, path.tail, anc⟩)
  | [], path, anc => .ok (false, ⟨none, [], path.tail, anc⟩)
termination_by st => 3 * Postorder.topSlotSize st + (st.head?.getD []).length
decreasing_by
  · have := Postorder.slotSize_slots_lt n ss
    simp only [Postorder.topSlotSize, slots, List.head?_cons, Option.getD_some, List.length_cons, List.length_nil] at this ⊢
    omega
  · simp [Postorder.topSlotSize, Postorder.slotSize]

/-- `dfs_postorder_iterators/owned.rs` 404-444. -/
def postOwnBinCtxAdvance [BinNode N V] (bad : N → Bool) (s : Postorder.OwnBinCtxState N V) :
    Except Panic (Bool × Postorder.OwnBinCtxState N V) :=
  match s.root with
  | some root =>
    if bad root then .ok (true, { s with root := none })
    else postOwnBinCtxLoop bad (slots root :: s.stack) (usizeMax :: s.path) (val2 root :: s.ancestors)
  | none =>
    if s.ancestors.tail.isEmpty then .ok (false, { s with ancestors := s.ancestors.tail })
    else postOwnBinCtxLoop bad s.stack s.path s.ancestors.tail

/-- `StreamingIterator::next` of owned binary nodes. -/
def postOwnBinCtxNext [BinNode N V] (bad : N → Bool) : Postorder.OwnBinCtxState N V →
    Except Panic (Option (Option (Ctx V (Option N × Option N))) × Postorder.OwnBinCtxState N V) :=
  streamNextE (postOwnBinCtxAdvance bad) Postorder.ownBinCtxGet

/-- `dfs_postorder_iterators/owned.rs` 148-170. -/
def postOwnCtxLoop [TreeNode N V] (bad : N → Bool) :
    List (List N) → List Nat → List V → Except Panic (Bool × Postorder.OwnCtxState N V)
  | (n :: ns) :: rest, p :: path, anc =>
    if bad n then .ok (true, ⟨none, ns :: rest, wrapSucc p :: path, anc⟩)
    else postOwnCtxLoop bad (kids n :: ns :: rest) (usizeMax :: wrapSucc p :: path) (val n :: anc)
  | (_ :: _) :: _, [], _ => .error .unwrapNone
  | [] :: rest, path, anc => .ok (false, ⟨none, rest, path.tail, anc⟩)
  | [], path, anc => .ok (false, ⟨none, [], path.tail, anc⟩)
termination_by st => Postorder.topSize st
decreasing_by exact Postorder.topSize_kids_lt ..

/-- `dfs_postorder_iterators/owned.rs` 135-171. -/
def postOwnCtxAdvance [TreeNode N V] (bad : N → Bool) (s : Postorder.OwnCtxState N V) :
    Except Panic (Bool × Postorder.OwnCtxState N V) :=
  match s.root with
  | some root =>
    if bad root then .ok (true, { s with root := none })
    else postOwnCtxLoop bad (kids root :: s.stack) (usizeMax :: s.path) (val root :: s.ancestors)
  | none =>
    if s.ancestors.tail.isEmpty then .ok (false, { s with ancestors := s.ancestors.tail })
    else postOwnCtxLoop bad s.stack s.path s.ancestors.tail

/-- `StreamingIterator::next` of owned nodes. -/
def postOwnCtxNext [TreeNode N V] (bad : N → Bool) : Postorder.OwnCtxState N V →
    Except Panic (Option (Option (Ctx V (List N))) × Postorder.OwnCtxState N V) :=
  streamNextE (postOwnCtxAdvance bad) Postorder.ownCtxGet

/-! ## Breadth-first -/

/-- `bfs_iterators/mod.rs` 210-257: the path and the counter have been advanced before the user's code, `children` is empty. -/
def bfsBinCtxLoop [SplitNode2 N V] (bad : N → Bool) (queue : List (List (Option N))) (cc : Bfs.CtxCache V) (counter : Nat) :
    Except Panic (Bool × Bfs.CtxState V (Option N × Option N) (Option N)) :=
  match cc.settle with
  | .error e => .error e
  | .ok cc =>
    match queue with
    | [] => .error .indexOutOfRange
    | it :: q =>
      match Bfs.binScan it counter with
      | .error e => .error e
      | .ok (some n, ss, counter) =>
        match Bfs.checkedSucc counter with
        | .error e => .error e
        | .ok counter' =>
          if bad n then
            .ok (true, ⟨false, ⟨cc.ancestors, counter :: cc.path, cc.stack, cc.cache⟩, none, ss :: q, counter'⟩)
          else
            .ok (false, ⟨false, ⟨val2 n :: cc.ancestors, counter :: cc.path, cc.stack, cc.cache⟩, some (split2 n).2, ss :: q,
              counter'⟩)
      | .ok (none, _, _) =>
        match cc.retire with
        | .error e => .error e
        | .ok cc =>
          if q.isEmpty then .ok (false, ⟨false, { cc with ancestors := [] }, none, [], 0⟩) else bfsBinCtxLoop bad q cc 0
termination_by queue.length

/-- `bfs_iterators/mod.rs` 198-258. -/
def bfsBinCtxAdvance [SplitNode2 N V] (bad : N → Bool) (s : Bfs.CtxState V (Option N × Option N) (Option N)) :
    Except Panic (Bool × Bfs.CtxState V (Option N × Option N) (Option N)) :=
  if s.isRoot then .ok (false, { s with isRoot := false })
  else if s.cc.ancestors.isEmpty then .ok (false, s)
  else
    match s.children with
    | none => .error .unwrapNone
    | some (l, r) => bfsBinCtxLoop bad (s.queue ++ [[l, r]]) s.cc s.counter

/-- `StreamingIterator::next`. -/
def bfsBinCtxNext [SplitNode2 N V] (bad : N → Bool) : Bfs.CtxState V (Option N × Option N) (Option N) →
    Except Panic (Option (Option (Ctx V (Option N × Option N))) × Bfs.CtxState V (Option N × Option N) (Option N)) :=
  streamNextE (bfsBinCtxAdvance bad) Bfs.ctxGet

end Fail

end TreeIter
