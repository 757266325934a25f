import Verif.Tree

/-!
# `at_path_mut` on the crate's own trees, and what is written through the reference it returns

Source: `/repo/tree_iterators_rs/src/prelude.rs` 1300-1310, 1868-1878, 4143-4147, 4411-4415, with the children of
`Tree` and `BinaryTree`, 3491-3506 and 3535-3557.

A mutable reference is a `Loan`: what it refers to now, and what its lender holds when something else has been written
there and the borrow has ended.  Taking a reference to a part of what a reference refers to makes a new loan, whose end is
followed by the end of the first one.

Simplification: user types are left out, since the code puts no condition on what their references refer to.
-/

universe u v w

namespace TreeIter

/-- `&mut T` borrowed from an owner that holds a `W`. -/
structure Loan (T : Type u) (W : Type v) where
  /-- what is behind the reference -/
  now : T
  /-- what the owner holds after the borrow, if something else was written behind the reference -/
  back : T → W

/-- `&mut t`. -/
def lend {T : Type u} (t : T) : Loan T T := ⟨t, id⟩

namespace AtPath

variable {V : Type u} {W : Type v}

/-- `prelude.rs` 3500-3505 and the `nth` of `std::slice::IterMut`: a reference to child number `i`. -/
def child (r : Loan (Tree V) W) (i : Nat) : Option (Loan (Tree V) W) :=
  match r.now.children[i]? with
  | none => none
  | some c => some ⟨c, fun c' => r.back (.node r.now.value (r.now.children.set i c'))⟩

/-- `prelude.rs` 1868-1878. -/
def atPathMut (current : Loan (Tree V) W) : List Nat → Option (Loan (Tree V) W)
  | [] => some current
  | i :: path =>
    match child current i with
    | none => none
    | some c => atPathMut c path

/-- `prelude.rs` 3541-3556: the array of two optional references. -/
def slotsMut (r : Loan (BinTree V) W) : List (Option (Loan (BinTree V) W)) :=
  match r.now with
  | .node a left right =>
    [left.map fun c => ⟨c, fun c' => r.back (.node a (some c') right)⟩,
      right.map fun c => ⟨c, fun c' => r.back (.node a left (some c'))⟩]

/-- `prelude.rs` 1300-1310: `nth(i)??`. -/
def atPathMut2 (current : Loan (BinTree V) W) : List Nat → Option (Loan (BinTree V) W)
  | [] => some current
  | i :: path =>
    match (slotsMut current)[i]? with
    | none => none
    | some none => none
    | some (some c) => atPathMut2 c path

/-- `prelude.rs` 4143-4147, on `&mut Vec<Tree<V>>`. -/
def atPathMutColl (ts : List (Tree V)) (path : List Nat) : Option (Loan (Tree V) (List (Tree V))) :=
  match path with
  | [] => none
  | i :: path =>
    match ts[i]? with
    | none => none
    | some t => atPathMut ⟨t, fun t' => ts.set i t'⟩ path

/-- `prelude.rs` 4411-4415, on `&mut Vec<BinaryTree<V>>`. -/
def atPathMutColl2 (ts : List (BinTree V)) (path : List Nat) : Option (Loan (BinTree V) (List (BinTree V))) :=
  match path with
  | [] => none
  | i :: path =>
    match ts[i]? with
    | none => none
    | some t => atPathMut2 ⟨t, fun t' => ts.set i t'⟩ path

/-- A client: `if let Some(node) = tree.at_path_mut(path) { … node.value = …; }`.  `f` sees the state of the client and
the value and says what to write. -/
def editAt {σ : Type w} (f : σ → V → σ × V) (t : Tree V) (s : σ) (path : List Nat) : Tree V × σ :=
  match atPathMut (lend t) path with
  | none => (t, s)
  | some r => (r.back (.node (f s r.now.value).2 r.now.children), (f s r.now.value).1)

/-- `node.value = x`. -/
def setValue2 (t : BinTree V) (x : V) : BinTree V :=
  match t with
  | .node _ left right => .node x left right

/-- The same for a binary tree. -/
def editAt2 {σ : Type w} (f : σ → V → σ × V) (t : BinTree V) (s : σ) (path : List Nat) : BinTree V × σ :=
  match atPathMut2 (lend t) path with
  | none => (t, s)
  | some r => (r.back (setValue2 r.now (f s r.now.value).2), (f s r.now.value).1)

/-- A client: `for path in paths { … }` with `editAt` as its body. -/
def editAll {σ : Type w} (f : σ → V → σ × V) (paths : List (List Nat)) (t : Tree V) (s : σ) : Tree V × σ :=
  paths.foldl (fun m path => editAt f m.1 m.2 path) (t, s)

/-- The same for a binary tree. -/
def editAll2 {σ : Type w} (f : σ → V → σ × V) (paths : List (List Nat)) (t : BinTree V) (s : σ) : BinTree V × σ :=
  paths.foldl (fun m path => editAt2 f m.1 m.2 path) (t, s)

end AtPath

end TreeIter
