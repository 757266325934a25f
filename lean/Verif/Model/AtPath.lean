import Verif.Node

/-!
# Model of `at_path`

Source: `/repo/tree_iterators_rs/src/prelude.rs` 192-202, 761-771 (owned), 1300-1310, 1868-1878 (mutably
borrowed), 2406-2416, 2971-2981 (borrowed), 3593-3597, 3858-3862, 4143-4147 (collections).
-/

universe u v w

namespace TreeIter

namespace AtPath

variable {N : Type u} {V : Type v}

/-- `prelude.rs` 761-771: the `for` loop; `nth(i)?` leaves the function with `None`. -/
def atPath [SplitNode N V] (current : N) : List Nat → Option N
  | [] => some current
  | i :: path =>
    match (kids current)[i]? with
    | none => none
    | some c => atPath c path

/-- `prelude.rs` 192-202: as `atPath`, on the array of two slots; `nth(i)??` leaves with `None` on an empty
slot too. -/
def atPath2 [SplitNode2 N V] (current : N) : List Nat → Option N
  | [] => some current
  | i :: path =>
    match (slots current)[i]? with
    | none => none
    | some none => none
    | some (some c) => atPath2 c path

/-- `prelude.rs` 3593-3597: the collection version. -/
def atPathColl [SplitNode N V] (ns : List N) (path : List Nat) : Option N :=
  match path with
  | [] => none
  | i :: path =>
    match ns[i]? with
    | none => none
    | some n => atPath n path

/-- `prelude.rs` 3858-3862: the collection version for binary nodes. -/
def atPathColl2 [SplitNode2 N V] (ns : List N) (path : List Nat) : Option N :=
  match path with
  | [] => none
  | i :: path =>
    match ns[i]? with
    | none => none
    | some n => atPath2 n path

end AtPath

end TreeIter
