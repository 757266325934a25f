import Verif.Model.Handles

/-!
# When the children of the nodes are asked for and released

A node is opened when it is asked for its children and released when the collection it returned is dropped.
-/

universe u

namespace TreeIter

namespace Handles

variable {α : Type u}

mutual
/-- Walk around a tree: open the node, walk around its children from left to right, release the node. -/
def tour : Tree α → List (Event α)
  | .node a cs => .opened a :: (tourL cs ++ [.dropped a])
/-- Walk around the trees of a forest. -/
def tourL : List (Tree α) → List (Event α)
  | [] => []
  | t :: ts => tour t ++ tourL ts
end

/-- Open the root; then, for the nodes in level order, open the children of the node and release it. -/
def levelTour (below : α → List α) (t : Tree α) : List (Event α) :=
  .opened t.value :: t.levelOrder.flatMap fun m => (below m).map .opened ++ [.dropped m]

/-- The events up to the `k`-th opening, or all if there are fewer. -/
def untilOpened : Nat → List (Event α) → List (Event α)
  | 0, _ => []
  | _ + 1, [] => []
  | k + 1, .opened n :: es => .opened n :: untilOpened k es
  | k + 1, .dropped n :: es => .dropped n :: untilOpened (k + 1) es

/-- The events up to the `k`-th release, or all if there are fewer. -/
def untilDropped : Nat → List (Event α) → List (Event α)
  | 0, _ => []
  | _ + 1, [] => []
  | k + 1, .dropped n :: es => .dropped n :: untilDropped k es
  | k + 1, .opened n :: es => .opened n :: untilDropped (k + 1) es

/-- The events up to the release of the `k`-th node that is released right after its opening, or all if there are fewer.
On a walk around a tree these are the childless nodes. -/
def untilLeaf : Nat → List (Event α) → List (Event α)
  | 0, _ => []
  | _ + 1, [] => []
  | k + 1, .opened n :: .dropped m :: es => .opened n :: .dropped m :: untilLeaf k es
  | k + 1, e :: es => e :: untilLeaf (k + 1) es

/-- The events up to the `k`-th opening of a childless node, or all if there are fewer. -/
def untilLeafOpened (childless : α → Bool) : Nat → List (Event α) → List (Event α)
  | 0, _ => []
  | _ + 1, [] => []
  | k + 1, .opened n :: es =>
    .opened n :: (if childless n then untilLeafOpened childless k es else untilLeafOpened childless (k + 1) es)
  | k + 1, .dropped n :: es => .dropped n :: untilLeafOpened childless (k + 1) es

end Handles

end TreeIter
