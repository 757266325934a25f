import Verif.Model.Handles
import Verif.Node

/-!
# The order in which nodes are asked and their children dropped
-/

universe u v

namespace TreeIter

variable {α : Type u}

mutual
/-- The node is asked, then come its children one after the other, then its collection of children is dropped. -/
def Tree.brackets : Tree α → List (Handles.Event α)
  | .node a cs => .opened a :: (Tree.bracketsL cs ++ [.dropped a])
/-- The same for a forest, from left to right. -/
def Tree.bracketsL : List (Tree α) → List (Handles.Event α)
  | [] => []
  | t :: ts => t.brackets ++ Tree.bracketsL ts
end

/-- Breadth first: the root is asked; then, for each node in level order, its children are asked and its collection of them is
dropped. -/
def wideBrackets {N : Type u} {V : Type v} [TreeNode N V] (n : N) : List (Handles.Event N) :=
  .opened n :: (unfold n).levelOrder.flatMap fun m => (kids m).map .opened ++ [.dropped m]

end TreeIter
