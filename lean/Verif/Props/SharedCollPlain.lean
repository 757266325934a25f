import Verif.Props.SharedColl
import Verif.Props.SharedPlain
import Verif.Props.Collection
import Verif.Lemmas.SharedCollPlain

/-!
# C81: collections of trees that share no state

The loop over the collection is the loop over the answers of C25.
-/

universe u v w x

namespace TreeIter

open Shared

variable {W : Type x} {N : Type u} {V : Type v}

section General
variable [TreeNode N V]
attribute [local instance] plainNode

/-- C81, collections, preorder, nodes and source that share no state. -/
theorem C81_plain_collection_preorder (body : Body W V) (ns : List N) (w : W) (b : Bool) (w' : W) :
    ((∃ fuel k, forLoop (collNext askList Pre.new preNext fuel) body k ⟨ns, none⟩ w = some (b, w')) ↔
        forList body (ns.flatMap fun n => (treeOf n).preorder) w = (b, w')) ∧
      (VisitAll askList (fun n => Visit (.before fun v _ => body v) (.node [] n)) ns w b w' ↔
        forList body (ns.flatMap fun n => (treeOf n).preorder) w = (b, w')) := by
  have key := visitAll_plain body _ _ (fun (n : N) w b w' => (C81_plain_preorder body n w b w').2) ns w b w'
  exact ⟨(C81_collection_preorder askList body ns w b w').trans key, key⟩

/-- C81, collections, postorder. -/
theorem C81_plain_collection_postorder (body : Body W V) (ns : List N) (w : W) (b : Bool) (w' : W) :
    ((∃ fuel k, forLoop (collNext askList Post.new (postNext fuel) fuel) body k ⟨ns, none⟩ w = some (b, w')) ↔
        forList body (ns.flatMap fun n => (treeOf n).postorder) w = (b, w')) ∧
      (VisitAll askList (fun n => Visit (.after fun v _ => body v) (.node [] n)) ns w b w' ↔
        forList body (ns.flatMap fun n => (treeOf n).postorder) w = (b, w')) := by
  have key := visitAll_plain body _ _ (fun (n : N) w b w' => (C81_plain_postorder body n w b w').2) ns w b w'
  exact ⟨(C81_collection_postorder askList body ns w b w').trans key, key⟩

/-- C81, collections, breadth first. -/
theorem C81_plain_collection_bfs (body : Body W V) (ns : List N) (w : W) (b : Bool) (w' : W) :
    ((∃ fuel k, forLoop (collNext askList Wide.new bfsNext fuel) body k ⟨ns, none⟩ w = some (b, w')) ↔
        forList body (ns.flatMap fun n => (treeOf n).levelOrder) w = (b, w')) ∧
      (VisitAll askList (VisitWide body) ns w b w' ↔
        forList body (ns.flatMap fun n => (treeOf n).levelOrder) w = (b, w')) := by
  have key := visitAll_plain body _ _ (fun (n : N) w b w' => (C81_plain_bfs body n w b w').2) ns w b w'
  exact ⟨(C81_collection_bfs askList body ns w b w').trans key, key⟩

end General

section Binary
variable [BinNode N V]
attribute [local instance] plainBin

/-- C81, collections, in order. -/
theorem C81_plain_collection_inorder (body : Body W V) (ns : List N) (w : W) (b : Bool) (w' : W) :
    ((∃ fuel k, forLoop (collNext askList Inorder.new (inNext fuel) fuel) body k ⟨ns, none⟩ w = some (b, w')) ↔
        forList body (ns.flatMap fun n => (binTreeOf n).inorder) w = (b, w')) ∧
      (VisitAll askList (fun n => VisitIn body (some n)) ns w b w' ↔
        forList body (ns.flatMap fun n => (binTreeOf n).inorder) w = (b, w')) := by
  have key := visitAll_plain body _ _ (fun (n : N) w b w' => (C81_plain_inorder body n w b w').2) ns w b w'
  exact ⟨(C81_collection_inorder askList body ns w b w').trans key, key⟩

end Binary

/-- A body that notes the values and stops at 21. -/
def noteValue : Body (List Nat) Nat := fun v w => (v != 21, v :: w)

/-- It stops within the third tree. -/
example : forList noteValue (sampleTrees.flatMap fun n => (treeOf n).levelOrder) [] = (false, [21, 20, 10, 5, 4, 3, 2, 1, 0]) := by
  decide +kernel

end TreeIter
