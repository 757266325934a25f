import Verif.Lemmas.SharedPlain
import Verif.Props.SharedColl
import Verif.Props.DepthFirst
import Verif.Props.Leaves
import Verif.Props.BreadthFirst

/-!
# C81: on nodes that share no state

When the nodes leave the shared state alone, a `for` loop with any body does what the body does when it is called for the values
of the tree one after the other, until it breaks; and so does the recursive visitor.  This ties the visitors of C81 to the
orders of C01-C09, and the model with shared state to the models the other properties are about.
-/

universe u v w x

namespace TreeIter

open Shared

variable {W : Type x} {N : Type u} {V : Type v}

section General
variable [TreeNode N V]
attribute [local instance] plainNode

/-- C81, preorder, nodes that share no state. -/
theorem C81_plain_preorder (body : Body W V) (n : N) (w : W) (b : Bool) (w' : W) :
    ((∃ k, forLoop preNext body k (Pre.new n) w = some (b, w')) ↔ forList body (treeOf n).preorder w = (b, w')) ∧
      (Visit (.before fun v _ => body v) (.node [] n) w b w' ↔ forList body (treeOf n).preorder w = (b, w')) := by
  have key : (∃ _ : Nat, ∃ k, forLoop preNext body k (Pre.new n) w = some (b, w')) ↔
      forList body (treeOf n).preorder w = (b, w') :=
    forLoop_plain_iff (next := fun _ => preNext) (fun (t : Preorder.State N) s => s = ⟨t.root, t.stack⟩)
      (fun _ _ _ _ h => h) (fun t s w h => ⟨0, _, h ▸ preNext_plain t w, rfl⟩) body (t := Preorder.new n) rfl
      (C01_preorder n)
  rw [exists_const] at key
  exact ⟨key, (C81_preorder body n w b w').symm.trans key⟩

/-- C81, preorder with ancestors. -/
theorem C81_plain_preorder_ancestors (body : Body W (List V)) (n : N) (w : W) (b : Bool) (w' : W) :
    ((∃ k, forLoop preAncNext body k (PreAnc.new n) w = some (b, w')) ↔
        forList body ((treeOf n).located.preorder.map Pos.ancestors) w = (b, w')) ∧
      (Visit (.before fun v as => body (v :: as).reverse) (.node [] n) w b w' ↔
        forList body ((treeOf n).located.preorder.map Pos.ancestors) w = (b, w')) := by
  obtain ⟨s, h1, h2⟩ := C06_preorder_ancestors n
  cases h1
  have key : (∃ _ : Nat, ∃ k, forLoop preAncNext body k (PreAnc.new n) w = some (b, w')) ↔
      forList body ((treeOf n).located.preorder.map Pos.ancestors) w = (b, w') :=
    forLoop_plain_iff (next := fun _ => preAncNext)
      (fun (t : Preorder.AncState N V) s => s = ⟨t.root, t.stack, t.items⟩)
      (fun _ _ _ _ h => h) (fun t s w h => ⟨0, _, h ▸ preAncNext_plain t w, rfl⟩) body rfl h2
  rw [exists_const] at key
  exact ⟨key, (C81_preorder_ancestors body n w b w').symm.trans key⟩

/-- C81, postorder. -/
theorem C81_plain_postorder (body : Body W V) (n : N) (w : W) (b : Bool) (w' : W) :
    ((∃ fuel k, forLoop (postNext fuel) body k (Post.new n) w = some (b, w')) ↔
        forList body (treeOf n).postorder w = (b, w')) ∧
      (Visit (.after fun v _ => body v) (.node [] n) w b w' ↔ forList body (treeOf n).postorder w = (b, w')) := by
  have key : (∃ fuel k, forLoop (postNext fuel) body k (Post.new n) w = some (b, w')) ↔
      forList body (treeOf n).postorder w = (b, w') :=
    forLoop_plain_iff (fun (t : Postorder.State N V) s => s = ⟨t.root, t.items, t.stack⟩)
      (fun _ _ _ _ h => postNext_mono h)
      (fun t s w h => by
        obtain ⟨fuel, hf⟩ := postNext_plain t w
        exact ⟨fuel, _, h ▸ hf, rfl⟩) body (t := Postorder.new n) rfl (C02_postorder n)
  exact ⟨key, (C81_postorder body n w b w').symm.trans key⟩

/-- C81, postorder with ancestors. -/
theorem C81_plain_postorder_ancestors (body : Body W (List V)) (n : N) (w : W) (b : Bool) (w' : W) :
    ((∃ fuel k, forLoop (postAncNext fuel) body k (Post.new n) w = some (b, w')) ↔
        forList body ((treeOf n).located.postorder.map Pos.ancestors) w = (b, w')) ∧
      (Visit (.after fun v as => body (v :: as).reverse) (.node [] n) w b w' ↔
        forList body ((treeOf n).located.postorder.map Pos.ancestors) w = (b, w')) := by
  obtain ⟨s, h1, h2⟩ := C07_postorder_ancestors n
  cases h1
  have key : (∃ fuel k, forLoop (postAncNext fuel) body k (Post.new n) w = some (b, w')) ↔
      forList body ((treeOf n).located.postorder.map Pos.ancestors) w = (b, w') :=
    forLoop_plain_iff (fun (t : Postorder.AncState N V) s => s = ⟨t.root, t.items, t.stack⟩)
      (fun _ _ _ _ h => postAncNext_mono h)
      (fun t s w h => by
        obtain ⟨fuel, hf⟩ := postAncNext_plain t w
        exact ⟨fuel, _, h ▸ hf, rfl⟩) body rfl h2
  exact ⟨key, (C81_postorder_ancestors body n w b w').symm.trans key⟩

/-- C81, depth-first leaves. -/
theorem C81_plain_leaves (body : Body W V) (n : N) (w : W) (b : Bool) (w' : W) :
    ((∃ fuel k, forLoop (leavesNext fuel) body k (Pre.new n).leaves w = some (b, w')) ↔
        forList body (treeOf n).leaves w = (b, w')) ∧
      (Visit (.childless fun v _ => body v) (.node [] n) w b w' ↔ forList body (treeOf n).leaves w = (b, w')) := by
  have key : (∃ fuel k, forLoop (leavesNext fuel) body k (Pre.new n).leaves w = some (b, w')) ↔
      forList body (treeOf n).leaves w = (b, w') :=
    forLoop_plain_iff (fun (t : Leaves.State N V) s => s = ⟨t.root, t.bottom, t.top, t.items⟩)
      (fun _ _ _ _ h => leavesNext_mono h)
      (fun t s w h => by
        obtain ⟨fuel, hf⟩ := leavesNext_plain t w
        exact ⟨fuel, _, h ▸ hf, rfl⟩) body (t := Leaves.ofPreorder (Preorder.new n)) rfl (C17_preorder_leaves n)
  exact ⟨key, (C81_leaves body n w b w').symm.trans key⟩

/-- C81, breadth first. -/
theorem C81_plain_bfs (body : Body W V) (n : N) (w : W) (b : Bool) (w' : W) :
    ((∃ k, forLoop bfsNext body k (Wide.new n) w = some (b, w')) ↔ forList body (treeOf n).levelOrder w = (b, w')) ∧
      (VisitWide body n w b w' ↔ forList body (treeOf n).levelOrder w = (b, w')) := by
  have key : (∃ _ : Nat, ∃ k, forLoop bfsNext body k (Wide.new n) w = some (b, w')) ↔
      forList body (treeOf n).levelOrder w = (b, w') :=
    forLoop_plain_iff (next := fun _ => bfsNext) (fun (t : Bfs.State N) s => s = ⟨t.root, t.queue⟩)
      (fun _ _ _ _ h => h) (fun t s w h => ⟨0, _, h ▸ bfsNext_plain t w, rfl⟩) body (t := Bfs.new n) rfl (C04_bfs n)
  rw [exists_const] at key
  exact ⟨key, (C81_bfs body n w b w').symm.trans key⟩

/-- C81, breadth-first leaves. -/
theorem C81_plain_bfs_leaves (body : Body W V) (n : N) (w : W) (b : Bool) (w' : W) :
    ((∃ fuel k, forLoop (wideLvNext fuel) body k (Wide.new n).leaves w = some (b, w')) ↔
        forList body (Tree.onlyLeaves (treeOf n).markLeaves.levelOrder) w = (b, w')) ∧
      (VisitWideLeaves body n w b w' ↔ forList body (Tree.onlyLeaves (treeOf n).markLeaves.levelOrder) w = (b, w')) := by
  have key : (∃ fuel k, forLoop (wideLvNext fuel) body k (Wide.new n).leaves w = some (b, w')) ↔
      forList body (Tree.onlyLeaves (treeOf n).markLeaves.levelOrder) w = (b, w') :=
    forLoop_plain_iff SameLv (fun f s w r h => wideLvNext_mono f s w r h) (fun t s w h => wideLvNext_plain t s w h) body
      (t := Bfs.leaves (Bfs.new n)) ⟨rfl, rfl, rfl⟩ fun k => by
        simpa [stateAfter] using C19_bfs_leaves n 0 k
  exact ⟨key, (C81_bfs_leaves body n w b w').symm.trans key⟩

end General

section Binary
variable [BinNode N V]
attribute [local instance] plainBin

/-- C81, in order. -/
theorem C81_plain_inorder (body : Body W V) (n : N) (w : W) (b : Bool) (w' : W) :
    ((∃ fuel k, forLoop (inNext fuel) body k (Inorder.new n) w = some (b, w')) ↔
        forList body (binTreeOf n).inorder w = (b, w')) ∧
      (VisitIn body (some n) w b w' ↔ forList body (binTreeOf n).inorder w = (b, w')) := by
  have key : (∃ fuel k, forLoop (inNext fuel) body k (Inorder.new n) w = some (b, w')) ↔
      forList body (binTreeOf n).inorder w = (b, w') :=
    forLoop_plain_iff (fun (t : Inorder.State N V) s => s = t) (fun _ _ _ _ h => inNext_mono h)
      (fun t s w h => by
        obtain ⟨fuel, hf⟩ := inNext_plain t w
        exact ⟨fuel, _, h ▸ hf, rfl⟩) body (t := Inorder.new n) rfl (C03_inorder n)
  exact ⟨key, (C81_inorder body n w b w').symm.trans key⟩

end Binary

/-- A body that notes the values and stops at 3. -/
def noteBody : Body (List Nat) Nat := fun v w => (v != 3, v :: w)

/-- What the body has noted, latest first, when it stops. -/
example : forList noteBody sampleTree.preorder [] = (false, [3, 1, 0]) ∧
    forList noteBody sampleTree.postorder [] = (false, [3]) ∧
    forList noteBody sampleTree.levelOrder [] = (false, [3, 2, 1, 0]) ∧
    forList noteBody sampleTree.leaves [7] = (false, [3, 7]) ∧
    forList noteBody sampleBin.inorder [] = (false, [3, 1]) ∧
    forList noteBody [0, 1, 2] [] = (true, [2, 1, 0]) := by decide +kernel

end TreeIter
