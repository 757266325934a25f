import Verif.Spec.Fail
import Verif.Model.Fail
import Verif.Lemmas.BfsAnc
import Verif.Lemmas.Bfs
import Verif.Lemmas.Leaves
import Verif.Lemmas.Inorder

/-! # Lemmas about traversals in which the user's code panics -/

universe u v w

namespace TreeIter

theorem Tree.cropL_eq {α : Type u} (bad : α → Bool) (ts : List (Tree α)) :
    Tree.cropL bad ts = ts.map (Tree.crop bad) := by
  induction ts with
  | nil => rfl
  | cons t ts ih => rw [Tree.cropL, ih, List.map_cons]

namespace Fail

variable {N : Type u} {V : Type v} {O : Type w}

/-! ## The replies as trees -/

/-- The replies at the nodes of the tree of a node. -/
def repT [TreeNode N V] (bad : N → Bool) (n : N) : Tree (Option V) :=
  ((unfold n).crop bad).map (replyAt bad val)

theorem repT_eq [TreeNode N V] (bad : N → Bool) (n : N) :
    repT bad n = if bad n then .node none [] else .node (some (val n)) ((kids n).map (repT bad)) := by
  rw [repT, unfold_eq, Tree.crop, Tree.cropL_eq, Tree.map_node, replyAt]
  split
  · rfl
  · rw [List.map_map, List.map_map]
    rfl

mutual
/-- The replies of the ancestor iterators below `anc`. -/
def failA [TreeNode N V] (bad : N → Bool) (anc : List V) : Tree N → Tree (Option (List V))
  | .node n cs => if bad n then .node none [] else .node (some (anc ++ [val n])) (failAL bad (anc ++ [val n]) cs)
/-- Forest version. -/
def failAL [TreeNode N V] (bad : N → Bool) (anc : List V) : List (Tree N) → List (Tree (Option (List V)))
  | [] => []
  | t :: ts => failA bad anc t :: failAL bad anc ts
end

theorem failAL_eq [TreeNode N V] (bad : N → Bool) (anc : List V) (ts : List (Tree N)) :
    failAL bad anc ts = ts.map (failA bad anc) := by
  induction ts with
  | nil => rfl
  | cons t ts ih => rw [failAL, ih, List.map_cons]

/-- The replies of the ancestor iterators at the subtree of a node below `anc`. -/
def repA [TreeNode N V] (bad : N → Bool) (anc : List V) (n : N) : Tree (Option (List V)) :=
  failA bad anc (unfold n)

theorem repA_eq [TreeNode N V] (bad : N → Bool) (anc : List V) (n : N) :
    repA bad anc n =
      if bad n then .node none [] else .node (some (anc ++ [val n])) ((kids n).map (repA bad (anc ++ [val n]))) := by
  rw [repA, unfold_eq, failA, failAL_eq, List.map_map]
  rfl

theorem replyPos_withPos [TreeNode N V] (bad : N → Bool) (t : Tree N) (path : List Nat) (anc : List N) :
    ((t.crop bad).withPos path anc).map (replyPos bad fun p => p.ancestors.map val) = failA bad (anc.map val) t := by
  induction t using Tree.ind generalizing path anc with
  | h n cs ih =>
    rw [Tree.crop, Tree.withPos, failA, Tree.map_node, replyPos]
    by_cases hb : bad n
    · simp [hb, Tree.withPosL]
    · simp only [hb, Bool.false_eq_true, if_false, Tree.cropL_eq, failAL_eq]
      congr 1
      · simp
      · suffices h : ∀ (i : Nat) (anc : List N), (Tree.withPosL path anc i (cs.map (Tree.crop bad))).map
            (Tree.map (replyPos bad fun p => p.ancestors.map val)) = cs.map (failA bad (anc.map val)) by
          rw [h 0 (anc ++ [n])]
          simp
        intro i anc
        induction cs generalizing i with
        | nil => rfl
        | cons c cs ih' =>
          rw [List.map_cons, Tree.withPosL, List.map_cons, List.map_cons, ih c (by simp),
            ih' fun c hc => ih c (by simp [hc])]

theorem located_repA [TreeNode N V] (bad : N → Bool) (n : N) :
    (((unfold n).crop bad).located).map (replyPos bad fun p => p.ancestors.map val) = repA bad [] n := by
  rw [Tree.located, replyPos_withPos]
  rfl

/-! ## Preorder -/

/-- Replies still to come. -/
def preRem [TreeNode N V] (bad : N → Bool) (s : Preorder.State N) : List (Option V) :=
  (match s.root with | some r => (repT bad r).preorder | none => []) ++
    s.stack.flatMap fun ns => ns.flatMap fun n => (repT bad n).preorder

theorem preorder_repT [TreeNode N V] (bad : N → Bool) (n : N) :
    (repT bad n).preorder =
      if bad n then [none] else some (val n) :: (kids n).flatMap fun c => (repT bad c).preorder := by
  rw [repT_eq]
  split
  · simp [Tree.preorder_node]
  · rw [Tree.preorder_node, List.flatMap_map]

theorem preNext_spec [TreeNode N V] (bad : N → Bool) (s : Preorder.State N) :
    (preNext bad s).1 = (preRem bad s).head? ∧ preRem bad (preNext bad s).2 = (preRem bad s).tail := by
  obtain ⟨root, stack⟩ := s
  cases root with
  | some r => by_cases h : bad r <;> simp [preNext, preRem, preorder_repT bad r, h]
  | none =>
    induction stack with
    | nil => simp [preNext, preRem, Preorder.loop]
    | cons ns rest ih =>
      cases ns with
      | nil => simpa [preNext, preRem, Preorder.loop] using ih
      | cons n ns => by_cases h : bad n <;> simp [preNext, preRem, Preorder.loop, preorder_repT bad n, h]

/-- Replies still to come from the stack. -/
def preAncRemS [TreeNode N V] (bad : N → Bool) : List (List N) → List V → List (Option (List V))
  | [], _ => []
  | ns :: rest, it => (ns.flatMap fun n => (repA bad it.reverse n).preorder) ++ preAncRemS bad rest it.tail

/-- Replies still to come. -/
def preAncRem [TreeNode N V] (bad : N → Bool) (s : Preorder.AncState N V) : List (Option (List V)) :=
  (match s.root with | some r => (repA bad s.items.reverse r).preorder | none => []) ++
    preAncRemS bad s.stack s.items

theorem preorder_repA [TreeNode N V] (bad : N → Bool) (anc : List V) (n : N) :
    (repA bad anc n).preorder =
      if bad n then [none]
      else some (anc ++ [val n]) :: (kids n).flatMap fun c => (repA bad (anc ++ [val n]) c).preorder := by
  rw [repA_eq]
  split
  · simp [Tree.preorder_node]
  · rw [Tree.preorder_node, List.flatMap_map]

theorem preAncNext_spec [TreeNode N V] (bad : N → Bool) (s : Preorder.AncState N V) (h : Preorder.AncInv s) :
    (preAncNext bad s).1 = (preAncRem bad s).head? ∧
      preAncRem bad (preAncNext bad s).2 = (preAncRem bad s).tail ∧ Preorder.AncInv (preAncNext bad s).2 := by
  obtain ⟨root, stack, items⟩ := s
  obtain ⟨h1, h2⟩ := h
  simp only at h1 h2
  cases root with
  | some r =>
    obtain rfl := h2 (by simp)
    obtain rfl : items = [] := by simpa using h1
    by_cases hb : bad r <;> simp [preAncNext, streamNext, preAncAdvance, Preorder.ancGet, preAncRem, preAncRemS,
      preorder_repA bad [] r, Preorder.AncInv, hb]
  | none =>
    induction stack generalizing items with
    | nil =>
      obtain rfl : items = [] := by simpa using h1
      simp [preAncNext, streamNext, preAncAdvance, Preorder.ancGet, preAncRem, preAncRemS, Preorder.ancLoop,
        Preorder.AncInv]
    | cons ns rest ih =>
      cases items with
      | nil => simp at h1
      | cons a items =>
      cases ns with
      | nil =>
        have := ih items (by simpa using h1) (by simp)
        simpa [preAncNext, streamNext, preAncAdvance, Preorder.ancGet, preAncRem, preAncRemS, Preorder.ancLoop]
          using this
      | cons n ns =>
        have h1' : items.length = rest.length := by simpa using h1
        by_cases hb : bad n <;> simp [preAncNext, streamNext, preAncAdvance, Preorder.ancGet, preAncRem, preAncRemS,
          Preorder.ancLoop, preorder_repA bad _ n, Preorder.AncInv, hb, h1']

/-! ## Postorder -/

theorem postorder_repT [TreeNode N V] (bad : N → Bool) (n : N) :
    (repT bad n).postorder =
      if bad n then [none] else ((kids n).flatMap fun c => (repT bad c).postorder) ++ [some (val n)] := by
  rw [repT_eq]
  split
  · simp [Tree.postorder_node]
  · rw [Tree.postorder_node, List.flatMap_map]

/-- Replies still to come from the stacks. -/
def postRemS [TreeNode N V] (bad : N → Bool) : List (List N) → List V → List (Option V)
  | [], _ => []
  | ns :: rest, items =>
    (ns.flatMap fun n => (repT bad n).postorder) ++ (items.head?.map some).toList ++ postRemS bad rest items.tail

/-- Replies still to come. -/
def postRem [TreeNode N V] (bad : N → Bool) (s : Postorder.State N V) : List (Option V) :=
  match s.root with
  | some r => (repT bad r).postorder
  | none => postRemS bad s.stack s.items

theorem postLoop_spec [TreeNode N V] (bad : N → Bool) (stack : List (List N)) (items : List V)
    (h : items.length = stack.length) :
    (postLoop bad stack items).1 = (postRemS bad stack items).head? ∧
      postRemS bad (postLoop bad stack items).2.2 (postLoop bad stack items).2.1 = (postRemS bad stack items).tail ∧
      (postLoop bad stack items).2.1.length = (postLoop bad stack items).2.2.length := by
  fun_induction postLoop bad stack items with
  | case1 items =>
    obtain rfl : items = [] := by simpa using h
    simp [postRemS]
  | case2 rest items =>
    cases items with
    | nil => simp at h
    | cons a items => simpa [postRemS] using h
  | case3 n ns rest items hb =>
    simp only [postRemS, List.flatMap_cons, postorder_repT bad n, hb, if_true]
    simpa using h
  | case4 n ns rest items hb ih =>
    have := ih (by simpa using h)
    simpa [postRemS, postorder_repT bad n, hb] using this

theorem postNext_spec [TreeNode N V] (bad : N → Bool) (s : Postorder.State N V) (h : Postorder.Inv s) :
    (postNext bad s).1 = (postRem bad s).head? ∧ postRem bad (postNext bad s).2 = (postRem bad s).tail ∧
      Postorder.Inv (postNext bad s).2 := by
  obtain ⟨root, items, stack⟩ := s
  obtain ⟨h1, h2⟩ := h
  simp only at h1 h2
  cases root with
  | some r =>
    obtain rfl := h2 (by simp)
    obtain rfl : items = [] := by simpa using h1
    by_cases hb : bad r
    · simp [postNext, postRem, postRemS, postorder_repT bad r, hb, Postorder.Inv]
    · have := postLoop_spec bad [kids r] [val r] rfl
      simpa [postNext, postRem, Postorder.Inv, postRemS, postorder_repT bad r, hb] using this
  | none =>
    have := postLoop_spec bad stack items h1
    simpa [postNext, postRem, Postorder.Inv] using this

/-! ## Breadth-first -/

/-- Replies still to come. -/
def bfsRem [TreeNode N V] (bad : N → Bool) (s : Bfs.State N) : List (Option V) :=
  bfsF ((s.root.toList ++ s.queue.flatten).map (repT bad))

theorem bfsF_repT [TreeNode N V] (bad : N → Bool) (n : N) (ns : List N) :
    bfsF ((n :: ns).map (repT bad)) =
      if bad n then none :: bfsF (ns.map (repT bad))
      else some (val n) :: bfsF ((ns ++ kids n).map (repT bad)) := by
  rw [List.map_cons, repT_eq]
  split
  · simp [bfsF_cons]
  · rw [bfsF_cons, List.map_append]

theorem bfsNext_spec [TreeNode N V] (bad : N → Bool) (s : Bfs.State N) :
    (bfsNext bad s).1 = (bfsRem bad s).head? ∧ bfsRem bad (bfsNext bad s).2 = (bfsRem bad s).tail := by
  obtain ⟨root, queue⟩ := s
  cases root with
  | some r => by_cases hb : bad r <;> simp [bfsNext, bfsRem, -List.map_cons, bfsF_repT, hb]
  | none =>
    simp only [bfsNext]
    induction queue with
    | nil => simp [bfsLoop, bfsRem]
    | cons ns rest ih =>
      cases ns with
      | nil => simpa [bfsLoop, bfsRem] using ih
      | cons n ns => by_cases hb : bad n <;> simp [bfsLoop, bfsRem, -List.map_cons, bfsF_repT, hb]

end Fail

end TreeIter
