import Verif.Lemmas.SharedWidePlain
import Verif.Props.SharedWideLeaf
import Verif.Props.BreadthFirstAnc

/-!
# C81: breadth-first ancestors, also of the leaves, on nodes that share no state
-/

universe u v w x

namespace TreeIter

open Shared

variable {W : Type x} {N : Type u} {V : Type v}

section General
variable [TreeNode N V]
attribute [local instance] plainNode

/-- C81, breadth-first ancestors, nodes that share no state: loop and visitor go through the slices of C09, without a panic. -/
theorem C81_plain_bfs_ancestors (body : Body W (List V)) (n : N) (w : W) (r : Ending W) :
    ((∃ k, wideAncWhile N body k (WideAnc.new n w).1 (WideAnc.new n w).2 = some r) ↔
        r = endingOf (forList body ((treeOf n).located.levelOrder.map Pos.ancestors) w)) ∧
      (VisitWideAnc body n w r ↔ r = endingOf (forList body ((treeOf n).located.levelOrder.map Pos.ancestors) w)) := by
  obtain ⟨s, h1, h2⟩ := C09_bfs_ancestors n
  cases h1
  have hlen : ((treeOf n).located.levelOrder.map Pos.ancestors).length = (treeOf n).size := C09_length _
  have hn : WideAnc.new n w = (⟨true, ⟨[val n], [], .mk none []⟩, [kids n]⟩, w) := rfl
  obtain ⟨k, hk⟩ : ∃ k, wideAncWhile N body k (WideAnc.new n w).1 (WideAnc.new n w).2 =
      some (endingOf (forList body ((treeOf n).located.levelOrder.map Pos.ancestors) w)) := by
    refine while_plain (fun (t : Bfs.AncState N V) s => s = ⟨t.isRoot, t.cs, t.queue⟩)
      (fun s w e => ∃ k, wideAncWhile N body k s w = some e) Bfs.ancNext body ?_ ?_ ?_ _ (Bfs.AncState.new n) _ w rfl
      (by rw [hlen]; exact h2)
    · rintro t t' s w rfl h
      refine ⟨1, ?_⟩
      rw [wideAncWhile, wideAncAdvance_plain]
      cases ha : Bfs.ancAdvance t with
      | error e => simp [Bfs.ancNext, streamNextE, ha] at h
      | ok t1 =>
        simp only [Bfs.ancNext, streamNextE, ha, Except.ok.injEq, Prod.mk.injEq] at h
        obtain ⟨h, rfl⟩ := h
        by_cases hz : t1.cs.items.length = 0
        · simp [Except.map, wideAncConclude, hz]
        · simp [Bfs.ancGet, hz] at h
    · rintro t t' s w o w1 rfl h hb
      refine ⟨1, ?_⟩
      rw [wideAncWhile, wideAncAdvance_plain]
      cases ha : Bfs.ancAdvance t with
      | error e => simp [Bfs.ancNext, streamNextE, ha] at h
      | ok t1 =>
        simp only [Bfs.ancNext, streamNextE, ha, Except.ok.injEq, Prod.mk.injEq] at h
        obtain ⟨h, rfl⟩ := h
        by_cases hz : t1.cs.items.length = 0
        · simp [Bfs.ancGet, hz] at h
        · obtain rfl : t1.cs.items.reverse = o := by
            rw [Bfs.ancGet, if_neg hz] at h
            exact Option.some.inj h
          simp only [Except.map, wideAncConclude, hz, if_false, hb]
    · rintro t t' s w o w1 e rfl h hb hgo
      obtain ⟨k, hk⟩ := hgo _ rfl
      refine ⟨k + 1, ?_⟩
      rw [wideAncWhile, wideAncAdvance_plain]
      cases ha : Bfs.ancAdvance t with
      | error e => simp [Bfs.ancNext, streamNextE, ha] at h
      | ok t1 =>
        simp only [Bfs.ancNext, streamNextE, ha, Except.ok.injEq, Prod.mk.injEq] at h
        obtain ⟨h, rfl⟩ := h
        by_cases hz : t1.cs.items.length = 0
        · simp [Bfs.ancGet, hz] at h
        · obtain rfl : t1.cs.items.reverse = o := by
            rw [Bfs.ancGet, if_neg hz] at h
            exact Option.some.inj h
          simp only [Except.map, wideAncConclude, hz, if_false, hb]
          exact hk
  have key : (∃ k, wideAncWhile N body k (WideAnc.new n w).1 (WideAnc.new n w).2 = some r) ↔
      r = endingOf (forList body ((treeOf n).located.levelOrder.map Pos.ancestors) w) :=
    ⟨fun ⟨_, h⟩ => wideAncWhile_unique h hk, fun h => ⟨k, h ▸ hk⟩⟩
  exact ⟨key, (C81_bfs_ancestors body n w r).symm.trans key⟩

/-- C81, breadth-first leaves with ancestors, nodes that share no state: loop and visitor go through the slices of C22. -/
theorem C81_plain_bfs_leaves_ancestors (body : Body W (List V)) (n : N) (w : W) (r : Ending W) :
    ((∃ fuel k, wlAncWhile (N := N) fuel body k (WideAnc.new n w).1.leaves (WideAnc.new n w).2 = some r) ↔
        r = endingOf (forList body ((Tree.onlyLeaves (treeOf n).located.markLeaves.levelOrder).map Pos.ancestors) w)) ∧
      (VisitWideLeavesAnc body n w r ↔
        r = endingOf (forList body ((Tree.onlyLeaves (treeOf n).located.markLeaves.levelOrder).map Pos.ancestors) w)) := by
  obtain ⟨s, h1, h2⟩ := C22_bfs_ancestors_leaves n
  cases h1
  obtain ⟨s', h3, h4⟩ := h2 0 (Nat.zero_le _)
  obtain rfl : Bfs.AncState.new n = s' := Except.ok.inj h3
  rw [List.drop_zero] at h4
  obtain ⟨fuel, k, hk⟩ : ∃ fuel k, wlAncWhile (N := N) fuel body k (WideAnc.new n w).1.leaves (WideAnc.new n w).2 =
      some (endingOf (forList body ((Tree.onlyLeaves (treeOf n).located.markLeaves.levelOrder).map Pos.ancestors) w)) := by
    refine while_plain WlRel (fun s w e => ∃ fuel k, wlAncWhile fuel body k s w = some e) Bfs.lvNext body ?_ ?_ ?_ _
      (Bfs.AncState.new n) _ w ⟨rfl, rfl, .cons (.inl rfl) .nil⟩ (fun k _ => h4 k)
    · rintro t t' ⟨b, cs, pq⟩ w ⟨e1, e2, e3⟩ h
      cases ha : Bfs.lvAdvance t with
      | error e => simp [Bfs.lvNext, streamNextE, ha] at h
      | ok t1 =>
        obtain ⟨fuel, s1, hf, hr1, hr2, hr3⟩ := wlAncLoop_plain t.isRoot t.queue t.cs pq t1 w e3 ha
        simp only [Bfs.lvNext, streamNextE, ha, Except.ok.injEq, Prod.mk.injEq] at h
        obtain ⟨h, rfl⟩ := h
        refine ⟨fuel, 1, ?_⟩
        cases e1
        cases e2
        rw [wlAncWhile, hf]
        by_cases hz : t1.cs.items.length = 0
        · simp [wlAncConclude, hr2, List.length_eq_zero_iff.1 hz]
        · simp [Bfs.ancGet, hz] at h
    · rintro t t' ⟨b, cs, pq⟩ w o w1 ⟨e1, e2, e3⟩ h hb
      cases ha : Bfs.lvAdvance t with
      | error e => simp [Bfs.lvNext, streamNextE, ha] at h
      | ok t1 =>
        obtain ⟨fuel, s1, hf, hr1, hr2, hr3⟩ := wlAncLoop_plain t.isRoot t.queue t.cs pq t1 w e3 ha
        simp only [Bfs.lvNext, streamNextE, ha, Except.ok.injEq, Prod.mk.injEq] at h
        obtain ⟨h, rfl⟩ := h
        refine ⟨fuel, 1, ?_⟩
        cases e1
        cases e2
        rw [wlAncWhile, hf]
        by_cases hz : t1.cs.items.length = 0
        · simp [Bfs.ancGet, hz] at h
        · obtain rfl : t1.cs.items.reverse = o := by
            rw [Bfs.ancGet, if_neg hz] at h
            exact Option.some.inj h
          have hi : t1.cs.items.isEmpty = false := by
            cases hl : t1.cs.items with
            | nil => simp [hl] at hz
            | cons => rfl
          simp only [wlAncConclude, hr2, hi, Bool.false_eq_true, if_false, hb]
    · rintro t t' ⟨b, cs, pq⟩ w o w1 e ⟨e1, e2, e3⟩ h hb hgo
      cases ha : Bfs.lvAdvance t with
      | error e => simp [Bfs.lvNext, streamNextE, ha] at h
      | ok t1 =>
        obtain ⟨fuel, s1, hf, hr⟩ := wlAncLoop_plain t.isRoot t.queue t.cs pq t1 w e3 ha
        simp only [Bfs.lvNext, streamNextE, ha, Except.ok.injEq, Prod.mk.injEq] at h
        obtain ⟨h, rfl⟩ := h
        obtain ⟨f2, k, hk⟩ := hgo s1 hr
        obtain ⟨hr1, hr2, hr3⟩ := hr
        refine ⟨max fuel f2, k + 1, ?_⟩
        cases e1
        cases e2
        rw [wlAncWhile, wlAncLoop_le (Nat.le_max_left fuel f2) hf]
        by_cases hz : t1.cs.items.length = 0
        · simp [Bfs.ancGet, hz] at h
        · obtain rfl : t1.cs.items.reverse = o := by
            rw [Bfs.ancGet, if_neg hz] at h
            exact Option.some.inj h
          have hi : t1.cs.items.isEmpty = false := by
            cases hl : t1.cs.items with
            | nil => simp [hl] at hz
            | cons => rfl
          simp only [wlAncConclude, hr2, hi, Bool.false_eq_true, if_false, hb]
          exact wlAncWhile_le (Nat.le_max_right fuel f2) (Nat.le_refl _) hk
  have key : (∃ fuel k, wlAncWhile (N := N) fuel body k (WideAnc.new n w).1.leaves (WideAnc.new n w).2 = some r) ↔
      r = endingOf (forList body ((Tree.onlyLeaves (treeOf n).located.markLeaves.levelOrder).map Pos.ancestors) w) :=
    ⟨fun ⟨_, _, h⟩ => wlAncWhile_unique h hk, fun h => ⟨fuel, k, h ▸ hk⟩⟩
  exact ⟨key, (C81_bfs_leaves_ancestors body n w r).symm.trans key⟩

end General

/-- A body that notes the slices and stops at node 4. -/
def noteSlice : Body (List (List Nat)) (List Nat) := fun as w => (as.getLast? != some 4, as :: w)

/-- What the body has noted, latest first, when it stops. -/
example : forList noteSlice (sampleTree.located.levelOrder.map Pos.ancestors) [] =
      (false, [[0, 1, 4], [0, 1, 3], [0, 2], [0, 1], [0]]) ∧
    forList noteSlice ((Tree.onlyLeaves sampleTree.located.markLeaves.levelOrder).map Pos.ancestors) [] =
      (false, [[0, 1, 4], [0, 1, 3]]) := by decide +kernel

end TreeIter
