import Verif.Lemmas.SharedInPlain
import Verif.Props.SharedIn
import Verif.Props.SharedWidePlain
import Verif.Props.DepthFirst

/-!
# C81: in-order ancestors on nodes that share no state
-/

universe u v w x

namespace TreeIter

open Shared

variable {W : Type x} {N : Type u} {V : Type v} [BinNode N V]

attribute [local instance] plainBin

/-- C81, in-order ancestors, nodes that share no state, a body that leaves the slice alone: loop and visitor go through the slices of
C08, without a panic. -/
theorem C81_plain_inorder_ancestors (body : Body W (List V)) (n : N) (w : W) (r : Ending W) :
    ((∃ fuel k, inAncWhile fuel (fun as w => ((body as w).1, as, (body as w).2)) k (Inorder.AncState.new n) w = some r) ↔
        r = endingOf (forList body ((binTreeOf n).located.inorder.map Pos.ancestors) w)) ∧
      (VisitTreeIn false (sliceOnly fun as w => ((body as w).1, as, (body as w).2)) n w r ↔
        r = endingOf (forList body ((binTreeOf n).located.inorder.map Pos.ancestors) w)) := by
  obtain ⟨s, h1, h2⟩ := C08_inorder_ancestors n
  obtain rfl : Inorder.AncState.new n = s := Except.ok.inj h1
  obtain ⟨fuel, k, hk⟩ : ∃ fuel k, inAncWhile fuel (fun as w => ((body as w).1, as, (body as w).2)) k (Inorder.AncState.new n) w =
      some (endingOf (forList body ((binTreeOf n).located.inorder.map Pos.ancestors) w)) := by
    refine while_plain (fun (t : Inorder.AncState N V) s => s = t)
      (fun s w e => ∃ fuel k, inAncWhile fuel (fun as w => ((body as w).1, as, (body as w).2)) k s w = some e) Inorder.ancNext body
      ?_ ?_ ?_ _ (Inorder.AncState.new n) _ w rfl (fun k _ => h2 k)
    · rintro t t' s w rfl h
      obtain ⟨fuel, hf⟩ := inAncAdvance_plain s w
      refine ⟨fuel, 1, ?_⟩
      rw [inAncWhile, hf]
      cases ha : Inorder.ancAdvance s with
      | error e => simp [Inorder.ancNext, streamNextE, ha] at h
      | ok t1 =>
        simp only [Inorder.ancNext, streamNextE, ha, Except.ok.injEq, Prod.mk.injEq] at h
        obtain ⟨h, rfl⟩ := h
        cases hi : t1.items with
        | nil => simp [Except.map, hi]
        | cons => simp [Inorder.ancGet, hi] at h
    · rintro t t' s w o w1 rfl h hb
      obtain ⟨fuel, hf⟩ := inAncAdvance_plain s w
      refine ⟨fuel, 1, ?_⟩
      rw [inAncWhile, hf]
      cases ha : Inorder.ancAdvance s with
      | error e => simp [Inorder.ancNext, streamNextE, ha] at h
      | ok t1 =>
        simp only [Inorder.ancNext, streamNextE, ha, Except.ok.injEq, Prod.mk.injEq] at h
        obtain ⟨h, rfl⟩ := h
        cases hi : t1.items with
        | nil => simp [Inorder.ancGet, hi] at h
        | cons v vs =>
          obtain rfl : t1.items.reverse = o := by
            rw [Inorder.ancGet, if_pos (by simp [hi])] at h
            exact Option.some.inj h
          have he : t1.items.isEmpty = false := by rw [hi]; rfl
          simp only [Except.map, he, Bool.false_eq_true, if_false, hb]
    · rintro t t' s w o w1 e rfl h hb hgo
      obtain ⟨f1, hf⟩ := inAncAdvance_plain s w
      obtain ⟨f2, k, hk⟩ := hgo _ rfl
      refine ⟨max f1 f2, k + 1, ?_⟩
      have hk' := inAncWhile_le (Nat.le_max_right f1 f2) (Nat.le_refl k) hk
      have hf' : inAncAdvance (max f1 f2) s w = some ((Inorder.ancAdvance s).map fun s => (s, w)) := by
        obtain ⟨d, hd⟩ := Nat.exists_eq_add_of_le (Nat.le_max_left f1 f2)
        rw [hd]
        clear hd
        induction d with
        | zero => exact hf
        | succ d ih => exact inAncAdvance_mono _ _ _ _ ih
      rw [inAncWhile, hf']
      cases ha : Inorder.ancAdvance s with
      | error e => simp [Inorder.ancNext, streamNextE, ha] at h
      | ok t1 =>
        simp only [Inorder.ancNext, streamNextE, ha, Except.ok.injEq, Prod.mk.injEq] at h
        obtain ⟨h, rfl⟩ := h
        cases hi : t1.items with
        | nil => simp [Inorder.ancGet, hi] at h
        | cons v vs =>
          obtain rfl : t1.items.reverse = o := by
            rw [Inorder.ancGet, if_pos (by simp [hi])] at h
            exact Option.some.inj h
          have he : t1.items.isEmpty = false := by rw [hi]; rfl
          simp only [Except.map, he, Bool.false_eq_true, if_false, hb, List.reverse_reverse]
          exact hk'
  have key : (∃ fuel k, inAncWhile fuel (fun as w => ((body as w).1, as, (body as w).2)) k (Inorder.AncState.new n) w = some r) ↔
      r = endingOf (forList body ((binTreeOf n).located.inorder.map Pos.ancestors) w) :=
    ⟨fun ⟨_, _, h⟩ => inAncWhile_unique h hk, fun h => ⟨fuel, k, h ▸ hk⟩⟩
  exact ⟨key, (C81_inorder_ancestors _ (fun _ _ => rfl) n w r).symm.trans key⟩

/-- What the body has noted, latest first, when it stops. -/
example : forList noteSlice (sampleBin.located.inorder.map Pos.ancestors) [] = (false, [[0, 2, 4], [0], [0, 1, 3], [0, 1]]) := by
  decide +kernel

end TreeIter
