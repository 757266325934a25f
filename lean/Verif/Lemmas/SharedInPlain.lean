import Verif.Lemmas.SharedIn
import Verif.Lemmas.SharedWidePlain

/-!
# In-order ancestors over nodes that share no state: helper lemmas
-/

universe u v w x

namespace TreeIter

namespace Shared

open Inorder (Status)

variable {W : Type x} {N : Type u} {V : Type v}

theorem inAncDescend_mono [SharedBin W N V] (fuel : Nat) : ∀ (o : Option N) (s : Inorder.AncState N V) (w : W) r,
    inAncDescend fuel o s w = some r → inAncDescend (fuel + 1) o s w = some r := by
  induction fuel with
  | zero => intro o s w r h; simp [inAncDescend] at h
  | succ fuel ih =>
    intro o s w r h
    cases o with
    | none => simpa [inAncDescend] using h
    | some n => rw [inAncDescend] at h ⊢; exact ih _ _ _ _ h

theorem inAncAdvance_mono [SharedBin W N V] (fuel : Nat) (s : Inorder.AncState N V) (w : W) (r)
    (h : inAncAdvance fuel s w = some r) : inAncAdvance (fuel + 1) s w = some r := by
  unfold inAncAdvance at h ⊢
  rcases hf : Inorder.ancFind s.status s.items s.right with s' | ⟨n, s'⟩
  · simpa only [hf] using h
  · simp only [hf] at h ⊢
    cases hd : inAncDescend fuel (some n) s' w with
    | none => simp [hd, inAncFinish] at h
    | some y =>
      rw [inAncDescend_mono fuel _ _ _ _ hd]
      rw [hd] at h
      exact h

theorem inAncWhile_step [SharedBin W N V] {body : SliceBody W V} {f f' k k' : Nat}
    (hf : ∀ (s : Inorder.AncState N V) (w : W) r, inAncAdvance f s w = some r → inAncAdvance f' s w = some r)
    (hk : ∀ (s : Inorder.AncState N V) (w : W) e, inAncWhile f body k s w = some e → inAncWhile f' body k' s w = some e)
    (s : Inorder.AncState N V) (w : W) (e) (h : inAncWhile f body (k + 1) s w = some e) : inAncWhile f' body (k' + 1) s w = some e := by
  rw [inAncWhile] at h ⊢
  cases ha : inAncAdvance f s w with
  | none => simp [ha] at h
  | some r =>
    rw [hf _ _ _ ha]
    rw [ha] at h
    rcases r with x | ⟨s1, w1⟩
    · exact h
    · simp only at h ⊢
      by_cases hs : s1.items.isEmpty
      · simpa only [hs, if_true] using h
      · simp only [hs, Bool.false_eq_true, if_false] at h ⊢
        rcases hb : body s1.items.reverse w1 with ⟨_ | _, as, w2⟩
        · simpa only [hb] using h
        · simp only [hb] at h ⊢
          exact hk _ _ _ h

theorem inAncWhile_le [SharedBin W N V] {body : SliceBody W V} {f f' k k' : Nat} (hf : f ≤ f') (hk : k ≤ k')
    {s : Inorder.AncState N V} {w : W} {e : Ending W} (h : inAncWhile f body k s w = some e) : inAncWhile f' body k' s w = some e := by
  have adv : ∀ (s : Inorder.AncState N V) (w : W) r, inAncAdvance f s w = some r → inAncAdvance f' s w = some r := by
    obtain ⟨d, rfl⟩ := Nat.exists_eq_add_of_le hf
    clear hf h
    induction d with
    | zero => exact fun _ _ _ h => h
    | succ d ih => exact fun s w r h => inAncAdvance_mono _ _ _ _ (ih s w r h)
  induction k generalizing k' s w e with
  | zero => simp [inAncWhile] at h
  | succ k ih =>
    obtain ⟨k', rfl⟩ : ∃ j, k' = j + 1 := ⟨k' - 1, by omega⟩
    exact inAncWhile_step adv (fun s w e h => ih (by omega) h) s w e h

theorem inAncWhile_unique [SharedBin W N V] {body : SliceBody W V} {f f' k k' : Nat} {s : Inorder.AncState N V} {w : W}
    {e e' : Ending W} (h : inAncWhile f body k s w = some e) (h' : inAncWhile f' body k' s w = some e') : e = e' := by
  have h1 := inAncWhile_le (Nat.le_max_left f f') (Nat.le_max_left k k') h
  have h2 := inAncWhile_le (Nat.le_max_right f f') (Nat.le_max_right k k') h'
  rw [h1] at h2
  exact Option.some.inj h2

section Binary
variable [BinNode N V]
attribute [local instance] plainBin

theorem inAncDescend_plain (cur : Option N) (s : Inorder.AncState N V) (w : W) : ∃ fuel,
    inAncDescend fuel cur s w = some (Inorder.ancDescend cur s, w) := by
  fun_induction Inorder.ancDescend cur s with
  | case1 s => exact ⟨1, rfl⟩
  | case2 s n ih =>
    obtain ⟨fuel, h⟩ := ih
    exact ⟨fuel + 1, h⟩

theorem inAncAdvance_plain (t : Inorder.AncState N V) (w : W) : ∃ fuel,
    inAncAdvance fuel t w = some ((Inorder.ancAdvance t).map fun s => (s, w)) := by
  rcases hf : Inorder.ancFind t.status t.items t.right with s' | ⟨n, s'⟩
  · exact ⟨0, by simp only [inAncAdvance, Inorder.ancAdvance, hf, Except.map]⟩
  · obtain ⟨fuel, h⟩ := inAncDescend_plain (some n) s' w
    refine ⟨fuel, ?_⟩
    simp only [inAncAdvance, Inorder.ancAdvance, hf, h, inAncFinish]
    cases (Inorder.ancDescend (some n) s').status <;> rfl

end Binary

end Shared

end TreeIter
