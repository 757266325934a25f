import Verif.Spec.SharedCtxPlain
import Verif.Spec.SharedWideCtxPlain
import Verif.Lemmas.SharedWide
import Verif.Lemmas.SharedWidePlain

/-!
# Breadth-first contexts over nodes that share no state: helper lemmas
-/

universe u v w x y z

namespace TreeIter

namespace Shared

open Bfs (checkedSucc)

variable {W : Type x} {N : Type u} {V : Type v} {C : Type y} {I : Type w}

theorem wideCtxAdvance_le [CtxNode W N V C I] {f f' : Nat} (hf : f ≤ f') (s : WideCtx V C I) (w : W) (r)
    (h : wideCtxAdvance N f s w = some r) : wideCtxAdvance N f' s w = some r := by
  unfold wideCtxAdvance at h ⊢
  by_cases h1 : s.isRoot
  · simpa only [h1, if_true] using h
  · simp only [h1, Bool.false_eq_true, if_false] at h ⊢
    by_cases h2 : s.cc.ancestors.isEmpty
    · simpa only [h2, if_true] using h
    · simp only [h2, Bool.false_eq_true, if_false] at h ⊢
      cases h3 : s.children with
      | none => simpa only [h3] using h
      | some c =>
        simp only [h3] at h ⊢
        exact wideCtxLoop_mono hf _ _ _ _ _ h

theorem wideCtxWhile_le [CtxNode W N V C I] {body : WideBody W V C} {f f' k k' : Nat} (hf : f ≤ f') (hk : k ≤ k')
    {s : WideCtx V C I} {w : W} {e : Ending W} (h : wideCtxWhile N f body k s w = some e) :
    wideCtxWhile N f' body k' s w = some e := by
  induction k generalizing k' s w e with
  | zero => simp [wideCtxWhile] at h
  | succ k ih =>
    obtain ⟨k', rfl⟩ : ∃ j, k' = j + 1 := ⟨k' - 1, by omega⟩
    rw [wideCtxWhile] at h ⊢
    exact wideCtxConclude_mono (fun _ _ _ h => ih (by omega) h) (wideCtxAdvance_le hf _ _) h

theorem wideCtxWhile_unique [CtxNode W N V C I] {body : WideBody W V C} {f f' k k' : Nat} {s : WideCtx V C I} {w : W}
    {e e' : Ending W} (h : wideCtxWhile N f body k s w = some e) (h' : wideCtxWhile N f' body k' s w = some e') : e = e' := by
  have h1 := wideCtxWhile_le (Nat.le_max_left f f') (Nat.le_max_left k k') h
  have h2 := wideCtxWhile_le (Nat.le_max_right f f') (Nat.le_max_right k k') h'
  rw [h1] at h2
  exact Option.some.inj h2

/-- The state of the model. -/
def encWide {J : Type u} (t : Bfs.CtxState V C J) : WideCtx V C (List J) := ⟨t.isRoot, t.cc, t.children, t.queue, t.counter⟩

/-- A root that is still to be shown has its children. -/
def WideOk {J : Type u} (t : Bfs.CtxState V C J) : Prop := t.isRoot = true → ∃ c, t.children = some c

/-- If `advance` is that of a model without shared state, the loop goes through its contexts. -/
theorem wideCtxWhile_plain {J : Type u} [CtxNode W N V C (List J)] (padv : Bfs.CtxState V C J → Except Panic (Bfs.CtxState V C J))
    (hadv : ∀ t (w : W), ∃ fuel, wideCtxAdvance N fuel (encWide t) w = some ((padv t).map fun t => (encWide t, w)))
    (hsome : ∀ t t', WideOk t → padv t = .ok t' → WideOk t' ∧ (t'.cc.ancestors.isEmpty = false → ∃ c, t'.children = some c))
    (body : Body W (Ctx V C)) (os : List (Ctx V C)) (t : Bfs.CtxState V C J) (w : W) (ht : WideOk t)
    (h : ∀ k, nthCallE (streamNextE padv Bfs.ctxGet) k t = .ok os[k]?) (r : Ending W) :
    (∃ fuel k, wideCtxWhile N fuel (lookWide body) k (encWide t) w = some r) ↔ r = endingOf (forList body os w) := by
  obtain ⟨fuel, k, hk⟩ : ∃ fuel k, wideCtxWhile N fuel (lookWide body) k (encWide t) w = some (endingOf (forList body os w)) := by
    refine while_plain (fun t s => s = encWide t ∧ WideOk t) (fun s w e => ∃ fuel k, wideCtxWhile N fuel (lookWide body) k s w = some e)
      (streamNextE padv Bfs.ctxGet) body ?_ ?_ ?_ os t _ w ⟨rfl, ht⟩ (fun k _ => h k)
    · rintro t t' s w ⟨rfl, hg⟩ h
      obtain ⟨fuel, hf⟩ := hadv t w
      refine ⟨fuel, 1, ?_⟩
      rw [wideCtxWhile, hf]
      cases ha : padv t with
      | error e => simp [streamNextE, ha] at h
      | ok t1 =>
        simp only [streamNextE, ha, Except.ok.injEq, Prod.mk.injEq, Bfs.ctxGet] at h
        obtain ⟨h, rfl⟩ := h
        by_cases he : t1.cc.ancestors.isEmpty
        · simp only [Except.map, wideCtxConclude, encWide, he, if_true]
        · simp [he] at h
    · rintro t t' s w o w1 ⟨rfl, hg⟩ h hb
      obtain ⟨fuel, hf⟩ := hadv t w
      refine ⟨fuel, 1, ?_⟩
      rw [wideCtxWhile, hf]
      cases ha : padv t with
      | error e => simp [streamNextE, ha] at h
      | ok t1 =>
        simp only [streamNextE, ha, Except.ok.injEq, Prod.mk.injEq, Bfs.ctxGet] at h
        obtain ⟨h, rfl⟩ := h
        by_cases he : t1.cc.ancestors.isEmpty
        · simp [he] at h
        · obtain ⟨c, hc⟩ := (hsome t t1 hg ha).2 (by simpa using he)
          simp only [he, Bool.false_eq_true, if_false, Option.some.injEq, hc] at h
          subst h
          simp only [Except.map, wideCtxConclude, encWide, he, Bool.false_eq_true, if_false, hc, lookWide, hb]
    · rintro t t' s w o w1 e ⟨rfl, hg⟩ h hb hgo
      obtain ⟨f1, hf⟩ := hadv t w
      cases ha : padv t with
      | error e => simp [streamNextE, ha] at h
      | ok t1 =>
        simp only [streamNextE, ha, Except.ok.injEq, Prod.mk.injEq, Bfs.ctxGet] at h
        obtain ⟨h, rfl⟩ := h
        obtain ⟨hg1, hs1⟩ := hsome t t1 hg ha
        obtain ⟨f2, k, hk⟩ := hgo _ ⟨rfl, hg1⟩
        refine ⟨max f1 f2, k + 1, ?_⟩
        rw [wideCtxWhile, wideCtxAdvance_le (Nat.le_max_left f1 f2) _ _ _ hf, ha]
        by_cases he : t1.cc.ancestors.isEmpty
        · simp [he] at h
        · obtain ⟨c, hc⟩ := hs1 (by simpa using he)
          simp only [he, Bool.false_eq_true, if_false, Option.some.injEq, hc] at h
          subst h
          simp only [Except.map, wideCtxConclude, encWide, he, Bool.false_eq_true, if_false, hc, lookWide, hb]
          have := wideCtxWhile_le (Nat.le_max_right f1 f2) (Nat.le_refl k) hk
          rw [encWide, hc] at this
          exact this
  exact ⟨fun ⟨_, _, h⟩ => wideCtxWhile_unique h hk, fun h => ⟨fuel, k, h ▸ hk⟩⟩

section General
variable [TreeNode N V]
attribute [local instance] plainCtx

theorem wideScan_cons (n : N) (ns : List N) (k : Nat) (w : W) :
    wideScan N 1 (n :: ns) k w = some (.ok (some n, ns, k, w)) := rfl

theorem wideScan_nil (k : Nat) (w : W) : wideScan N 1 ([] : List N) k w = some (.ok (none, [], k, w)) := rfl

theorem splitC_plain (n : N) (w : W) : (splitC n w : V × List N × W) = (val n, kids n, w) := rfl

theorem wideCtxLoop_plain (queue : List (List N)) (cc : Bfs.CtxCache V) (counter : Nat) (w : W) :
    wideCtxLoop N 1 queue cc counter w = some ((Bfs.ctxLoop queue cc counter).map fun t => (encWide t, w)) := by
  fun_induction Bfs.ctxLoop queue cc counter <;> rw [wideCtxLoop] <;> simp_all [wideScan_cons, wideScan_nil, splitC_plain, Except.map, encWide]

theorem wideCtxAdvance_plain (t : Bfs.CtxState V (List N) N) (w : W) : ∃ fuel,
    wideCtxAdvance N fuel (encWide t) w = some ((Bfs.ctxAdvance t).map fun t => (encWide t, w)) := by
  refine ⟨1, ?_⟩
  obtain ⟨b, cc, ch, queue, k⟩ := t
  cases b with
  | true => rfl
  | false =>
    simp only [wideCtxAdvance, Bfs.ctxAdvance, encWide, Bool.false_eq_true, if_false]
    by_cases h : cc.ancestors.isEmpty
    · simp only [h, if_true]; rfl
    · simp only [h, Bool.false_eq_true, if_false]
      cases ch with
      | none => rfl
      | some c => exact wideCtxLoop_plain _ _ _ _

theorem wideLoop_ok (queue : List (List N)) (cc : Bfs.CtxCache V) (counter : Nat) (t' : Bfs.CtxState V (List N) N)
    (h : Bfs.ctxLoop queue cc counter = .ok t') :
    WideOk t' ∧ (t'.cc.ancestors.isEmpty = false → ∃ c, t'.children = some c) := by
  fun_induction Bfs.ctxLoop queue cc counter <;> first
    | (cases h; simp [WideOk])
    | cases h
    | (rename_i ih; exact ih h)

theorem wideAdvance_ok (t t' : Bfs.CtxState V (List N) N) (ht : WideOk t) (h : Bfs.ctxAdvance t = .ok t') :
    WideOk t' ∧ (t'.cc.ancestors.isEmpty = false → ∃ c, t'.children = some c) := by
  unfold Bfs.ctxAdvance at h
  split at h
  · rename_i hr
    cases h
    exact ⟨fun h => (by simp at h), fun _ => ht hr⟩
  · rename_i hr
    split at h
    · rename_i he
      cases h
      exact ⟨ht, fun h => by rw [he] at h; cases h⟩
    · split at h
      · cases h
      · exact wideLoop_ok _ _ _ _ h

end General

section Binary
variable [BinNode N V]
attribute [local instance] plainCtx2

theorem wideScan_plain2 (it : List (Option N)) (counter : Nat) (w : W) :
    wideScan N (it.length + 1) it counter w = some ((Bfs.binScan it counter).map fun r => (r.1, r.2.1, r.2.2, w)) := by
  fun_induction Bfs.binScan it counter with
  | case1 => rfl
  | case2 ss k e h => rw [List.length_cons, wideScan]; simp only [h]; rfl
  | case3 ss k k' h ih => rw [List.length_cons, wideScan]; simp only [h]; exact ih
  | case4 => rfl

theorem splitC_plain2 (n : N) (w : W) : (splitC n w : V × (Option N × Option N) × W) = (val2 n, (split2 n).2, w) := rfl

theorem wideCtxLoop_plain2 (queue : List (List (Option N))) : ∀ (cc : Bfs.CtxCache V) (counter : Nat) (w : W), ∃ fuel,
    wideCtxLoop N fuel queue cc counter w = some ((Bfs.binCtxLoop queue cc counter).map fun t => (encWide t, w)) := by
  induction queue with
  | nil =>
    intro cc counter w
    refine ⟨0, ?_⟩
    rw [wideCtxLoop, Bfs.binCtxLoop]
    cases cc.settle <;> rfl
  | cons it q ih =>
    intro cc counter w
    have hs := wideScan_plain2 it counter w
    cases h1 : cc.settle with
    | error e => exact ⟨0, by rw [wideCtxLoop, Bfs.binCtxLoop]; simp only [h1]; rfl⟩
    | ok c1 =>
      rcases h2 : Bfs.binScan it counter with e | ⟨_ | n, ss, k⟩ <;> rw [h2] at hs
      · exact ⟨it.length + 1, by rw [wideCtxLoop, Bfs.binCtxLoop]; simp only [h1, h2, hs, Except.map]⟩
      · cases h3 : c1.retire with
        | error e => exact ⟨it.length + 1, by rw [wideCtxLoop, Bfs.binCtxLoop]; simp only [h1, h2, h3, hs, Except.map]⟩
        | ok c2 =>
          obtain ⟨f, hf⟩ := ih c2 0 w
          refine ⟨max (it.length + 1) f, ?_⟩
          rw [wideCtxLoop, Bfs.binCtxLoop]
          simp only [h1, h2, h3, wideScan_mono (Nat.le_max_left _ f) hs, Except.map]
          cases hq : q.isEmpty with
          | true => rfl
          | false => exact wideCtxLoop_mono (Nat.le_max_right _ f) _ _ _ _ _ hf
      · refine ⟨it.length + 1, ?_⟩
        rw [wideCtxLoop, Bfs.binCtxLoop]
        simp only [h1, h2, hs, Except.map]
        cases checkedSucc k <;> rfl

theorem wideCtxAdvance_plain2 (t : Bfs.CtxState V (Option N × Option N) (Option N)) (w : W) : ∃ fuel,
    wideCtxAdvance N fuel (encWide t) w = some ((Bfs.binCtxAdvance t).map fun t => (encWide t, w)) := by
  obtain ⟨b, cc, ch, queue, k⟩ := t
  cases b with
  | true => exact ⟨0, rfl⟩
  | false =>
    simp only [wideCtxAdvance, Bfs.binCtxAdvance, encWide, Bool.false_eq_true, if_false]
    by_cases h : cc.ancestors.isEmpty
    · simp only [h, if_true]; exact ⟨0, rfl⟩
    · simp only [h, Bool.false_eq_true, if_false]
      cases ch with
      | none => exact ⟨0, rfl⟩
      | some c => exact wideCtxLoop_plain2 _ _ _ _

theorem wideLoop_ok2 (queue : List (List (Option N))) (cc : Bfs.CtxCache V) (counter : Nat)
    (t' : Bfs.CtxState V (Option N × Option N) (Option N)) (h : Bfs.binCtxLoop queue cc counter = .ok t') :
    WideOk t' ∧ (t'.cc.ancestors.isEmpty = false → ∃ c, t'.children = some c) := by
  fun_induction Bfs.binCtxLoop queue cc counter <;> first
    | (cases h; simp [WideOk])
    | cases h
    | (rename_i ih; exact ih h)

theorem wideAdvance_ok2 (t t' : Bfs.CtxState V (Option N × Option N) (Option N)) (ht : WideOk t) (h : Bfs.binCtxAdvance t = .ok t') :
    WideOk t' ∧ (t'.cc.ancestors.isEmpty = false → ∃ c, t'.children = some c) := by
  unfold Bfs.binCtxAdvance at h
  split at h
  · rename_i hr
    cases h
    exact ⟨fun h => (by simp at h), fun _ => ht hr⟩
  · rename_i hr
    split at h
    · rename_i he
      cases h
      exact ⟨ht, fun h => by rw [he] at h; cases h⟩
    · split at h
      · cases h
      · exact wideLoop_ok2 _ _ _ _ h

end Binary

end Shared

end TreeIter
