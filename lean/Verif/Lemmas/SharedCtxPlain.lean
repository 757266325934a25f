import Verif.Spec.SharedCtxPlain
import Verif.Lemmas.SharedCtx
import Verif.Lemmas.SharedWidePlain

/-!
# Preorder contexts over nodes that share no state: helper lemmas
-/

universe u v w x y z

namespace TreeIter

namespace Shared

variable {W : Type x} {N : Type u} {V : Type v} {C : Type y} {I : Type w}

theorem ctxWhile_step [CtxNode W N V C I] {body : CtxBody W V C} {f f' k k' : Nat}
    (hf : ∀ (s : PreCtx N V C I) (w : W) r, preCtxAdvance f s w = some r → preCtxAdvance f' s w = some r)
    (hk : ∀ (s : PreCtx N V C I) (w : W) e, ctxWhile f body k s w = some e → ctxWhile f' body k' s w = some e)
    (s : PreCtx N V C I) (w : W) (e) (h : ctxWhile f body (k + 1) s w = some e) : ctxWhile f' body (k' + 1) s w = some e := by
  rw [ctxWhile] at h ⊢
  cases ha : preCtxAdvance f s w with
  | none => simp [ha] at h
  | some r =>
    rw [hf _ _ _ ha]
    rw [ha] at h
    rcases r with x | ⟨s1, w1⟩
    · exact h
    · simp only at h ⊢
      by_cases hs : s1.ancestors.isEmpty
      · simpa only [hs, if_true] using h
      · simp only [hs, Bool.false_eq_true, if_false] at h ⊢
        cases hc : s1.children with
        | none => simpa only [hc] using h
        | some c =>
          simp only [hc] at h ⊢
          rcases hb : body s1.path.reverse s1.ancestors.reverse c w1 with ⟨_ | _, as, c', w2⟩
          · simpa only [hb] using h
          · simp only [hb] at h ⊢
            exact hk _ _ _ h

theorem preCtxAdvance_le [CtxNode W N V C I] {f f' : Nat} (hf : f ≤ f') (s : PreCtx N V C I) (w : W) (r)
    (h : preCtxAdvance f s w = some r) : preCtxAdvance f' s w = some r := by
  obtain ⟨d, rfl⟩ := Nat.exists_eq_add_of_le hf
  clear hf
  induction d with
  | zero => exact h
  | succ d ih => exact preCtxAdvance_mono ih

theorem ctxWhile_le [CtxNode W N V C I] {body : CtxBody W V C} {f f' k k' : Nat} (hf : f ≤ f') (hk : k ≤ k')
    {s : PreCtx N V C I} {w : W} {e : Ending W} (h : ctxWhile f body k s w = some e) : ctxWhile f' body k' s w = some e := by
  induction k generalizing k' s w e with
  | zero => simp [ctxWhile] at h
  | succ k ih =>
    obtain ⟨k', rfl⟩ : ∃ j, k' = j + 1 := ⟨k' - 1, by omega⟩
    exact ctxWhile_step (preCtxAdvance_le hf) (fun s w e h => ih (by omega) h) s w e h

theorem ctxWhile_unique [CtxNode W N V C I] {body : CtxBody W V C} {f f' k k' : Nat} {s : PreCtx N V C I} {w : W}
    {e e' : Ending W} (h : ctxWhile f body k s w = some e) (h' : ctxWhile f' body k' s w = some e') : e = e' := by
  have h1 := ctxWhile_le (Nat.le_max_left f f') (Nat.le_max_left k k') h
  have h2 := ctxWhile_le (Nat.le_max_right f f') (Nat.le_max_right k k') h'
  rw [h1] at h2
  exact Option.some.inj h2

/-- If `advance` is that of a model without shared state, the loop goes through its contexts. -/
theorem ctxWhile_plain [CtxNode W N V C I] {T : Type z} (enc : T → PreCtx N V C I) (padv : T → Except Panic T)
    (pget : T → Option (Ctx V C))
    (hget : ∀ t, pget t = if (enc t).ancestors.isEmpty then none else
      some ⟨(enc t).path.reverse, (enc t).ancestors.reverse, (enc t).children⟩)
    (hadv : ∀ t (w : W), ∃ fuel, preCtxAdvance fuel (enc t) w = some ((padv t).map fun t => (enc t, w)))
    (hsome : ∀ t t', padv t = .ok t' → (enc t').ancestors.isEmpty = false → ∃ c, (enc t').children = some c)
    (body : Body W (Ctx V C)) (os : List (Ctx V C)) (t : T) (w : W)
    (h : ∀ k, nthCallE (streamNextE padv pget) k t = .ok os[k]?) (r : Ending W) :
    (∃ fuel k, ctxWhile fuel (lookBody body) k (enc t) w = some r) ↔ r = endingOf (forList body os w) := by
  obtain ⟨fuel, k, hk⟩ : ∃ fuel k, ctxWhile fuel (lookBody body) k (enc t) w = some (endingOf (forList body os w)) := by
    refine while_plain (fun t s => s = enc t) (fun s w e => ∃ fuel k, ctxWhile fuel (lookBody body) k s w = some e)
      (streamNextE padv pget) body ?_ ?_ ?_ os t _ w rfl (fun k _ => h k)
    · rintro t t' s w rfl h
      obtain ⟨fuel, hf⟩ := hadv t w
      refine ⟨fuel, 1, ?_⟩
      rw [ctxWhile, hf]
      cases ha : padv t with
      | error e => simp [streamNextE, ha] at h
      | ok t1 =>
        simp only [streamNextE, ha, Except.ok.injEq, Prod.mk.injEq, hget] at h
        obtain ⟨h, rfl⟩ := h
        by_cases he : (enc t1).ancestors.isEmpty
        · simp only [Except.map, he, if_true]
        · simp [he] at h
    · rintro t t' s w o w1 rfl h hb
      obtain ⟨fuel, hf⟩ := hadv t w
      refine ⟨fuel, 1, ?_⟩
      rw [ctxWhile, hf]
      cases ha : padv t with
      | error e => simp [streamNextE, ha] at h
      | ok t1 =>
        simp only [streamNextE, ha, Except.ok.injEq, Prod.mk.injEq, hget] at h
        obtain ⟨h, rfl⟩ := h
        by_cases he : (enc t1).ancestors.isEmpty
        · simp [he] at h
        · obtain ⟨c, hc⟩ := hsome t t1 ha (by simpa using he)
          simp only [he, Bool.false_eq_true, if_false, Option.some.injEq, hc] at h
          subst h
          simp only [Except.map, he, Bool.false_eq_true, if_false, hc, lookBody, hb]
    · rintro t t' s w o w1 e rfl h hb hgo
      obtain ⟨f1, hf⟩ := hadv t w
      obtain ⟨f2, k, hk⟩ := hgo _ rfl
      refine ⟨max f1 f2, k + 1, ?_⟩
      rw [ctxWhile, preCtxAdvance_le (Nat.le_max_left f1 f2) _ _ _ hf]
      cases ha : padv t with
      | error e => simp [streamNextE, ha] at h
      | ok t1 =>
        simp only [streamNextE, ha, Except.ok.injEq, Prod.mk.injEq, hget] at h
        obtain ⟨h, rfl⟩ := h
        by_cases he : (enc t1).ancestors.isEmpty
        · simp [he] at h
        · obtain ⟨c, hc⟩ := hsome t t1 ha (by simpa using he)
          simp only [he, Bool.false_eq_true, if_false, Option.some.injEq, hc] at h
          subst h
          simp only [Except.map, he, Bool.false_eq_true, if_false, hc, lookBody, hb, List.reverse_reverse]
          have : ({ enc t1 with ancestors := (enc t1).ancestors, children := some c } : PreCtx N V C I) = enc t1 := by
            rw [← hc]
          rw [this]
          exact ctxWhile_le (Nat.le_max_right f1 f2) (Nat.le_refl k) hk
  exact ⟨fun ⟨_, _, h⟩ => ctxWhile_unique h hk, fun h => ⟨fuel, k, h ▸ hk⟩⟩

section General
variable [TreeNode N V]
attribute [local instance] plainCtx

/-- The state of the general model. -/
def encCtx (t : Preorder.CtxState N V) : PreCtx N V (List N) (List N) := ⟨t.root, t.stack, t.path, t.ancestors, t.children⟩

theorem preCtxLoop_plain (st : List (List N)) (path : List Nat) (anc : List V) (w : W) : ∃ fuel,
    preCtxLoop (N := N) fuel st path anc w =
      some ((Preorder.ctxLoop st path anc).map fun r => (r.1, r.2.1, r.2.2.1, r.2.2.2, w)) := by
  fun_induction Preorder.ctxLoop st path anc with
  | case1 path anc => exact ⟨1, rfl⟩
  | case2 rest path anc ih =>
    obtain ⟨fuel, h⟩ := ih
    exact ⟨fuel + 1, h⟩
  | case3 => exact ⟨1, rfl⟩
  | case4 => exact ⟨1, rfl⟩

theorem preCtxAdvance_plain (t : Preorder.CtxState N V) (w : W) : ∃ fuel,
    preCtxAdvance fuel (encCtx t) w = some ((Preorder.ctxAdvance t).map fun t => (encCtx t, w)) := by
  obtain ⟨root, st, path, anc, ch⟩ := t
  cases root with
  | some n => exact ⟨0, rfl⟩
  | none =>
    cases ha : anc.isEmpty with
    | true => exact ⟨0, by simp [preCtxAdvance, Preorder.ctxAdvance, encCtx, ha, Except.map]⟩
    | false =>
      cases ch with
      | some c =>
        obtain ⟨fuel, h⟩ := preCtxLoop_plain (c :: st) (usizeMax :: path) anc w
        refine ⟨fuel, ?_⟩
        simp only [preCtxAdvance, Preorder.ctxAdvance, encCtx, ha, Bool.false_eq_true, if_false, intoC, h]
        rcases Preorder.ctxLoop (c :: st) (usizeMax :: path) anc with e | ⟨_ | n, a, b, c⟩ <;> rfl
      | none =>
        by_cases hp : path.head? = some usizeMax
        · obtain ⟨fuel, h⟩ := preCtxLoop_plain st path.tail anc.tail w
          refine ⟨fuel, ?_⟩
          simp only [preCtxAdvance, Preorder.ctxAdvance, encCtx, ha, Bool.false_eq_true, if_false, hp, if_true, h]
          rcases Preorder.ctxLoop st path.tail anc.tail with e | ⟨_ | n, a, b, c⟩ <;> rfl
        · obtain ⟨fuel, h⟩ := preCtxLoop_plain st path anc.tail w
          refine ⟨fuel, ?_⟩
          simp only [preCtxAdvance, Preorder.ctxAdvance, encCtx, ha, Bool.false_eq_true, if_false, hp, h]
          rcases Preorder.ctxLoop st path anc.tail with e | ⟨_ | n, a, b, c⟩ <;> rfl

theorem ctxAdvance_some {t t' : Preorder.CtxState N V} (h : Preorder.ctxAdvance t = .ok t') (ha : t'.ancestors.isEmpty = false) :
    ∃ c, t'.children = some c := by
  unfold Preorder.ctxAdvance at h
  split at h
  · cases h
    exact ⟨_, rfl⟩
  · split at h
    · cases h
      simp_all
    · simp only at h
      split at h
      · cases h
      · rename_i r _
        obtain ⟨_ | n, a, b, c⟩ := r
        · cases h
          simp [Preorder.ctxFinish] at ha
        · cases h
          exact ⟨_, rfl⟩

end General

section Binary
variable [BinNode N V]
attribute [local instance] plainCtx2

/-- The state of the binary model. -/
def encCtx2 (t : Preorder.BinCtxState N V) : PreCtx N V (Option N × Option N) (List (Option N)) :=
  ⟨t.root, t.stack, t.path, t.ancestors, t.children⟩

theorem preCtxLoop_plain2 (st : List (List (Option N))) (path : List Nat) (anc : List V) (w : W) : ∃ fuel,
    preCtxLoop (N := N) fuel st path anc w =
      some ((Preorder.binCtxLoop st path anc).map fun r => (r.1, r.2.1, r.2.2.1, r.2.2.2, w)) := by
  fun_induction Preorder.binCtxLoop st path anc with
  | case1 path anc => exact ⟨1, rfl⟩
  | case2 rest path anc ih =>
    obtain ⟨fuel, h⟩ := ih
    exact ⟨fuel + 1, h⟩
  | case3 => exact ⟨1, rfl⟩
  | case4 ss rest p path anc ih =>
    obtain ⟨fuel, h⟩ := ih
    exact ⟨fuel + 1, h⟩
  | case5 => exact ⟨1, rfl⟩

theorem preCtxAdvance_plain2 (t : Preorder.BinCtxState N V) (w : W) : ∃ fuel,
    preCtxAdvance fuel (encCtx2 t) w = some ((Preorder.binCtxAdvance t).map fun t => (encCtx2 t, w)) := by
  obtain ⟨root, st, path, anc, ch⟩ := t
  cases root with
  | some n => exact ⟨0, rfl⟩
  | none =>
    cases ha : anc.isEmpty with
    | true => exact ⟨0, by simp [preCtxAdvance, Preorder.binCtxAdvance, encCtx2, ha, Except.map]⟩
    | false =>
      cases ch with
      | some c =>
        obtain ⟨fuel, h⟩ := preCtxLoop_plain2 ([c.1, c.2] :: st) (usizeMax :: path) anc w
        refine ⟨fuel, ?_⟩
        simp only [preCtxAdvance, Preorder.binCtxAdvance, encCtx2, ha, Bool.false_eq_true, if_false, intoC, h]
        rcases Preorder.binCtxLoop ([c.1, c.2] :: st) (usizeMax :: path) anc with e | ⟨_ | n, a, b, c⟩ <;> rfl
      | none =>
        by_cases hp : path.head? = some usizeMax
        · obtain ⟨fuel, h⟩ := preCtxLoop_plain2 st path.tail anc.tail w
          refine ⟨fuel, ?_⟩
          simp only [preCtxAdvance, Preorder.binCtxAdvance, encCtx2, ha, Bool.false_eq_true, if_false, hp, if_true, h]
          rcases Preorder.binCtxLoop st path.tail anc.tail with e | ⟨_ | n, a, b, c⟩ <;> rfl
        · obtain ⟨fuel, h⟩ := preCtxLoop_plain2 st path anc.tail w
          refine ⟨fuel, ?_⟩
          simp only [preCtxAdvance, Preorder.binCtxAdvance, encCtx2, ha, Bool.false_eq_true, if_false, hp, h]
          rcases Preorder.binCtxLoop st path anc.tail with e | ⟨_ | n, a, b, c⟩ <;> rfl

theorem binCtxAdvance_some {t t' : Preorder.BinCtxState N V} (h : Preorder.binCtxAdvance t = .ok t')
    (ha : t'.ancestors.isEmpty = false) : ∃ c, t'.children = some c := by
  unfold Preorder.binCtxAdvance at h
  split at h
  · cases h
    exact ⟨_, rfl⟩
  · split at h
    · cases h
      simp_all
    · simp only at h
      split at h
      · cases h
      · rename_i r _
        obtain ⟨_ | n, a, b, c⟩ := r
        · cases h
          simp [Preorder.binCtxFinish] at ha
        · cases h
          exact ⟨_, rfl⟩

end Binary

end Shared

end TreeIter
