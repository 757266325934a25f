import Verif.Spec.SharedPostPlain
import Verif.Lemmas.SharedPost
import Verif.Lemmas.SharedWidePlain

/-!
# Postorder contexts over nodes that share no state: helper lemmas
-/

universe u v w x y z

namespace TreeIter

namespace Shared

variable {W : Type x} {N : Type u} {V : Type v} {C : Type y} {I : Type w}

theorem postCtxAdvance_le [CtxNode W N V C I] {keep : Bool} {f f' : Nat} (hf : f ≤ f') (s : PostCtx N V C I) (w : W) (r)
    (h : postCtxAdvance keep f s w = some r) : postCtxAdvance keep f' s w = some r := by
  obtain ⟨d, rfl⟩ := Nat.exists_eq_add_of_le hf
  clear hf
  induction d with
  | zero => exact h
  | succ d ih => exact postCtxAdvance_mono ih

theorem postWhile_le [CtxNode W N V C I] {keep : Bool} {body : PostBody W V C} {f f' k k' : Nat} (hf : f ≤ f') (hk : k ≤ k')
    {s : PostCtx N V C I} {w : W} {e : Ending W} (h : postWhile keep f body k s w = some e) : postWhile keep f' body k' s w = some e := by
  induction k generalizing k' s w e with
  | zero => simp [postWhile] at h
  | succ k ih =>
    obtain ⟨k', rfl⟩ : ∃ j, k' = j + 1 := ⟨k' - 1, by omega⟩
    exact ctxConclude_mono (fun s w e h => ih (by omega) h) (fun y hy => postCtxAdvance_le hf _ _ _ hy) h

theorem postWhile_unique [CtxNode W N V C I] {keep : Bool} {body : PostBody W V C} {f f' k k' : Nat} {s : PostCtx N V C I} {w : W}
    {e e' : Ending W} (h : postWhile keep f body k s w = some e) (h' : postWhile keep f' body k' s w = some e') : e = e' := by
  have h1 := postWhile_le (Nat.le_max_left f f') (Nat.le_max_left k k') h
  have h2 := postWhile_le (Nat.le_max_right f f') (Nat.le_max_right k k') h'
  rw [h1] at h2
  exact Option.some.inj h2

/-- If `advance` is that of a model without shared state, the loop goes through its contexts. -/
theorem postWhile_plain [CtxNode W N V C I] {keep : Bool} {T : Type z} (enc : T → PostCtx N V C I) (padv : T → Except Panic T)
    (pget : T → Option (Ctx V C))
    (hget : ∀ t, pget t = if (enc t).ancestors.isEmpty then none else
      some ⟨(enc t).path.reverse, (enc t).ancestors.reverse, (enc t).children⟩)
    (hadv : ∀ t (w : W), ∃ fuel, postCtxAdvance keep fuel (enc t) w = some ((padv t).map fun t => (enc t, w)))
    (body : Body W (Ctx V C)) (os : List (Ctx V C)) (t : T) (w : W)
    (h : ∀ k, nthCallE (streamNextE padv pget) k t = .ok os[k]?) (r : Ending W) :
    (∃ fuel k, postWhile keep fuel (lookPost body) k (enc t) w = some r) ↔ r = endingOf (forList body os w) := by
  obtain ⟨fuel, k, hk⟩ : ∃ fuel k, postWhile keep fuel (lookPost body) k (enc t) w = some (endingOf (forList body os w)) := by
    refine while_plain (fun t s => s = enc t) (fun s w e => ∃ fuel k, postWhile keep fuel (lookPost body) k s w = some e)
      (streamNextE padv pget) body ?_ ?_ ?_ os t _ w rfl (fun k _ => h k)
    · rintro t t' s w rfl h
      obtain ⟨fuel, hf⟩ := hadv t w
      refine ⟨fuel, 1, ?_⟩
      rw [postWhile, hf]
      cases ha : padv t with
      | error e => simp [streamNextE, ha] at h
      | ok t1 =>
        simp only [streamNextE, ha, Except.ok.injEq, Prod.mk.injEq, hget] at h
        obtain ⟨h, rfl⟩ := h
        by_cases he : (enc t1).ancestors.isEmpty
        · simp only [Except.map, ctxConclude, he, if_true]
        · simp [he] at h
    · rintro t t' s w o w1 rfl h hb
      obtain ⟨fuel, hf⟩ := hadv t w
      refine ⟨fuel, 1, ?_⟩
      rw [postWhile, hf]
      cases ha : padv t with
      | error e => simp [streamNextE, ha] at h
      | ok t1 =>
        simp only [streamNextE, ha, Except.ok.injEq, Prod.mk.injEq, hget] at h
        obtain ⟨h, rfl⟩ := h
        by_cases he : (enc t1).ancestors.isEmpty
        · simp [he] at h
        · simp only [he, Bool.false_eq_true, if_false, Option.some.injEq] at h
          subst h
          simp only [Except.map, ctxConclude, he, Bool.false_eq_true, if_false, lookPost, hb]
    · rintro t t' s w o w1 e rfl h hb hgo
      obtain ⟨f1, hf⟩ := hadv t w
      obtain ⟨f2, k, hk⟩ := hgo _ rfl
      refine ⟨max f1 f2, k + 1, ?_⟩
      rw [postWhile, postCtxAdvance_le (Nat.le_max_left f1 f2) _ _ _ hf]
      cases ha : padv t with
      | error e => simp [streamNextE, ha] at h
      | ok t1 =>
        simp only [streamNextE, ha, Except.ok.injEq, Prod.mk.injEq, hget] at h
        obtain ⟨h, rfl⟩ := h
        by_cases he : (enc t1).ancestors.isEmpty
        · simp [he] at h
        · simp only [he, Bool.false_eq_true, if_false, Option.some.injEq] at h
          subst h
          simp only [Except.map, ctxConclude, he, Bool.false_eq_true, if_false, lookPost, hb, List.reverse_reverse]
          exact postWhile_le (Nat.le_max_right f1 f2) (Nat.le_refl k) hk
  exact ⟨fun ⟨_, _, h⟩ => postWhile_unique h hk, fun h => ⟨fuel, k, h ▸ hk⟩⟩

section
variable [TreeNode N V]
attribute [local instance] plainCtx

/-- The state of the model of `Postorder.ctxAdvance`. -/
def encPost (t : Postorder.CtxState N V) : PostCtx N V (List N) (List N) := ⟨t.root, t.stack, t.into, t.path, t.ancestors, t.children⟩

theorem postCtxLoop_Post (st : List (List N)) (into : List (List N)) (path : List Nat) (anc : List V) (w : W) : ∃ fuel,
    postCtxLoop (N := N) true fuel st into path anc w =
      some ((Postorder.ctxLoop st into path anc).map fun t => (encPost t, w)) := by
  fun_induction Postorder.ctxLoop st into path anc <;> first
    | exact ⟨1, rfl⟩
    | (rename_i ih
       obtain ⟨fuel, h⟩ := ih
       exact ⟨fuel + 1, h⟩)

theorem postCtxAdvance_Post (t : Postorder.CtxState N V) (w : W) : ∃ fuel,
    postCtxAdvance true fuel (encPost t) w = some ((Postorder.ctxAdvance t).map fun t => (encPost t, w)) := by
  obtain ⟨root, st, into, path, anc, ch⟩ := t
  cases root with
  | some n => exact postCtxLoop_Post _ _ _ _ w
  | none =>
    cases ha : anc.tail.isEmpty with
    | true => exact ⟨0, by simp [postCtxAdvance, Postorder.ctxAdvance, encPost, ha, Except.map]⟩
    | false =>
      obtain ⟨fuel, h⟩ := postCtxLoop_Post st into path anc.tail w
      exact ⟨fuel, by simpa [postCtxAdvance, Postorder.ctxAdvance, encPost, ha] using h⟩

/-- The state of the model of `Postorder.ownCtxAdvance`. -/
def encPostOwn (t : Postorder.OwnCtxState N V) : PostCtx N V (List N) (List N) := ⟨t.root, t.stack, [], t.path, t.ancestors, none⟩

theorem postCtxLoop_PostOwn (st : List (List N)) (path : List Nat) (anc : List V) (w : W) : ∃ fuel,
    postCtxLoop (N := N) false fuel st [] path anc w =
      some ((Postorder.ownCtxLoop st path anc).map fun t => (encPostOwn t, w)) := by
  fun_induction Postorder.ownCtxLoop st path anc <;> first
    | exact ⟨1, rfl⟩
    | (rename_i ih
       obtain ⟨fuel, h⟩ := ih
       exact ⟨fuel + 1, h⟩)

theorem postCtxAdvance_PostOwn (t : Postorder.OwnCtxState N V) (w : W) : ∃ fuel,
    postCtxAdvance false fuel (encPostOwn t) w = some ((Postorder.ownCtxAdvance t).map fun t => (encPostOwn t, w)) := by
  obtain ⟨root, st, path, anc⟩ := t
  cases root with
  | some n => exact postCtxLoop_PostOwn _ _ _ w
  | none =>
    cases ha : anc.tail.isEmpty with
    | true => exact ⟨0, by simp [postCtxAdvance, Postorder.ownCtxAdvance, encPostOwn, ha, Except.map]⟩
    | false =>
      obtain ⟨fuel, h⟩ := postCtxLoop_PostOwn st path anc.tail w
      exact ⟨fuel, by simpa [postCtxAdvance, Postorder.ownCtxAdvance, encPostOwn, ha] using h⟩

end

section
variable [BinNode N V]
attribute [local instance] plainCtx2

/-- The state of the model of `Postorder.binCtxAdvance`. -/
def encPostBin (t : Postorder.BinCtxState N V) : PostCtx N V (Option N × Option N) (List (Option N)) := ⟨t.root, t.stack, t.into, t.path, t.ancestors, t.children⟩

theorem postCtxLoop_PostBin (st : List (List (Option N))) (into : List (Option N × Option N)) (path : List Nat) (anc : List V) (w : W) : ∃ fuel,
    postCtxLoop (N := N) true fuel st into path anc w =
      some ((Postorder.binCtxLoop st into path anc).map fun t => (encPostBin t, w)) := by
  fun_induction Postorder.binCtxLoop st into path anc <;> first
    | exact ⟨1, rfl⟩
    | (rename_i ih
       obtain ⟨fuel, h⟩ := ih
       exact ⟨fuel + 1, h⟩)

theorem postCtxAdvance_PostBin (t : Postorder.BinCtxState N V) (w : W) : ∃ fuel,
    postCtxAdvance true fuel (encPostBin t) w = some ((Postorder.binCtxAdvance t).map fun t => (encPostBin t, w)) := by
  obtain ⟨root, st, into, path, anc, ch⟩ := t
  cases root with
  | some n => exact postCtxLoop_PostBin _ _ _ _ w
  | none =>
    cases ha : anc.tail.isEmpty with
    | true => exact ⟨0, by simp [postCtxAdvance, Postorder.binCtxAdvance, encPostBin, ha, Except.map]⟩
    | false =>
      obtain ⟨fuel, h⟩ := postCtxLoop_PostBin st into path anc.tail w
      exact ⟨fuel, by simpa [postCtxAdvance, Postorder.binCtxAdvance, encPostBin, ha] using h⟩

/-- The state of the model of `Postorder.ownBinCtxAdvance`. -/
def encPostBinOwn (t : Postorder.OwnBinCtxState N V) : PostCtx N V (Option N × Option N) (List (Option N)) := ⟨t.root, t.stack, [], t.path, t.ancestors, none⟩

theorem postCtxLoop_PostBinOwn (st : List (List (Option N))) (path : List Nat) (anc : List V) (w : W) : ∃ fuel,
    postCtxLoop (N := N) false fuel st [] path anc w =
      some ((Postorder.ownBinCtxLoop st path anc).map fun t => (encPostBinOwn t, w)) := by
  fun_induction Postorder.ownBinCtxLoop st path anc <;> first
    | exact ⟨1, rfl⟩
    | (rename_i ih
       obtain ⟨fuel, h⟩ := ih
       exact ⟨fuel + 1, h⟩)

theorem postCtxAdvance_PostBinOwn (t : Postorder.OwnBinCtxState N V) (w : W) : ∃ fuel,
    postCtxAdvance false fuel (encPostBinOwn t) w = some ((Postorder.ownBinCtxAdvance t).map fun t => (encPostBinOwn t, w)) := by
  obtain ⟨root, st, path, anc⟩ := t
  cases root with
  | some n => exact postCtxLoop_PostBinOwn _ _ _ w
  | none =>
    cases ha : anc.tail.isEmpty with
    | true => exact ⟨0, by simp [postCtxAdvance, Postorder.ownBinCtxAdvance, encPostBinOwn, ha, Except.map]⟩
    | false =>
      obtain ⟨fuel, h⟩ := postCtxLoop_PostBinOwn st path anc.tail w
      exact ⟨fuel, by simpa [postCtxAdvance, Postorder.ownBinCtxAdvance, encPostBinOwn, ha] using h⟩

end

end Shared

end TreeIter
