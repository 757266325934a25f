import Verif.Spec.SharedPostPlain
import Verif.Lemmas.SharedIn
import Verif.Lemmas.SharedWidePlain

/-!
# In-order contexts over nodes that share no state: helper lemmas
-/

universe u v w x y z

namespace TreeIter

namespace Shared

open Inorder (Status)

variable {W : Type x} {N : Type u} {V : Type v}

theorem inCtxAdvance_le [SharedBin W N V] {keep : Bool} {f f' : Nat} (hf : f ≤ f') (s : InCtx N V) (w : W) (r)
    (h : inCtxAdvance keep f s w = some r) : inCtxAdvance keep f' s w = some r := by
  obtain ⟨d, rfl⟩ := Nat.exists_eq_add_of_le hf
  clear hf
  induction d with
  | zero => exact h
  | succ d ih => exact inCtxAdvance_mono ih

theorem inWhile_le [SharedBin W N V] {keep : Bool} {body : PostBody W V (Option N × Option N)} {f f' k k' : Nat} (hf : f ≤ f') (hk : k ≤ k')
    {s : InCtx N V} {w : W} {e : Ending W} (h : inWhile keep f body k s w = some e) : inWhile keep f' body k' s w = some e := by
  induction k generalizing k' s w e with
  | zero => simp [inWhile] at h
  | succ k ih =>
    obtain ⟨k', rfl⟩ : ∃ j, k' = j + 1 := ⟨k' - 1, by omega⟩
    exact inConclude_mono (fun s w e h => ih (by omega) h) (fun y hy => inCtxAdvance_le hf _ _ _ hy) h

theorem inWhile_unique [SharedBin W N V] {keep : Bool} {body : PostBody W V (Option N × Option N)} {f f' k k' : Nat} {s : InCtx N V} {w : W}
    {e e' : Ending W} (h : inWhile keep f body k s w = some e) (h' : inWhile keep f' body k' s w = some e') : e = e' := by
  have h1 := inWhile_le (Nat.le_max_left f f') (Nat.le_max_left k k') h
  have h2 := inWhile_le (Nat.le_max_right f f') (Nat.le_max_right k k') h'
  rw [h1] at h2
  exact Option.some.inj h2

/-- If `advance` is that of a model without shared state, the loop goes through its contexts. -/
theorem inWhile_plain [SharedBin W N V] {keep : Bool} {T : Type z} (enc : T → InCtx N V) (padv : T → Except Panic T)
    (pget : T → Option (Ctx V (Option N × Option N)))
    (hget : ∀ t, pget t = if (enc t).ancestors.isEmpty then none else
      some ⟨(enc t).path.reverse, (enc t).ancestors.reverse, (enc t).children⟩)
    (hadv : ∀ t (w : W), ∃ fuel, inCtxAdvance keep fuel (enc t) w = some ((padv t).map fun t => (enc t, w)))
    (body : Body W (Ctx V (Option N × Option N))) (os : List (Ctx V (Option N × Option N))) (t : T) (w : W)
    (h : ∀ k, nthCallE (streamNextE padv pget) k t = .ok os[k]?) (r : Ending W) :
    (∃ fuel k, inWhile keep fuel (lookPost body) k (enc t) w = some r) ↔ r = endingOf (forList body os w) := by
  obtain ⟨fuel, k, hk⟩ : ∃ fuel k, inWhile keep fuel (lookPost body) k (enc t) w = some (endingOf (forList body os w)) := by
    refine while_plain (fun t s => s = enc t) (fun s w e => ∃ fuel k, inWhile keep fuel (lookPost body) k s w = some e)
      (streamNextE padv pget) body ?_ ?_ ?_ os t _ w rfl (fun k _ => h k)
    · rintro t t' s w rfl h
      obtain ⟨fuel, hf⟩ := hadv t w
      refine ⟨fuel, 1, ?_⟩
      rw [inWhile, hf]
      cases ha : padv t with
      | error e => simp [streamNextE, ha] at h
      | ok t1 =>
        simp only [streamNextE, ha, Except.ok.injEq, Prod.mk.injEq, hget] at h
        obtain ⟨h, rfl⟩ := h
        by_cases he : (enc t1).ancestors.isEmpty
        · simp only [Except.map, inConclude, he, if_true]
        · simp [he] at h
    · rintro t t' s w o w1 rfl h hb
      obtain ⟨fuel, hf⟩ := hadv t w
      refine ⟨fuel, 1, ?_⟩
      rw [inWhile, hf]
      cases ha : padv t with
      | error e => simp [streamNextE, ha] at h
      | ok t1 =>
        simp only [streamNextE, ha, Except.ok.injEq, Prod.mk.injEq, hget] at h
        obtain ⟨h, rfl⟩ := h
        by_cases he : (enc t1).ancestors.isEmpty
        · simp [he] at h
        · simp only [he, Bool.false_eq_true, if_false, Option.some.injEq] at h
          subst h
          simp only [Except.map, inConclude, he, Bool.false_eq_true, if_false, lookPost, hb]
    · rintro t t' s w o w1 e rfl h hb hgo
      obtain ⟨f1, hf⟩ := hadv t w
      obtain ⟨f2, k, hk⟩ := hgo _ rfl
      refine ⟨max f1 f2, k + 1, ?_⟩
      rw [inWhile, inCtxAdvance_le (Nat.le_max_left f1 f2) _ _ _ hf]
      cases ha : padv t with
      | error e => simp [streamNextE, ha] at h
      | ok t1 =>
        simp only [streamNextE, ha, Except.ok.injEq, Prod.mk.injEq, hget] at h
        obtain ⟨h, rfl⟩ := h
        by_cases he : (enc t1).ancestors.isEmpty
        · simp [he] at h
        · simp only [he, Bool.false_eq_true, if_false, Option.some.injEq] at h
          subst h
          simp only [Except.map, inConclude, he, Bool.false_eq_true, if_false, lookPost, hb, List.reverse_reverse]
          exact inWhile_le (Nat.le_max_right f1 f2) (Nat.le_refl k) hk
  exact ⟨fun ⟨_, _, h⟩ => inWhile_unique h hk, fun h => ⟨fuel, k, h ▸ hk⟩⟩

section Binary
variable [BinNode N V]
attribute [local instance] plainBin

/-- The state of the model of `Inorder.ctxAdvance`. -/
def encIn (t : Inorder.CtxState N V) : InCtx N V := ⟨t.right, t.into, t.path, t.ancestors, t.status, t.children⟩

/-- The state of the model of `Inorder.ownAdvance`. -/
def encInOwn (t : Inorder.OwnCtxState N V) : InCtx N V := ⟨t.right, [], t.path, t.ancestors, t.status, none⟩

/-- The first loop with what is shown. -/
def inFound (keep : Bool) : InFound N V → Except Panic (InCtx N V ⊕ (N × InCtx N V))
  | .over s => .ok (.inl s)
  | .back s => (inCtxTake keep s).map .inl
  | .node n s => .ok (.inr (n, s))

omit [BinNode N V] in
theorem inCtxFind_In (ch : Option (Option N × Option N)) (st : List Status) (anc : List V) (path : List Nat)
    (right : List (Option N)) (into : List (Option N × Option N)) :
    inFound true (inCtxFind into ch st path anc right) =
      (Inorder.ctxFind ch st anc path right into).map (Sum.map encIn (Prod.map id encIn)) := by
  fun_induction Inorder.ctxFind ch st anc path right into <;> rw [inCtxFind] <;> first
    | rfl
    | assumption

omit [BinNode N V] in
theorem inCtxFind_InOwn (st : List Status) (anc : List V) (path : List Nat) (right : List (Option N)) :
    inFound false (inCtxFind [] none st path anc right) =
      .ok (Sum.map encInOwn (Prod.map id encInOwn) (Inorder.ownFind st anc path right)) := by
  fun_induction Inorder.ownFind st anc path right <;> rw [inCtxFind] <;> first
    | rfl
    | assumption

theorem inCtxDescend_In (cur : Option N) (t : Inorder.CtxState N V) (w : W) : ∃ fuel,
    inCtxDescend true fuel cur (encIn t) w = some (encIn (Inorder.ctxDescend cur t), w) := by
  fun_induction Inorder.ctxDescend cur t with
  | case1 t => exact ⟨1, rfl⟩
  | case2 n t ih =>
    obtain ⟨fuel, h⟩ := ih
    refine ⟨fuel + 1, ?_⟩
    rw [← h]
    obtain ⟨right, path, anc, ch, into, st⟩ := t
    rcases st with _ | ⟨_ | _ | _, st⟩ <;> rfl

theorem inCtxDescend_InOwn (cur : Option N) (t : Inorder.OwnCtxState N V) (w : W) : ∃ fuel,
    inCtxDescend false fuel cur (encInOwn t) w = some (encInOwn (Inorder.ownDescend cur t), w) := by
  fun_induction Inorder.ownDescend cur t with
  | case1 t => exact ⟨1, rfl⟩
  | case2 n t ih =>
    obtain ⟨fuel, h⟩ := ih
    refine ⟨fuel + 1, ?_⟩
    rw [← h]
    obtain ⟨right, path, anc, st⟩ := t
    rcases st with _ | ⟨_ | _ | _, st⟩ <;> rfl

theorem inCtxAdvance_In (t : Inorder.CtxState N V) (w : W) : ∃ fuel,
    inCtxAdvance true fuel (encIn t) w = some ((Inorder.ctxAdvance t).map fun t => (encIn t, w)) := by
  have hf := inCtxFind_In t.children t.status t.ancestors t.path t.right t.into
  rcases hc : Inorder.ctxFind t.children t.status t.ancestors t.path t.right t.into with e | s' | ⟨n, s'⟩ <;>
    rw [hc] at hf <;> cases hi : inCtxFind t.into t.children t.status t.path t.ancestors t.right <;>
    simp only [hi, inFound, Except.map, Sum.map] at hf
  all_goals first
    | (cases hf; done)
    | skip
  · refine ⟨0, ?_⟩
    simp only [inCtxAdvance, encIn, hi, Inorder.ctxAdvance, hc, inCtxShow]
    split at hf <;> cases hf
    rename_i hh
    simp only [hh, Except.map]
  · refine ⟨0, ?_⟩
    simp only [inCtxAdvance, encIn, hi, Inorder.ctxAdvance, hc]
    cases hf
    rfl
  · refine ⟨0, ?_⟩
    simp only [inCtxAdvance, encIn, hi, Inorder.ctxAdvance, hc, inCtxShow]
    split at hf <;> cases hf
    rename_i hh
    simp only [hh, Except.map, encIn]
  · split at hf <;> cases hf
  · cases hf
    obtain ⟨fuel, h⟩ := inCtxDescend_In (some n) s' w
    refine ⟨fuel, ?_⟩
    simp only [inCtxAdvance, encIn] at h ⊢
    simp only [hi, id, Inorder.ctxAdvance, hc, encIn, h, inCtxFinish]
    rcases Inorder.ctxDescend (some n) s' with ⟨right, path, anc, ch, _ | ⟨c, into⟩, _ | ⟨s0, ss⟩⟩ <;> rfl

theorem inCtxAdvance_InOwn (t : Inorder.OwnCtxState N V) (w : W) : ∃ fuel,
    inCtxAdvance false fuel (encInOwn t) w = some ((Inorder.ownAdvance t).map fun t => (encInOwn t, w)) := by
  have hf := inCtxFind_InOwn t.status t.ancestors t.path t.right
  rcases hc : Inorder.ownFind t.status t.ancestors t.path t.right with s' | ⟨n, s'⟩ <;>
    rw [hc] at hf <;> cases hi : inCtxFind [] none t.status t.path t.ancestors t.right <;>
    simp only [hi, inFound, Except.map, Sum.map, inCtxTake, Bool.false_eq_true, if_false] at hf
  all_goals first
    | (cases hf; done)
    | skip
  · refine ⟨0, ?_⟩
    simp only [inCtxAdvance, encInOwn, hi, Inorder.ownAdvance, hc]
    cases hf
    rfl
  · refine ⟨0, ?_⟩
    simp only [inCtxAdvance, encInOwn, hi, Inorder.ownAdvance, hc, inCtxShow, inCtxTake, Bool.false_eq_true, if_false]
    rw [Sum.inl.inj (Except.ok.inj hf)]
    rfl
  · cases hf
    obtain ⟨fuel, h⟩ := inCtxDescend_InOwn (some n) s' w
    refine ⟨fuel, ?_⟩
    simp only [inCtxAdvance, encInOwn] at h ⊢
    simp only [hi, id, Inorder.ownAdvance, hc, encInOwn, h, inCtxFinish]
    rcases Inorder.ownDescend (some n) s' with ⟨right, path, anc, _ | ⟨s0, ss⟩⟩ <;> rfl

end Binary

end Shared

end TreeIter
