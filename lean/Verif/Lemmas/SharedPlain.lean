import Verif.Spec.SharedPlain
import Verif.Lemmas.SharedColl
import Verif.Model.Postorder
import Verif.Model.Leaves

/-!
# Nodes that share no state: helper lemmas
-/

universe u v w x y z

namespace TreeIter

namespace Shared

variable {W : Type x} {N : Type u} {V : Type v} {S : Type y} {T : Type z} {O : Type v}

/-- What a loop gives does not depend on the bounds. -/
theorem forLoop_unique {next : Nat → S → W → Option (Option O × S × W)} {body : Body W O}
    (hm : ∀ f s w r, next f s w = some r → next (f + 1) s w = some r) {f1 f2 k1 k2 : Nat} {s : S} {w : W} {r1 r2 : Bool × W}
    (h1 : forLoop (next f1) body k1 s w = some r1) (h2 : forLoop (next f2) body k2 s w = some r2) : r1 = r2 := by
  have e1 := forLoop_le (Nat.le_max_left k1 k2) (forLoop_mono (fuel_le hm (Nat.le_max_left f1 f2)) _ _ _ _ h1)
  have e2 := forLoop_le (Nat.le_max_right k1 k2) (forLoop_mono (fuel_le hm (Nat.le_max_right f1 f2)) _ _ _ _ h2)
  exact Option.some.inj (e1.symm.trans e2)

/-- If the calls of `next` do what those of an iterator over plain nodes do, the loop goes through the outputs of that. -/
theorem forLoop_plain {next : Nat → S → W → Option (Option O × S × W)} {pnext : T → Option O × T} (R : T → S → Prop)
    (hm : ∀ f s w r, next f s w = some r → next (f + 1) s w = some r)
    (hstep : ∀ t s w, R t s → ∃ fuel s', next fuel s w = some ((pnext t).1, s', w) ∧ R (pnext t).2 s') (body : Body W O)
    (spec : List O) : ∀ t s w, R t s → (∀ k, nthCall pnext k t = spec[k]?) →
      ∃ fuel k, forLoop (next fuel) body k s w = some (forList body spec w) := by
  induction spec with
  | nil =>
    intro t s w hR hs
    obtain ⟨fuel, s', h1, _⟩ := hstep t s w hR
    have h0 : (pnext t).1 = none := hs 0
    refine ⟨fuel, 1, ?_⟩
    rw [forLoop, h1, h0]
    rfl
  | cons o os ih =>
    intro t s w hR hs
    obtain ⟨fuel, s', h1, h2⟩ := hstep t s w hR
    have h0 : (pnext t).1 = some o := hs 0
    rw [h0] at h1
    rcases hb : body o w with ⟨_ | _, w1⟩
    · refine ⟨fuel, 1, ?_⟩
      rw [forLoop, h1]
      simp [conclude, forList, hb]
    · obtain ⟨f2, k, hk⟩ := ih (pnext t).2 s' w1 h2 fun k => hs (k + 1)
      refine ⟨max fuel f2, k + 1, ?_⟩
      rw [forLoop, fuel_le hm (Nat.le_max_left fuel f2) _ _ _ h1]
      simp only [conclude, forList, hb]
      exact forLoop_mono (fuel_le hm (Nat.le_max_right fuel f2)) _ _ _ _ hk

theorem forLoop_plain_iff {next : Nat → S → W → Option (Option O × S × W)} {pnext : T → Option O × T} (R : T → S → Prop)
    (hm : ∀ f s w r, next f s w = some r → next (f + 1) s w = some r)
    (hstep : ∀ t s w, R t s → ∃ fuel s', next fuel s w = some ((pnext t).1, s', w) ∧ R (pnext t).2 s') (body : Body W O)
    {spec : List O} {t : T} {s : S} {w w' : W} {b : Bool} (hR : R t s) (hs : ∀ k, nthCall pnext k t = spec[k]?) :
    (∃ fuel k, forLoop (next fuel) body k s w = some (b, w')) ↔ forList body spec w = (b, w') := by
  obtain ⟨fuel, k, hk⟩ := forLoop_plain R hm hstep body spec t s w hR hs
  constructor
  · rintro ⟨f, k', h⟩
    exact forLoop_unique hm hk h
  · intro h
    exact ⟨fuel, k, h ▸ hk⟩

section General
variable [TreeNode N V]
attribute [local instance] plainNode

@[local simp] theorem splitW_plain (n : N) (w : W) : splitW n w = (val n, kids n, w) := rfl

@[local simp] theorem pollW_plain (i : List N) (w : W) : pollW (N := N) i w = (i.head?, i.tail, w) := rfl

theorem preLoop_plain (st : List (List N)) (w : W) :
    preLoop (N := N) st w = ((Preorder.loop st).1, (Preorder.loop st).2, w) := by
  induction st with
  | nil => rfl
  | cons i rest ih =>
    cases i with
    | nil => simpa [preLoop, Preorder.loop] using ih
    | cons n ns => simp [preLoop, Preorder.loop]

theorem preNext_plain (t : Preorder.State N) (w : W) :
    preNext (⟨t.root, t.stack⟩ : Pre N (List N)) w =
      some ((Preorder.next t).1, ⟨(Preorder.next t).2.root, (Preorder.next t).2.stack⟩, w) := by
  cases hr : t.root with
  | some r => simp [preNext, Preorder.next, hr]
  | none =>
    rcases hl : Preorder.loop t.stack with ⟨_ | n, st⟩ <;> simp [preNext, Preorder.next, hr, preLoop_plain, hl]

theorem preAncLoop_plain (st : List (List N)) : ∀ (it : List V) (w : W),
    preAncLoop (N := N) st it w =
      ((Preorder.ancLoop st it).1, (Preorder.ancLoop st it).2.1, (Preorder.ancLoop st it).2.2, w) := by
  induction st with
  | nil => intro it w; rfl
  | cons i rest ih =>
    intro it w
    cases i with
    | nil => simpa [preAncLoop, Preorder.ancLoop] using ih it.tail w
    | cons n ns => simp [preAncLoop, Preorder.ancLoop]

theorem preAncNext_plain (t : Preorder.AncState N V) (w : W) :
    preAncNext (⟨t.root, t.stack, t.items⟩ : PreAnc N V (List N)) w =
      some ((Preorder.ancNext t).1, ⟨(Preorder.ancNext t).2.root, (Preorder.ancNext t).2.stack, (Preorder.ancNext t).2.items⟩,
        w) := by
  cases hr : t.root with
  | some r =>
    simp [preAncNext, preAncAdvance, Preorder.ancNext, streamNext, Preorder.ancAdvance, Preorder.ancGet, hr]
  | none =>
    rcases hl : Preorder.ancLoop t.stack t.items with ⟨_ | n, st, it⟩ <;>
      simp [preAncNext, preAncAdvance, Preorder.ancNext, streamNext, Preorder.ancAdvance, Preorder.ancGet, hr,
        preAncLoop_plain, hl]

theorem postLoop_plain (st : List (List N)) (items : List V) (w : W) : ∃ fuel,
    postLoop (N := N) fuel st items w = some ((Postorder.loop st items).1,
      ⟨none, (Postorder.loop st items).2.1, (Postorder.loop st items).2.2⟩, w) := by
  induction st, items using Postorder.loop.induct with
  | case1 items => exact ⟨1, by rw [Postorder.loop]; rfl⟩
  | case2 items rest => exact ⟨1, by rw [Postorder.loop]; rfl⟩
  | case3 items n ns rest ih =>
    obtain ⟨fuel, h⟩ := ih
    exact ⟨fuel + 1, by rw [Postorder.loop, ← h]; rfl⟩

theorem postNext_plain (t : Postorder.State N V) (w : W) : ∃ fuel,
    postNext fuel (⟨t.root, t.items, t.stack⟩ : Post N V (List N)) w = some ((Postorder.next t).1,
      ⟨(Postorder.next t).2.root, (Postorder.next t).2.items, (Postorder.next t).2.stack⟩, w) := by
  cases hr : t.root with
  | some r =>
    obtain ⟨fuel, h⟩ := postLoop_plain (kids r :: t.stack) (val r :: t.items) w
    refine ⟨fuel, ?_⟩
    simp only [postNext, Postorder.next, hr]
    exact h
  | none =>
    obtain ⟨fuel, h⟩ := postLoop_plain t.stack t.items w
    refine ⟨fuel, ?_⟩
    simp only [postNext, Postorder.next, hr]
    exact h

theorem postAncLoop_plain (st : List (List N)) (items : List V) (w : W) : ∃ fuel,
    postAncLoop (N := N) fuel st items w = some
      (⟨none, (Postorder.ancLoop st items).1, (Postorder.ancLoop st items).2⟩, w) := by
  induction st, items using Postorder.ancLoop.induct with
  | case1 items => exact ⟨1, by rw [Postorder.ancLoop]; rfl⟩
  | case2 items rest => exact ⟨1, by rw [Postorder.ancLoop]; rfl⟩
  | case3 items n ns rest ih =>
    obtain ⟨fuel, h⟩ := ih
    exact ⟨fuel + 1, by rw [Postorder.ancLoop, ← h]; rfl⟩

theorem postAncNext_plain (t : Postorder.AncState N V) (w : W) : ∃ fuel,
    postAncNext fuel (⟨t.root, t.items, t.stack⟩ : Post N V (List N)) w = some ((Postorder.ancNext t).1,
      ⟨(Postorder.ancNext t).2.root, (Postorder.ancNext t).2.items, (Postorder.ancNext t).2.stack⟩, w) := by
  cases hr : t.root with
  | some r =>
    obtain ⟨fuel, h⟩ := postAncLoop_plain (kids r :: t.stack) (val r :: t.items) w
    refine ⟨fuel, ?_⟩
    simp only [postAncNext, postAncAdvance, Postorder.ancNext, streamNext, Postorder.ancAdvance, Postorder.ancGet, hr,
      splitW_plain, h]
  | none =>
    obtain ⟨fuel, h⟩ := postAncLoop_plain t.stack t.items.tail w
    refine ⟨fuel, ?_⟩
    simp only [postAncNext, postAncAdvance, Postorder.ancNext, streamNext, Postorder.ancAdvance, Postorder.ancGet, hr, h]

theorem leavesLoop_plain (bottom top : List (List N)) (items : List V) (just : Bool) (w : W) : ∃ fuel,
    leavesLoop (N := N) fuel bottom top items just w = some ((Leaves.loop bottom top items just).1,
      ⟨(Leaves.loop bottom top items just).2.root, (Leaves.loop bottom top items just).2.bottom,
        (Leaves.loop bottom top items just).2.top, (Leaves.loop bottom top items just).2.items⟩, w) := by
  induction bottom, top, items, just using Leaves.loop.induct with
  | case1 bottom n ns top items just ih =>
    obtain ⟨fuel, h⟩ := ih
    exact ⟨fuel + 1, by rw [Leaves.loop, ← h]; rfl⟩
  | case2 bottom top items => exact ⟨1, by rw [Leaves.loop]; rfl⟩
  | case3 bottom top items ih =>
    obtain ⟨fuel, h⟩ := ih
    exact ⟨fuel + 1, by rw [Leaves.loop, ← h]; rfl⟩
  | case4 n ns bottom items just ih =>
    obtain ⟨fuel, h⟩ := ih
    exact ⟨fuel + 1, by rw [Leaves.loop, ← h]; rfl⟩
  | case5 bottom items just ih =>
    obtain ⟨fuel, h⟩ := ih
    exact ⟨fuel + 1, by rw [Leaves.loop, ← h]; rfl⟩
  | case6 items just => exact ⟨1, by rw [Leaves.loop]; rfl⟩

theorem leavesNext_plain (t : Leaves.State N V) (w : W) : ∃ fuel,
    leavesNext fuel (⟨t.root, t.bottom, t.top, t.items⟩ : Lv N V (List N)) w = some ((Leaves.next t).1,
      ⟨(Leaves.next t).2.root, (Leaves.next t).2.bottom, (Leaves.next t).2.top, (Leaves.next t).2.items⟩, w) := by
  cases hr : t.root with
  | some r =>
    obtain ⟨fuel, h⟩ := leavesLoop_plain t.bottom (kids r :: t.top) (val r :: t.items) true w
    refine ⟨fuel, ?_⟩
    simp only [leavesNext, Leaves.next, hr]
    exact h
  | none =>
    obtain ⟨fuel, h⟩ := leavesLoop_plain t.bottom t.top t.items false w
    refine ⟨fuel, ?_⟩
    simp only [leavesNext, Leaves.next, hr]
    exact h

theorem bfsLoop_plain (q : List (List N)) (w : W) :
    bfsLoop (N := N) q w = some ((Bfs.loop q).1, ⟨(Bfs.loop q).2.root, (Bfs.loop q).2.queue⟩, w) := by
  induction q with
  | nil => rfl
  | cons i rest ih =>
    cases i with
    | nil => simpa [bfsLoop, Bfs.loop] using ih
    | cons n ns => simp [bfsLoop, Bfs.loop]

theorem bfsNext_plain (t : Bfs.State N) (w : W) :
    bfsNext (⟨t.root, t.queue⟩ : Wide N (List N)) w =
      some ((Bfs.next t).1, ⟨(Bfs.next t).2.root, (Bfs.next t).2.queue⟩, w) := by
  cases hr : t.root with
  | some r => simp [bfsNext, Bfs.next, hr]
  | none => simp [bfsNext, Bfs.next, hr, bfsLoop_plain]

/-- What a `Peekable` has yet to give. -/
def Peeked.left (p : Peeked N (List N)) : List N :=
  match p.ahead with
  | none => p.iter
  | some none => []
  | some (some n) => n :: p.iter

theorem Peeked.next_plain (p : Peeked N (List N)) (w : W) : ∃ q : Peeked N (List N),
    p.next w = (p.left.head?, q, w) ∧ (p.left ≠ [] → q.left = p.left.tail) := by
  obtain ⟨_ | _ | n, i⟩ := p
  · exact ⟨_, rfl, fun _ => rfl⟩
  · exact ⟨_, rfl, fun h => absurd rfl h⟩
  · exact ⟨_, rfl, fun _ => rfl⟩

theorem openPeek_plain (n : N) (w : W) : ∃ q : Peeked N (List N),
    openPeek n w = (val n, q, w) ∧ q.left = kids n ∧ q.ahead.join.isSome = !(kids n).isEmpty := by
  cases hk : kids n with
  | nil => exact ⟨⟨some none, []⟩, by simp [openPeek, hk], rfl, rfl⟩
  | cons c cs => exact ⟨⟨some (some c), cs⟩, by simp [openPeek, hk], rfl, rfl⟩

/-- The states of the two models of the breadth-first leaves. -/
def SameLv (t : Bfs.LeavesState N) (s : WideLv N (List N)) : Prop :=
  s.root = t.root ∧ t.old = [] ∧ s.queue.map Peeked.left = t.new

theorem wideLvLoop_plain (q : List (Peeked N (List N))) (w : W) : ∃ s',
    wideLvLoop (N := N) q w = ((Bfs.leavesLoopNew (q.map Peeked.left)).1, s', w) ∧
      SameLv (Bfs.leavesLoopNew (q.map Peeked.left)).2 s' := by
  induction q with
  | nil => exact ⟨_, rfl, rfl, rfl, rfl⟩
  | cons p rest ih =>
    obtain ⟨p', h1, h2⟩ := Peeked.next_plain (W := W) p w
    rw [wideLvLoop, h1, List.map_cons]
    cases hl : p.left with
    | nil => exact ih
    | cons n ns =>
      rw [hl] at h2
      obtain ⟨q', h3, h4, h5⟩ := openPeek_plain (W := W) n w
      refine ⟨⟨none, (p' :: rest) ++ [q']⟩, ?_, rfl, rfl, ?_⟩
      · simp only [List.head?_cons, h3, h5, Bfs.leavesLoopNew]
      · simp [Bfs.leavesLoopNew, h4, h2]

theorem wideLvStep_plain {t : Bfs.LeavesState N} {s : WideLv N (List N)} (h : SameLv t s) (w : W) : ∃ s',
    wideLvStep s w = ((Bfs.leavesBfsNext t).1, s', w) ∧ SameLv (Bfs.leavesBfsNext t).2 s' := by
  obtain ⟨root, old, new⟩ := t
  obtain ⟨root', queue⟩ := s
  obtain ⟨rfl, rfl, rfl⟩ := h
  cases root' with
  | none => exact wideLvLoop_plain queue w
  | some r =>
    obtain ⟨q', h3, h4, h5⟩ := openPeek_plain (W := W) r w
    refine ⟨⟨none, queue ++ [q']⟩, ?_, rfl, rfl, ?_⟩
    · simp only [wideLvStep, Bfs.leavesBfsNext, h3, h5]
    · simp [Bfs.leavesBfsNext, h4]

theorem wideLvNext_plain (t : Bfs.LeavesState N) : ∀ (s : WideLv N (List N)) (w : W), SameLv t s → ∃ fuel s',
    wideLvNext fuel s w = some ((Bfs.leavesNext t).1, s', w) ∧ SameLv (Bfs.leavesNext t).2 s' := by
  induction t using Bfs.leavesNext.induct with
  | case1 t t' ht =>
    intro s w h
    obtain ⟨s', h1, h2⟩ := wideLvStep_plain h w
    rw [ht] at h1 h2
    refine ⟨1, s', ?_, ?_⟩ <;> rw [Bfs.leavesNext.eq_def] <;> split <;> simp_all [wideLvNext]
  | case2 t v t' ht ih =>
    intro s w h
    obtain ⟨s', h1, h2⟩ := wideLvStep_plain h w
    rw [ht] at h1 h2
    obtain ⟨fuel, s'', h3, h4⟩ := ih s' w h2
    refine ⟨fuel + 1, s'', ?_, ?_⟩ <;> rw [Bfs.leavesNext.eq_def] <;> split <;> simp_all [wideLvNext]
  | case3 t v t' ht =>
    intro s w h
    obtain ⟨s', h1, h2⟩ := wideLvStep_plain h w
    rw [ht] at h1 h2
    refine ⟨1, s', ?_, ?_⟩ <;> rw [Bfs.leavesNext.eq_def] <;> split <;> simp_all [wideLvNext]

end General

section Binary
variable [BinNode N V]
attribute [local instance] plainBin

theorem inDescend_plain (cur : Option N) (right : List (Option N)) (items : List V) (w : W) : ∃ fuel,
    inDescend fuel cur right items w =
      some ((Inorder.descend cur right items).1, (Inorder.descend cur right items).2, w) := by
  induction cur, right, items using Inorder.descend.induct with
  | case1 right items => exact ⟨1, by rw [Inorder.descend]; rfl⟩
  | case2 n right items ih =>
    obtain ⟨fuel, h⟩ := ih
    exact ⟨fuel + 1, by rw [Inorder.descend, ← h]; rfl⟩

theorem inNext_plain (t : Inorder.State N V) (w : W) : ∃ fuel,
    inNext fuel t w = some ((Inorder.next t).1, (Inorder.next t).2, w) := by
  rcases hf : Inorder.find t.items t.right with ⟨_ | cur, right⟩
  · exact ⟨0, by simp only [inNext, Inorder.next, hf]⟩
  · obtain ⟨fuel, h⟩ := inDescend_plain cur right t.items w
    exact ⟨fuel, by simp only [inNext, Inorder.next, hf, h]⟩

end Binary

end Shared

end TreeIter
