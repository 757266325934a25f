import Verif.Model.CacheDrops
import Verif.Lemmas.Handles
import Verif.Lemmas.BfsCtx

/-! # Lemmas about the values in the breadth-first caches -/

universe u v w

namespace TreeIter

namespace Bfs

open Handles

/-- The last output of a run is what `get` shows afterwards. -/
theorem runE_last {N : Type u} {S : Type v} {O : Type w} {advance : S → Except Panic (List (Event N) × S)} {get : S → Option O}
    (k : Nat) (s s' : S) (es : List (Event N)) (os : List (Option O))
    (h : runE advance get (k + 1) s = .ok (es, os, s')) : os.getLast? = some (get s') := by
  induction k generalizing s es os with
  | zero =>
    simp only [runE] at h
    split at h
    · simp at h
    · simp only [Except.ok.injEq, Prod.mk.injEq] at h
      obtain ⟨-, rfl, rfl⟩ := h
      rfl
  | succ k ih =>
    rw [runE] at h
    split at h
    · simp at h
    · split at h
      · simp at h
      · rename_i es1 os1 s1 hr
        simp only [Except.ok.injEq, Prod.mk.injEq] at h
        obtain ⟨-, rfl, rfl⟩ := h
        have := ih _ _ _ hr
        cases os1 with
        | nil => simp at this
        | cons o os1 => simpa [List.getLast?_cons_cons] using this

section Cache
variable {β γ : Type w}

theorem valsL_append (a b : List (Option (Cache β))) : Cache.valsL (a ++ b) = Cache.valsL a ++ Cache.valsL b := by
  induction a with
  | nil => simp [Cache.valsL]
  | cons c cs ih => simp [Cache.valsL, ih]

theorem valsL_nil : Cache.valsL ([] : List (Option (Cache β))) = [] := by simp [Cache.valsL]

theorem valsL_none (a : List (Option (Cache β))) : Cache.valsL (none :: a) = Cache.valsL a := by
  simp [Cache.valsL, Cache.valsO]

theorem valsL_some (c : Cache β) (a : List (Option (Cache β))) :
    Cache.valsL (some c :: a) = c.value.toList ++ Cache.valsL c.children ++ Cache.valsL a := by
  obtain ⟨v, cs⟩ := c
  simp [Cache.valsL, Cache.valsO, Cache.vals, Cache.value, Cache.children]

theorem value_mk (v : Option β) (cs : List (Option (Cache β))) : (Cache.mk v cs).value = v := rfl

theorem children_mk (v : Option β) (cs : List (Option (Cache β))) : (Cache.mk v cs).children = cs := rfl

theorem vals_eq (c : Cache β) : c.vals = c.value.toList ++ Cache.valsL c.children := by
  obtain ⟨v, cs⟩ := c
  simp [Cache.vals, Cache.value, Cache.children]

/-- The nodes on the traversal stack hold no value of their own. -/
def NoValue (s : CacheState β) : Prop := ∀ t ∈ s.stack, t.value = none

/-- All values held by a state. -/
def CacheState.live (s : CacheState β) : List β := s.items ++ s.kept

theorem setTop_noValue (s : CacheState β) (cs : List (Option (Cache β))) (h : NoValue s) : NoValue (s.setTop cs) := by
  obtain ⟨items, stack, cache⟩ := s
  cases stack with
  | nil => simp [NoValue, CacheState.setTop]
  | cons t st =>
    simp only [NoValue, CacheState.setTop, List.mem_cons, forall_eq_or_imp] at h ⊢
    exact ⟨h.1, h.2⟩

theorem setTop_live (s : CacheState β) (cs : List (Option (Cache β))) :
    ((s.setTop cs).live ++ Cache.valsL s.topChildren).Perm (s.live ++ Cache.valsL cs) := by
  classical
  obtain ⟨items, stack, cache⟩ := s
  rw [List.perm_iff_count]
  intro a
  cases stack with
  | nil =>
    simp only [CacheState.setTop, CacheState.live, CacheState.kept, CacheState.topChildren, List.flatMap_nil, vals_eq,
      Cache.setChildren, Cache.value, Cache.children, List.count_append]
    omega
  | cons t st =>
    simp only [CacheState.setTop, CacheState.live, CacheState.kept, CacheState.topChildren, List.flatMap_cons, vals_eq,
      Cache.setChildren, Cache.value, Cache.children, List.count_append]
    omega

theorem moveUp_live (s s' : CacheState β) (hn : NoValue s) (h : s.moveUp = .ok s') :
    s'.live.Perm s.live ∧ NoValue s' := by
  classical
  obtain ⟨items, stack, cache⟩ := s
  rw [List.perm_iff_count]
  rcases items with _ | ⟨x, _ | ⟨y, items⟩⟩ <;> rcases stack with _ | ⟨t, _ | ⟨t', stack⟩⟩ <;>
    simp only [CacheState.moveUp, Except.ok.injEq, reduceCtorEq] at h <;> subst h <;>
    refine ⟨fun a => ?_, ?_⟩ <;>
    simp_all [NoValue, CacheState.live, CacheState.kept, vals_eq, Cache.pushBack, value_mk, children_mk, valsL_append,
      valsL_some, valsL_nil, List.count_cons] <;> omega

theorem advanceDfs_live (start fuel : Nat) (s s' : CacheState β) (hn : NoValue s)
    (h : s.advanceDfs start fuel = .ok s') : s'.live.Perm s.live ∧ NoValue s' := by
  classical
  induction fuel generalizing s with
  | zero => simp [CacheState.advanceDfs] at h
  | succ fuel ih =>
    rw [CacheState.advanceDfs] at h
    split at h
    · obtain rfl : s = s' := by simpa using h
      exact ⟨.refl _, hn⟩
    · rename_i c rest ht
      split at h
      · simp at h
      · rename_i v hv
        have hp : CacheState.live (⟨v :: (s.setTop rest).items, .mk none c.children :: (s.setTop rest).stack,
            (s.setTop rest).cache⟩ : CacheState β) |>.Perm s.live := by
          have h1 := setTop_live s rest
          rw [List.perm_iff_count] at h1 ⊢
          intro a
          have h2 := h1 a
          rw [ht, valsL_some, hv] at h2
          simp only [CacheState.live, CacheState.kept, List.flatMap_cons, vals_eq, Cache.value, Cache.children,
            List.count_append, List.count_cons, Option.toList_some, Option.toList_none, List.count_nil] at h2 ⊢
          omega
        have hn' : NoValue (⟨v :: (s.setTop rest).items, .mk none c.children :: (s.setTop rest).stack,
            (s.setTop rest).cache⟩ : CacheState β) := by
          have := setTop_noValue s rest hn
          intro t ht
          rcases List.mem_cons.1 ht with rfl | ht
          · rfl
          · exact this t ht
        simp only at h
        split at h
        · obtain rfl := Except.ok.inj h
          exact ⟨hp, hn'⟩
        · obtain ⟨h1, h2⟩ := ih _ hn' h
          exact ⟨h1.trans hp, h2⟩
    · rename_i rest ht
      split at h
      · simp at h
      · rename_i s1 hm
        obtain ⟨h1, h2⟩ := moveUp_live _ _ (setTop_noValue s _ hn) hm
        obtain ⟨h3, h4⟩ := ih _ h2 h
        refine ⟨h3.trans (h1.trans ?_), h4⟩
        have h5 := setTop_live s (if rest.isEmpty then [] else rest ++ [none])
        rw [List.perm_iff_count] at h5 ⊢
        intro a
        have h6 := h5 a
        rw [ht, valsL_none] at h6
        have h7 : Cache.valsL (if rest.isEmpty then [] else rest ++ [none]) = Cache.valsL rest := by
          cases rest with
          | nil => rfl
          | cons c cs => simp [valsL_append, Cache.valsL, Cache.valsO]
        rw [h7, List.count_append, List.count_append] at h6
        omega

theorem flatMap_modify_count [BEq β] (l : List (Cache β)) (i : Nat) (hi : i < l.length) (c : Cache β) (a : β) :
    ((l.modify i (·.pushBack (some c))).flatMap Cache.vals).count a =
      (l.flatMap Cache.vals).count a + c.vals.count a := by
  induction l generalizing i with
  | nil => simp at hi
  | cons t l ih =>
    cases i with
    | zero =>
      simp only [List.modify_zero_cons, List.flatMap_cons, List.count_append, vals_eq, Cache.pushBack, Cache.value,
        Cache.children, valsL_append, valsL_some, valsL_nil, List.count_nil]
      omega
    | succ i =>
      simp only [List.modify_succ_cons, List.flatMap_cons, List.count_append, ih i (by simpa using hi)]
      omega

theorem popItem_live (s s' : CacheState β) (h : s.popItem = .ok s') : s'.live.Perm s.live := by
  classical
  obtain ⟨items, stack, cache⟩ := s
  rw [List.perm_iff_count]
  intro a
  rcases items with _ | ⟨x, _ | ⟨y, items⟩⟩
  · simp [CacheState.popItem] at h
  · obtain rfl := Except.ok.inj h
    rfl
  · simp only [CacheState.popItem] at h
    split at h
    · rename_i hi
      obtain rfl : items = [] := by simpa using hi
      obtain rfl := Except.ok.inj h
      simp only [CacheState.live, CacheState.kept, vals_eq, Cache.pushBack, Cache.value, Cache.children, valsL_append,
        valsL_some, valsL_nil, List.count_append, List.count_cons, List.count_nil, Option.toList_some]
      omega
    · split at h
      · rename_i hk
        obtain rfl := Except.ok.inj h
        simp only [CacheState.live, CacheState.kept, List.count_append, List.count_cons]
        rw [flatMap_modify_count _ _ (by omega)]
        simp only [Cache.vals, Cache.valsL, List.append_nil, Option.toList_some, List.count_cons, List.count_nil]
        omega
      · simp at h

theorem settle_live (s s' : CacheState β) (h : settle s = .ok s') : s'.live.Perm s.live := by
  rw [settle] at h
  split at h
  · exact popItem_live s s' h
  · obtain rfl := Except.ok.inj h
    rfl

theorem Zip.noValue (z : Zip β) : NoValue z.enc := by
  cases z with
  | root v ys => simp [NoValue, Zip.enc]
  | deep v ys fs r =>
    intro t ht
    simp only [Zip.enc, List.mem_cons, List.mem_map] at ht
    rcases ht with rfl | ⟨f, _, rfl⟩ <;> rfl

/-- Popped frames hold no value, so that what is popped is what was on the stack of values. -/
theorem dropSpent_live (fs : List (Frame β)) (items : List β) (c : Cache β) (h : fs.length < items.length) :
    (spent (fs.map Frame.enc) items ++
      (⟨(CacheState.dropSpent (fs.map Frame.enc) items).2, (CacheState.dropSpent (fs.map Frame.enc) items).1, c⟩ :
        CacheState β).live).Perm (⟨items, fs.map Frame.enc, c⟩ : CacheState β).live := by
  classical
  rw [List.perm_iff_count]
  intro a
  induction fs generalizing items with
  | nil => simp [spent, CacheState.dropSpent]
  | cons f fs ih =>
    obtain _ | ⟨x, items⟩ := items
    · simp at h
    · rw [List.map_cons, spent, CacheState.dropSpent]
      split
      · rfl
      · rename_i hl
        have hf : Cache.vals f.enc = [] := by
          simp only [Frame.enc, Cache.children, List.length_append, List.length_cons, encL_length] at hl
          have h1 : f.todo = [] := List.length_eq_zero_iff.1 (by omega)
          have h2 : f.done = [] := List.length_eq_zero_iff.1 (by omega)
          simp [Frame.enc, h1, h2, encL, Cache.vals, Cache.valsL, Cache.valsO]
        have := ih items (by simpa using h)
        simp only [List.head?_cons, Option.toList_some, List.tail_cons, List.cons_append, List.nil_append,
          List.count_cons, CacheState.live, CacheState.kept, List.count_append, List.flatMap_cons, hf] at this ⊢
        omega

/-- What is dropped when the iterator of the current node is exhausted is what the state loses. -/
theorem retire_live (z : Zip β) (s : CacheState β) (h : z.enc.retire = .ok s) :
    (z.enc.retireDrops ++ s.live).Perm z.enc.live := by
  classical
  rw [CacheState.retire] at h
  rw [CacheState.retireDrops]
  by_cases ht : z.enc.topChildren.isEmpty
  · simp only [ht, Bool.not_true, Bool.false_eq_true, if_false] at h ⊢
    cases z with
    | root v ys =>
      have := (advanceDfs_live _ _ _ _ (by simp [NoValue, Zip.enc, CacheState.dropSpent]) h).1
      simpa [spent, Zip.enc, CacheState.dropSpent] using this
    | deep v ys fs r =>
      have hy : ys = [] := by
        cases ys with
        | nil => rfl
        | cons y ys => simp [Zip.enc, CacheState.topChildren, Cache.children, asLeaves, encL] at ht
      subst hy
      have h1 : (Zip.deep v [] fs r).enc =
          ⟨v :: ancOf fs r, .mk none [] :: fs.map Frame.enc, r.enc⟩ := by
        simp [Zip.enc, asLeaves, encL]
      rw [h1] at h ⊢
      have h2 := dropSpent_live fs (ancOf fs r) r.enc (by simp [ancOf])
      have h3 := (advanceDfs_live _ _ _ _ (by
        obtain ⟨fs', e, _⟩ := dropSpent_spec fs r
        intro t ht
        simp only [CacheState.dropSpent, Cache.children, List.length_nil, gt_iff_lt, Nat.not_lt_zero, if_false,
          List.tail_cons, e, List.mem_map] at ht
        obtain ⟨f, _, rfl⟩ := ht
        rfl) h).1
      rw [List.perm_iff_count] at h2 h3 ⊢
      intro a
      have h2 := h2 a
      have h3 := h3 a
      simp only [CacheState.dropSpent, spent, Cache.children, List.length_nil, gt_iff_lt, Nat.not_lt_zero, if_false,
        List.tail_cons, List.head?_cons, Option.toList_some, List.cons_append, List.nil_append,
        List.count_cons, CacheState.live, CacheState.kept, List.count_append, List.flatMap_cons, Cache.vals,
        Option.toList_none, Cache.valsL] at h2 h3 ⊢
      omega
  · simp only [ht, Bool.not_false, if_true, List.nil_append] at h ⊢
    refine (advanceDfs_live _ _ _ _ (setTop_noValue _ _ z.noValue) h).1.trans ?_
    have := setTop_live z.enc (none :: z.enc.topChildren)
    rw [valsL_none] at this
    exact (List.perm_append_right_iff _).1 this

/-- When nothing is pending any more, the cache is empty. -/
theorem retire_end (z : Zip β) (s : CacheState β) (ho : z.others = []) (h : z.enc.retire = .ok s) : s.kept = [] := by
  cases z with
  | root v ys =>
    obtain rfl : ys = [] := by simpa [Zip.others] using ho
    simp only [CacheState.retire, Zip.enc, asLeaves, List.map_nil, encL, CacheState.topChildren, Cache.children,
      List.isEmpty_nil, Bool.not_true, Bool.false_eq_true, if_false, CacheState.dropSpent] at h
    rw [CacheState.advanceDfs] at h
    obtain rfl := Except.ok.inj h
    simp [CacheState.kept, Cache.vals, Cache.valsL]
  | deep v ys fs r =>
    simp only [Zip.others, List.append_eq_nil_iff, List.map_eq_nil_iff] at ho
    obtain ⟨⟨ho1, ho2⟩, rfl⟩ := ho
    obtain ⟨fs', e1, e2, e3, e4, e5⟩ := dropSpent_spec fs r
    have hfs : fs' = [] := by
      cases fs' with
      | nil => rfl
      | cons f fs' =>
        rw [ho1] at e2
        rw [ho2] at e3
        simp only [todoL, doneL, List.append_eq_nil_iff, leafPathsL_eq_nil] at e2 e3
        rcases e5 f (by simp) with h | h
        · exact absurd e2.1 h
        · exact absurd e3.2 h
    subst hfs
    rw [ho1] at e2
    rw [ho2] at e3
    simp only [todoL, doneL, leafPathsL_eq_nil] at e2 e3
    have e6 : (Zip.deep v [] fs r).enc.retire =
        CacheState.advanceDfs (encS [] r).items.length (2 * (encS [] r).total + 2) (encS [] r) := by
      simp only [CacheState.retire, Zip.enc, asLeaves, List.map_nil, encL, CacheState.topChildren, Cache.children,
        List.isEmpty_nil, Bool.not_true, Bool.false_eq_true, if_false, CacheState.dropSpent, List.length_nil, gt_iff_lt,
        Nat.not_lt_zero, List.tail_cons, e1]
      rfl
    rw [e6] at h
    generalize 2 * (encS [] r).total = m at h
    rw [show m + 2 = m + 1 + 1 from rfl] at h
    simp only [CacheState.advanceDfs, encS, CacheState.topChildren, Frame.enc, Cache.children, e2, e3, encL,
      CacheState.setTop, Cache.setChildren, Cache.value, ancOf, CacheState.moveUp, List.map_nil, List.nil_append,
      List.isEmpty_nil, if_true] at h
    obtain rfl := Except.ok.inj h
    simp [CacheState.kept, Cache.vals, Cache.valsL]

end Cache

/-! ## The machines -/

variable {N : Type u} {V : Type v}

theorem opened_dropped (l : List V) : opened (l.map Event.dropped) = [] := by
  induction l with
  | nil => rfl
  | cons v l ih => simpa [opened] using ih

theorem dropped_dropped (l : List V) : dropped (l.map Event.dropped) = l := by
  induction l with
  | nil => rfl
  | cons v l ih => simpa [dropped] using ih

theorem ancLoopD_erase [SplitNode N V] (queue : List (List N)) (cs : CacheState V) :
    ancLoop queue cs = (ancLoopD queue cs).map Prod.snd := by
  fun_induction ancLoopD queue cs with
  | case1 => rw [ancLoop]; simp_all [Except.map]
  | case2 => rw [ancLoop]; simp_all [Except.map]
  | case3 => rw [ancLoop]; simp_all [Except.map]
  | case4 => rw [ancLoop]; simp_all [Except.map]
  | case5 => rw [ancLoop]; simp_all [Except.map]
  | case6 cs cs1 hs q cs' hr he e hl ih =>
    rw [ancLoop]
    simp only [hs, hr, he, Bool.false_eq_true, if_false]
    rw [ih, hl]
  | case7 cs cs1 hs q cs' hr he es s hl ih =>
    rw [ancLoop]
    simp only [hs, hr, he, Bool.false_eq_true, if_false]
    rw [ih, hl]
    rfl

theorem ancAdvanceD_erase [SplitNode N V] (s : AncState N V) : ancAdvance s = (ancAdvanceD s).map fun r => r.2 := by
  rw [ancAdvance, ancAdvanceD]
  split
  · rfl
  · exact ancLoopD_erase _ _

/-- Values still to be taken from nodes. -/
def AncState.todo [TreeNode N V] (s : AncState N V) : List V := bfsF (s.queue.flatten.map treeOf)

/-- Values held by the iterator. -/
def AncState.live (s : AncState N V) : List V := s.cs.live

theorem ancLoopD_spec [TreeNode N V] (queue : List (List N)) (cs : CacheState V) (ts : List (Tree (List V)))
    (hr : AncRun cs queue ts) (es : List (Event V)) (s' : AncState N V) (h : ancLoopD queue cs = .ok (es, s')) :
    opened es = (bfsF (queue.flatten.map treeOf)).take 1 ∧ s'.todo = (bfsF (queue.flatten.map treeOf)).drop 1 ∧
      (dropped es ++ s'.live).Perm (cs.live ++ opened es) ∧ (s'.queue = [] → s'.cs.kept = []) := by
  classical
  induction queue generalizing cs es with
  | nil =>
    obtain ⟨z, _, h2, _⟩ := hr
    simp at h2
  | cons it q ih =>
    obtain ⟨z, h1, h2, h3, h4⟩ := hr
    have hz := settle_live _ _ h1
    rw [ancLoopD, h1] at h
    cases it with
    | cons n ns =>
      simp only [Except.ok.injEq, Prod.mk.injEq] at h
      obtain ⟨rfl, rfl⟩ := h
      have := bfsF_treeOf (V := V) n (ns ++ q.flatten)
      simp only [List.flatten_cons, List.cons_append, this]
      refine ⟨by simp [opened], by simp [AncState.todo], ?_, by simp⟩
      rw [List.perm_iff_count] at hz ⊢
      intro a
      have := hz a
      simp only [dropped, AncState.live, CacheState.live, CacheState.kept, opened, List.nil_append, List.count_append,
        List.count_cons, List.cons_append, List.count_nil] at this ⊢
      omega
    | nil =>
      obtain ⟨r1, r2, r3⟩ := ancRun_retire z q h2 h3
      by_cases hq : q = []
      · obtain ⟨s, hs⟩ := r1 hq
        subst hq
        simp only [hs, List.isEmpty_nil, if_true, Except.ok.injEq, Prod.mk.injEq] at h
        obtain ⟨rfl, rfl⟩ := h
        have hk : s.kept = [] := retire_end z s (by simpa using h2.symm) hs
        have hk' : CacheState.kept { s with items := [] } = [] := hk
        have hp := retire_live z s hs
        refine ⟨by simp [opened_append, opened_dropped], by simp [AncState.todo], ?_, fun _ => hk'⟩
        rw [List.perm_iff_count] at hz hp ⊢
        intro a
        have h5 := hz a
        have h6 := hp a
        simp only [dropped_append, dropped_dropped, opened_append, opened_dropped, AncState.live, CacheState.live, hk, hk',
          List.append_nil, List.count_append] at h5 h6 ⊢
        omega
      · obtain ⟨z', e1, e2⟩ := r2 hq
        have hq' : q.isEmpty = false := by simpa using hq
        simp only [e1, hq', Bool.false_eq_true, if_false] at h
        split at h
        · simp at h
        · rename_i es1 s1 hl
          simp only [Except.ok.injEq, Prod.mk.injEq] at h
          obtain ⟨rfl, rfl⟩ := h
          obtain ⟨i1, i2, i3, i4⟩ := ih _ (h4 ▸ e2) es1 hl
          have hp := retire_live z _ e1
          refine ⟨by simpa [opened_append, opened_dropped] using i1, by simpa using i2, ?_, i4⟩
          rw [List.perm_iff_count] at hz hp i3 ⊢
          intro a
          have h5 := hz a
          have h6 := hp a
          have h7 := i3 a
          simp only [dropped_append, dropped_dropped, opened_append, opened_dropped, List.nil_append,
            List.count_append] at h5 h6 h7 ⊢
          omega

/-- The root was handed out, and the iterator either runs or has finished with an empty cache. -/
def AncState.Inv [TreeNode N V] (s : AncState N V) : Prop :=
  s.isRoot = false ∧ ((∃ ts, AncRun s.cs s.queue ts) ∨ (s.queue = [] ∧ s.cs.items = [] ∧ s.cs.kept = []))

theorem ancAdvanceD_acc [TreeNode N V] (s : AncState N V) (es : List (Event V)) (s' : AncState N V) (hi : s.Inv)
    (h : ancAdvanceD s = .ok (es, s')) : AccOne AncState.todo AncState.live 1 s es s' ∧ s'.Inv := by
  obtain ⟨isRoot, cs, queue⟩ := s
  obtain ⟨rfl, hi⟩ : isRoot = false ∧ _ := hi
  simp only [ancAdvanceD, Bool.false_eq_true, if_false] at h
  rcases hi with ⟨ts, hi⟩ | ⟨h1, h2, h3⟩
  · obtain ⟨e1, e2, e3, e4⟩ := ancLoopD_spec _ _ _ hi _ _ h
    refine ⟨⟨e1, e2, e3⟩, ?_⟩
    obtain ⟨s1, f1, f2, f3, f4⟩ := ancLoop_spec _ _ _ hi
    have h' : ancLoopD queue cs = .ok (es, s') := h
    rw [ancLoopD_erase, h'] at f1
    obtain rfl : s' = s1 := Except.ok.inj f1
    refine ⟨f2, ?_⟩
    cases ts with
    | nil => exact .inr ⟨(f3 rfl).2, (f3 rfl).1, e4 (f3 rfl).2⟩
    | cons t ts =>
      obtain ⟨a, us⟩ := t
      exact .inl ⟨_, (f4 a us ts rfl).2⟩
  · simp only at h1 h2
    subst h1
    rw [ancLoopD] at h
    simp [settle, h2] at h

/-! ## Contexts -/

/-- All values held by a context cache. -/
def CtxCache.live (s : CtxCache V) : List V := s.ancestors ++ s.kept

theorem ofCache_kept (pre : List Nat) (s : CacheState (V × Nat)) : (ofCache pre s).kept = s.kept.map Prod.fst := rfl

theorem ofCache_live (pre : List Nat) (s : CacheState (V × Nat)) : (ofCache pre s).live = s.live.map Prod.fst := by
  rw [CtxCache.live, CacheState.live, ofCache_kept, List.map_append]
  rfl

theorem spent_map {β γ δ : Type w} (f : γ → δ) (st : List (Cache β)) (items : List γ) :
    spent st (items.map f) = (spent st items).map f := by
  induction st generalizing items with
  | nil => rfl
  | cons t st ih =>
    rw [spent, spent]
    split
    · rfl
    · cases items with
      | nil => simpa using ih []
      | cons x items => simpa using ih items

theorem ofCache_retireDrops (pre : List Nat) (s : CacheState (V × Nat)) :
    (ofCache pre s).retireDrops = s.retireDrops.map Prod.fst := by
  rw [CtxCache.retireDrops, CacheState.retireDrops, ofCache_topChildren]
  split
  · rfl
  · exact spent_map Prod.fst s.stack s.items

theorem ctxSettle_live (s s' : CtxCache V) (h : s.settle = .ok s') : s'.live.Perm s.live := by
  classical
  rw [CtxCache.settle] at h
  split at h
  · obtain ⟨anc, path, stack, cache⟩ := s
    rcases anc with _ | ⟨x, _ | ⟨y, _ | ⟨z, anc⟩⟩⟩
    · simp [CtxCache.popItem] at h
    · obtain rfl := Except.ok.inj h
      rfl
    · simp only [CtxCache.popItem] at h
      split at h
      · simp at h
      · obtain rfl := Except.ok.inj h
        rw [List.perm_iff_count]
        intro a
        simp only [CtxCache.live, CtxCache.kept, vals_eq, Cache.pushBack, Cache.value, Cache.children, valsL_append,
          valsL_some, valsL_nil, List.map_append, List.count_append, List.count_cons, List.count_nil,
          Option.toList_some, List.map_cons, List.map_nil]
        omega
    · simp only [CtxCache.popItem] at h
      split at h
      · rename_i hk
        split at h
        · simp at h
        · rename_i p ps _
          obtain rfl := Except.ok.inj h
          have h1 : ((stack.modify (stack.length - 1 - ((x :: y :: z :: anc).length - 3))
              (·.pushBack (some (.mk (some (x, p)) [])))).flatMap Cache.vals).Perm
                ((x, p) :: stack.flatMap Cache.vals) := by
            rw [List.perm_iff_count]
            intro a
            rw [flatMap_modify_count _ _ (by omega)]
            simp only [Cache.vals, Cache.valsL, List.append_nil, Option.toList_some, List.count_cons, List.count_nil]
            omega
          have h2 := h1.map Prod.fst
          rw [List.perm_iff_count] at h2 ⊢
          intro a
          have h3 := h2 a
          simp only [CtxCache.live, CtxCache.kept, List.map_append, List.count_append, List.count_cons,
            List.map_cons] at h3 ⊢
          omega
      · simp at h
  · obtain rfl := Except.ok.inj h
    rfl

theorem ctxRetire_live (pre : List Nat) (z : Zip (V × Nat)) (s : CtxCache V)
    (h : (ofCache pre z.enc).retire = .ok s) :
    ((ofCache pre z.enc).retireDrops ++ s.live).Perm (ofCache pre z.enc).live ∧ (z.others = [] → s.kept = []) := by
  have hlt : z.enc.stack.length < z.enc.items.length := by
    cases z <;> simp [Zip.enc, ancOf]
  rw [ofCache_retire _ _ hlt] at h
  cases hr : z.enc.retire with
  | error e => rw [hr] at h; simp [Except.map] at h
  | ok s1 =>
    rw [hr] at h
    obtain rfl : ofCache pre s1 = s := Except.ok.inj h
    constructor
    · have := (retire_live z s1 hr).map Prod.fst
      rwa [List.map_append, ← ofCache_retireDrops pre, ← ofCache_live pre, ← ofCache_live pre] at this
    · intro ho
      rw [ofCache_kept, retire_end z s1 ho hr]
      rfl

theorem ctxLoopD_erase [SplitNode N V] (queue : List (List N)) (cc : CtxCache V) (counter : Nat) :
    ctxLoop queue cc counter = (ctxLoopD queue cc counter).map Prod.snd := by
  fun_induction ctxLoopD queue cc counter with
  | case1 => rw [ctxLoop]; simp_all [Except.map]
  | case2 => rw [ctxLoop]; simp_all [Except.map]
  | case3 => rw [ctxLoop]; simp_all [Except.map]
  | case4 => rw [ctxLoop]; simp_all [Except.map]
  | case5 => rw [ctxLoop]; simp_all [Except.map]
  | case6 => rw [ctxLoop]; simp_all [Except.map]
  | case7 cc counter cc1 hs q cc' hr he e hl ih =>
    rw [ctxLoop]
    simp only [hs, hr, he, Bool.false_eq_true, if_false]
    rw [ih, hl]
  | case8 cc counter cc1 hs q cc' hr he es s hl ih =>
    rw [ctxLoop]
    simp only [hs, hr, he, Bool.false_eq_true, if_false]
    rw [ih, hl]
    rfl

theorem ctxAdvanceD_erase [SplitNode N V] (s : CtxState V (List N) N) :
    ctxAdvance s = (ctxAdvanceD s).map fun r => r.2 := by
  rw [ctxAdvance, ctxAdvanceD]
  split
  · rfl
  · split
    · rfl
    · cases s.children with
      | none => rfl
      | some cs => exact ctxLoopD_erase _ _ _

/-- Values still to be taken from nodes. -/
def ctxTodo [TreeNode N V] (s : CtxState V (List N) N) : List V :=
  bfsF ((s.queue.flatten ++ s.children.toList.flatten).map treeOf)

/-- Values held by the iterator. -/
def CtxState.live {C : Type w} {I : Type u} (s : CtxState V C I) : List V := s.cc.live

theorem ctxLoopD_spec [TreeNode N V] (pre : List Nat) (queue : List (List N)) (cc : CtxCache V) (counter : Nat)
    (ts : List (Tree (Ctx V (List N)))) (hr : CtxRun kidsF pre cc queue counter ts) (es : List (Event V))
    (s' : CtxState V (List N) N) (h : ctxLoopD queue cc counter = .ok (es, s')) :
    opened es = (bfsF (queue.flatten.map treeOf)).take 1 ∧ ctxTodo s' = (bfsF (queue.flatten.map treeOf)).drop 1 ∧
      (dropped es ++ s'.live).Perm (cc.live ++ opened es) ∧
      s'.isRoot = false ∧ (s'.cc.ancestors = [] → s'.cc.kept = [] ∧ ctxTodo s' = []) := by
  classical
  induction queue generalizing cc counter es with
  | nil =>
    obtain ⟨z, _, h2, _⟩ := hr
    simp at h2
  | cons it q ih =>
    obtain ⟨z, h1, h2, h3, h4⟩ := hr
    have hz := ctxSettle_live _ _ h1
    rw [ctxLoopD, h1] at h
    cases it with
    | cons n ns =>
      simp only at h
      split at h
      · simp at h
      · simp only [Except.ok.injEq, Prod.mk.injEq] at h
        obtain ⟨rfl, rfl⟩ := h
        have := bfsF_treeOf (V := V) n (ns ++ q.flatten)
        simp only [List.flatten_cons, List.cons_append, this]
        refine ⟨by simp [opened], by simp [ctxTodo], ?_, by simp, by simp⟩
        rw [List.perm_iff_count] at hz ⊢
        intro a
        have := hz a
        simp only [dropped, CtxState.live, CtxCache.live, CtxCache.kept, opened, List.nil_append, List.count_append,
          List.count_cons, List.cons_append, List.count_nil] at this ⊢
        omega
    | nil =>
      obtain ⟨r1, r2, r3⟩ := ctxRun_retire (F := kidsF) (pre := pre) z ([] : List N) q counter
        (fun _ _ => rfl) h2 h3
      by_cases hq : q = []
      · obtain ⟨s, hs⟩ := r1 hq
        subst hq
        simp only [hs, List.isEmpty_nil, if_true, Except.ok.injEq, Prod.mk.injEq] at h
        obtain ⟨rfl, rfl⟩ := h
        obtain ⟨hp, hk⟩ := ctxRetire_live pre z s hs
        have hk : s.kept = [] := hk (by simpa using h2.symm)
        have hk' : CtxCache.kept { s with ancestors := [] } = [] := hk
        refine ⟨by simp [opened_append, opened_dropped], by simp [ctxTodo], ?_, rfl, fun _ => ⟨hk', by simp [ctxTodo]⟩⟩
        rw [List.perm_iff_count] at hz hp ⊢
        intro a
        have h5 := hz a
        have h6 := hp a
        simp only [dropped_append, dropped_dropped, opened_append, opened_dropped, CtxState.live, CtxCache.live, hk, hk',
          List.append_nil, List.count_append] at h5 h6 ⊢
        omega
      · obtain ⟨z', e1, e2⟩ := r2 hq
        have hq' : q.isEmpty = false := by simpa using hq
        simp only [e1, hq', Bool.false_eq_true, if_false] at h
        split at h
        · simp at h
        · rename_i es1 s1 hl
          simp only [Except.ok.injEq, Prod.mk.injEq] at h
          obtain ⟨rfl, rfl⟩ := h
          obtain ⟨i1, i2, i3, i4⟩ := ih _ _ (h4 ▸ e2) es1 hl
          have hp := (ctxRetire_live pre z _ e1).1
          refine ⟨by simpa [opened_append, opened_dropped] using i1, by simpa using i2, ?_, i4⟩
          rw [List.perm_iff_count] at hz hp i3 ⊢
          intro a
          have h5 := hz a
          have h6 := hp a
          have h7 := i3 a
          simp only [dropped_append, dropped_dropped, opened_append, opened_dropped, List.nil_append,
            List.count_append] at h5 h6 h7 ⊢
          omega

/-- The root was handed out, and the iterator either runs or has finished with an empty cache. -/
def CtxInv [TreeNode N V] (s : CtxState V (List N) N) : Prop :=
  s.isRoot = false ∧ (∃ ts, CtxRel [] s ts) ∧ (s.cc.ancestors = [] → s.cc.kept = [] ∧ ctxTodo s = [])

theorem ctxAdvanceD_acc [TreeNode N V] (s : CtxState V (List N) N) (es : List (Event V)) (s' : CtxState V (List N) N)
    (hi : CtxInv s) (h : ctxAdvanceD s = .ok (es, s')) : AccOne ctxTodo CtxState.live 1 s es s' ∧ CtxInv s' := by
  obtain ⟨hr, ⟨ts, ht⟩, hi⟩ := hi
  have hrel : ∃ ts, CtxRel [] s' ts := by
    have hadv : ctxAdvance s = .ok s' := by rw [ctxAdvanceD_erase, h]; rfl
    obtain ⟨s1, _, e2, e3⟩ := ctxNext_spec s ts ht
    have hn : ∀ o s1, ctxNext s = .ok (o, s1) → s1 = s' := by
      intro o s1 h'
      simp only [ctxNext, streamNextE, hadv, Except.ok.injEq, Prod.mk.injEq] at h'
      exact h'.2.symm
    rcases ts with _ | ⟨⟨a, us⟩, rest⟩
    · obtain ⟨f1, f2⟩ := e2 rfl
      exact ⟨[], hn _ _ f1 ▸ f2⟩
    · obtain ⟨f1, f2⟩ := e3 a us rest rfl
      exact ⟨_, hn _ _ f1 ▸ f2⟩
  rw [ctxAdvanceD] at h
  simp only [hr, Bool.false_eq_true, if_false] at h
  split at h
  · rename_i ha
    simp only [Except.ok.injEq, Prod.mk.injEq] at h
    obtain ⟨rfl, rfl⟩ := h
    have ha : s.cc.ancestors = [] := by simpa using ha
    refine ⟨⟨?_, ?_, ?_⟩, hr, hrel, hi⟩
    · rw [(hi ha).2]; rfl
    · rw [(hi ha).2]; rfl
    · simp [opened, dropped]
  · rename_i ha
    cases ht with
    | root v cs h' _ => subst h'; simp at hr
    | done _ hn => exact absurd (by simp [hn]) ha
    | run cs ts _ hc hn hrun _ =>
      rw [hc] at h
      obtain ⟨h1, h2, h3, h4, h5⟩ := ctxLoopD_spec [] _ _ _ _ hrun es s' h
      refine ⟨⟨?_, ?_, h3⟩, h4, hrel, h5⟩
      · rw [h1, ctxTodo, hc]; simp
      · rw [h2, ctxTodo, hc]; simp

/-! ## Binary contexts -/

theorem binScan_slots (it : List (Option N)) (c : Nat) (o : Option N) (ss : List (Option N)) (c' : Nat)
    (h : binScan it c = .ok (o, ss, c')) :
    it.filterMap id = o.toList ++ ss.filterMap id ∧ (o = none → ss = []) := by
  induction it generalizing c with
  | nil =>
    simp only [binScan, Except.ok.injEq, Prod.mk.injEq] at h
    obtain ⟨rfl, rfl, rfl⟩ := h
    simp
  | cons x it ih =>
    cases x with
    | none =>
      simp only [binScan] at h
      split at h
      · simp at h
      · simpa using ih _ h
    | some n =>
      simp only [binScan, Except.ok.injEq, Prod.mk.injEq] at h
      obtain ⟨rfl, rfl, rfl⟩ := h
      simp

theorem slotsF_nil [BinNode N V] (path : List Nat) (anc : List V) (c : Nat) (it : List (Option N))
    (h : it.filterMap id = []) : slotsF path anc c it = [] := by
  induction it generalizing c with
  | nil => rfl
  | cons x it ih =>
    cases x with
    | none => exact ih (c + 1) (by simpa using h)
    | some n => simp at h

theorem kids_slots [BinNode N V] (n : N) :
    [(split2 (V := V) n).2.1, (split2 (V := V) n).2.2].filterMap id = kids (V := V) n := by
  rfl

theorem binCtxLoopD_erase [SplitNode2 N V] (queue : List (List (Option N))) (cc : CtxCache V) (counter : Nat) :
    binCtxLoop queue cc counter = (binCtxLoopD queue cc counter).map Prod.snd := by
  fun_induction binCtxLoopD queue cc counter with
  | case1 => rw [binCtxLoop]; simp_all [Except.map]
  | case2 => rw [binCtxLoop]; simp_all [Except.map]
  | case3 => rw [binCtxLoop]; simp_all [Except.map]
  | case4 => rw [binCtxLoop]; simp_all [Except.map]
  | case5 => rw [binCtxLoop]; simp_all [Except.map]
  | case6 => rw [binCtxLoop]; simp_all [Except.map]
  | case7 => rw [binCtxLoop]; simp_all [Except.map]
  | case8 cc counter cc1 hs it q ss c' hsc cc' hr he e hl ih =>
    rw [binCtxLoop]
    simp only [hs, hsc, hr, he, Bool.false_eq_true, if_false]
    rw [ih, hl]
  | case9 cc counter cc1 hs it q ss c' hsc cc' hr he es s hl ih =>
    rw [binCtxLoop]
    simp only [hs, hsc, hr, he, Bool.false_eq_true, if_false]
    rw [ih, hl]
    rfl

theorem binCtxAdvanceD_erase [SplitNode2 N V] (s : CtxState V (Option N × Option N) (Option N)) :
    binCtxAdvance s = (binCtxAdvanceD s).map fun r => r.2 := by
  rw [binCtxAdvance, binCtxAdvanceD]
  split
  · rfl
  · split
    · rfl
    · cases s.children with
      | none => rfl
      | some cs => exact binCtxLoopD_erase _ _ _

/-- Values still to be taken from nodes. -/
def binCtxTodo [BinNode N V] (s : CtxState V (Option N × Option N) (Option N)) : List V :=
  bfsF (((s.queue.flatten ++ s.children.toList.flatMap fun c => [c.1, c.2]).filterMap id).map treeOf)

theorem binCtxLoopD_spec [BinNode N V] (pre : List Nat) (queue : List (List (Option N))) (cc : CtxCache V) (counter : Nat)
    (ts : List (Tree (Ctx V (Option N × Option N)))) (hr : CtxRun slotsF pre cc queue counter ts) (es : List (Event V))
    (s' : CtxState V (Option N × Option N) (Option N)) (h : binCtxLoopD queue cc counter = .ok (es, s')) :
    opened es = (bfsF ((queue.flatten.filterMap id).map treeOf)).take 1 ∧ binCtxTodo s' = (bfsF ((queue.flatten.filterMap id).map treeOf)).drop 1 ∧
      (dropped es ++ s'.live).Perm (cc.live ++ opened es) ∧
      s'.isRoot = false ∧ (s'.cc.ancestors = [] → s'.cc.kept = [] ∧ binCtxTodo s' = []) := by
  classical
  induction queue generalizing cc counter es with
  | nil =>
    obtain ⟨z, _, h2, _⟩ := hr
    simp at h2
  | cons it q ih =>
    obtain ⟨z, h1, h2, h3, h4⟩ := hr
    have hz := ctxSettle_live _ _ h1
    rw [binCtxLoopD, h1] at h
    cases hsc : binScan it counter with
    | error e => simp [hsc] at h
    | ok r =>
    obtain ⟨o, ss, c'⟩ := r
    obtain ⟨hF1, hF2⟩ := binScan_slots _ _ _ _ _ hsc
    cases o with
    | some n =>
      simp only [hsc] at h
      split at h
      · simp at h
      · simp only [Except.ok.injEq, Prod.mk.injEq] at h
        obtain ⟨rfl, rfl⟩ := h
        have := bfsF_treeOf (V := V) n (ss.filterMap id ++ q.flatten.filterMap id)
        rw [List.flatten_cons, List.filterMap_append, hF1, Option.toList_some, List.singleton_append, List.cons_append,
          this]
        refine ⟨rfl, ?_, ?_, rfl, by simp⟩
        · simp only [binCtxTodo, List.drop_succ_cons, List.drop_zero, List.flatten_cons, Option.toList_some,
            List.flatMap_cons, List.flatMap_nil, List.append_nil, List.filterMap_append, kids_slots]
        rw [List.perm_iff_count] at hz ⊢
        intro a
        have := hz a
        simp only [dropped, CtxState.live, CtxCache.live, CtxCache.kept, opened, List.nil_append, List.count_append,
          List.count_cons, List.cons_append, List.count_nil] at this ⊢
        omega
    | none =>
      simp only [hsc] at h
      have hF1 : it.filterMap id = [] := by rw [hF1, hF2 rfl]; rfl
      obtain ⟨r1, r2, r3⟩ := ctxRun_retire (F := slotsF) (pre := pre) z it q counter
        (fun path anc => slotsF_nil path anc counter it hF1) h2 h3
      by_cases hq : q = []
      · obtain ⟨s, hs⟩ := r1 hq
        subst hq
        simp only [hs, List.isEmpty_nil, if_true, Except.ok.injEq, Prod.mk.injEq] at h
        obtain ⟨rfl, rfl⟩ := h
        obtain ⟨hp, hk⟩ := ctxRetire_live pre z s hs
        have hk : s.kept = [] := hk (by simpa using h2.symm)
        have hk' : CtxCache.kept { s with ancestors := [] } = [] := hk
        refine ⟨by simp [opened_append, opened_dropped, hF1], by simp [binCtxTodo, hF1], ?_, rfl,
          fun _ => ⟨hk', by simp [binCtxTodo]⟩⟩
        rw [List.perm_iff_count] at hz hp ⊢
        intro a
        have h5 := hz a
        have h6 := hp a
        simp only [dropped_append, dropped_dropped, opened_append, opened_dropped, CtxState.live, CtxCache.live, hk, hk',
          List.append_nil, List.count_append] at h5 h6 ⊢
        omega
      · obtain ⟨z', e1, e2⟩ := r2 hq
        have hq' : q.isEmpty = false := by simpa using hq
        simp only [e1, hq', Bool.false_eq_true, if_false] at h
        split at h
        · simp at h
        · rename_i es1 s1 hl
          simp only [Except.ok.injEq, Prod.mk.injEq] at h
          obtain ⟨rfl, rfl⟩ := h
          obtain ⟨i1, i2, i3, i4⟩ := ih _ _ (h4 ▸ e2) es1 hl
          have hp := (ctxRetire_live pre z _ e1).1
          refine ⟨by simpa [opened_append, opened_dropped, hF1] using i1, by simpa [hF1] using i2, ?_, i4⟩
          rw [List.perm_iff_count] at hz hp i3 ⊢
          intro a
          have h5 := hz a
          have h6 := hp a
          have h7 := i3 a
          simp only [dropped_append, dropped_dropped, opened_append, opened_dropped, List.nil_append,
            List.count_append] at h5 h6 h7 ⊢
          omega

/-- The root was handed out, and the iterator either runs or has finished with an empty cache. -/
def BinCtxInv [BinNode N V] (s : CtxState V (Option N × Option N) (Option N)) : Prop :=
  s.isRoot = false ∧ (∃ ts, BinCtxRel [] s ts) ∧ (s.cc.ancestors = [] → s.cc.kept = [] ∧ binCtxTodo s = [])

theorem binCtxAdvanceD_acc [BinNode N V] (s : CtxState V (Option N × Option N) (Option N)) (es : List (Event V))
    (s' : CtxState V (Option N × Option N) (Option N)) (hi : BinCtxInv s) (h : binCtxAdvanceD s = .ok (es, s')) :
    AccOne binCtxTodo CtxState.live 1 s es s' ∧ BinCtxInv s' := by
  obtain ⟨hr, ⟨ts, ht⟩, hi⟩ := hi
  have hrel : ∃ ts, BinCtxRel [] s' ts := by
    have hadv : binCtxAdvance s = .ok s' := by rw [binCtxAdvanceD_erase, h]; rfl
    obtain ⟨s1, _, e2, e3⟩ := binCtxNext_spec s ts ht
    have hn : ∀ o s1, binCtxNext s = .ok (o, s1) → s1 = s' := by
      intro o s1 h'
      simp only [binCtxNext, streamNextE, hadv, Except.ok.injEq, Prod.mk.injEq] at h'
      exact h'.2.symm
    rcases ts with _ | ⟨⟨a, us⟩, rest⟩
    · obtain ⟨f1, f2⟩ := e2 rfl
      exact ⟨[], hn _ _ f1 ▸ f2⟩
    · obtain ⟨f1, f2⟩ := e3 a us rest rfl
      exact ⟨_, hn _ _ f1 ▸ f2⟩
  rw [binCtxAdvanceD] at h
  simp only [hr, Bool.false_eq_true, if_false] at h
  split at h
  · rename_i ha
    simp only [Except.ok.injEq, Prod.mk.injEq] at h
    obtain ⟨rfl, rfl⟩ := h
    have ha : s.cc.ancestors = [] := by simpa using ha
    refine ⟨⟨?_, ?_, ?_⟩, hr, hrel, hi⟩
    · rw [(hi ha).2]; rfl
    · rw [(hi ha).2]; rfl
    · simp [opened, dropped]
  · rename_i ha
    cases ht with
    | root v cs h' => subst h'; simp at hr
    | done _ hn => exact absurd (by simp [hn]) ha
    | run cs ts _ hc hn hrun _ =>
      rw [hc] at h
      obtain ⟨h1, h2, h3, h4, h5⟩ := binCtxLoopD_spec [] _ _ _ _ hrun es s' h
      refine ⟨⟨?_, ?_, h3⟩, h4, hrel, h5⟩
      · rw [h1, binCtxTodo, hc]; simp
      · rw [h2, binCtxTodo, hc]; simp


/-- A finished state cannot be running. -/
theorem ancRun_items [TreeNode N V] (cs : CacheState V) (queue : List (List N)) (ts : List (Tree (List V)))
    (h : AncRun cs queue ts) : cs.items ≠ [] := by
  obtain ⟨z, h1, -⟩ := h
  intro hi
  rw [settle, hi, List.length_nil, if_neg (by omega)] at h1
  obtain rfl : cs = z.enc := Except.ok.inj h1
  cases z <;> simp [Zip.enc] at hi

end Bfs

end TreeIter
