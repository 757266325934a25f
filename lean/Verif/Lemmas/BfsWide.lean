import Verif.Model.BfsCtx

/-! Breadth-first contexts of a root with more children than the path counter can count. -/

namespace TreeIter

universe u v

variable {N : Type u} {V : Type v}

namespace Bfs

/-- The first `i` children of the root have been shown. -/
def WideInv [SplitNode N V] (n : N) (i : Nat) (s : CtxState V (List N) N) : Prop :=
  s.isRoot = false ∧ s.counter = i ∧ s.cc.stack = [] ∧
    (s.cc.ancestors = [val n] ∧ s.cc.path = [] ∨ ∃ x p, s.cc.ancestors = [x, val n] ∧ s.cc.path = [p]) ∧
    ∃ cs q, s.children = some cs ∧ s.queue ++ [cs] = (kids n).drop i :: q

theorem WideInv.settle [SplitNode N V] {n : N} {i : Nat} {s : CtxState V (List N) N} (h : WideInv n i s) :
    ∃ cache, s.cc.settle = .ok ⟨[val n], [], [], cache⟩ := by
  obtain ⟨-, -, h3, h4 | ⟨x, p, h4, h5⟩, -⟩ := h
  · obtain ⟨h4, h5⟩ := h4
    refine ⟨s.cc.cache, ?_⟩
    rw [CtxCache.settle, if_neg (by simp [h3, h4]), ← h4, ← h5, ← h3]
  · refine ⟨s.cc.cache.pushBack (some (.mk (some (x, p)) [])), ?_⟩
    rw [CtxCache.settle, if_pos (by simp [h3, h4]), CtxCache.popItem, h4, h5, h3]

theorem WideInv.advance [SplitNode N V] {n : N} {i : Nat} {s : CtxState V (List N) N} (h : WideInv n i s) (c : N)
    (hc : (kids n)[i]? = some c) :
    (i + 1 < 2 ^ 64 → ∃ s', ctxNext s = .ok (some ⟨[i], [val n, val c], some (kids c)⟩, s') ∧ WideInv n (i + 1) s') ∧
      (¬ i + 1 < 2 ^ 64 → ctxNext s = .error .overflow) := by
  obtain ⟨cache, hs⟩ := h.settle
  obtain ⟨h1, h2, h3, h4, cs, q, h5, h6⟩ := h
  have hne : s.cc.ancestors.isEmpty = false := by
    rcases h4 with ⟨h4, -⟩ | ⟨x, p, h4, -⟩ <;> simp [h4]
  obtain ⟨hi, hc⟩ := List.getElem?_eq_some_iff.1 hc
  rw [List.drop_eq_getElem_cons hi, hc] at h6
  constructor <;> intro hlt
  · refine ⟨⟨false, ⟨[val c, val n], [i], [], cache⟩, some (kids c), (kids n).drop (i + 1) :: q, i + 1⟩, ?_,
      rfl, rfl, rfl, .inr ⟨_, _, rfl, rfl⟩, kids c, q ++ [kids c], rfl, rfl⟩
    simp only [ctxNext, streamNextE, ctxAdvance, h1, hne, h5, h6, ctxLoop, hs, h2, checkedSucc, if_pos hlt]
    rfl
  · simp only [ctxNext, streamNextE, ctxAdvance, h1, hne, h5, h6, ctxLoop, hs, h2, checkedSucc, if_neg hlt]
    rfl

theorem wide_state [SplitNode N V] (n : N) (h : 2 ^ 64 ≤ (kids n).length) (i : Nat) (hi : i < 2 ^ 64) :
    ∃ s, stateAfterE ctxNext (i + 1) (CtxState.new n []) = .ok s ∧ WideInv n i s := by
  have hadd : ∀ (k : Nat) (s : CtxState V (List N) N), stateAfterE ctxNext (k + 1) s =
      match stateAfterE ctxNext k s with
      | .error e => .error e
      | .ok s => match ctxNext s with
        | .error e => .error e
        | .ok (_, s') => .ok s' := by
    intro k
    induction k with
    | zero => intro s; simp only [stateAfterE]; cases ctxNext s <;> rfl
    | succ k ih =>
      intro s
      rw [stateAfterE]
      conv => rhs; rw [stateAfterE]
      cases ctxNext s with
      | error e => rfl
      | ok r => exact ih r.2
  induction i with
  | zero =>
    exact ⟨_, rfl, rfl, rfl, rfl, .inl ⟨rfl, rfl⟩, kids n, [], rfl, by simp [CtxState.new]⟩
  | succ i ih =>
    obtain ⟨s, h1, h2⟩ := ih (by omega)
    obtain ⟨s', h3, h4⟩ := (h2.advance ((kids n)[i]'(by omega)) (by simp)).1 hi
    exact ⟨s', by rw [hadd, h1]; simp only [h3], h4⟩

end Bfs

end TreeIter
