import Verif.Model.Chain

/-! # Pipelines that are advanced by hand before they are collected

A pipeline is an `Iterator` (`tree_iterators/mod.rs` 17-20), so a program may call `next()` on it before it calls
`collect_tree()` or `fold_tree()`. -/

universe u v w

namespace TreeIter

/-- `for _ in 0..k { p.next(); }` -/
def Pipe.advance {S : Type u} {V : Type v} {σ : Type w} (M : Pipe S V σ) : Nat → S → σ → Except Panic (S × σ)
  | 0, s, w => .ok (s, w)
  | k + 1, s, w =>
    match M.next s w with
    | .error e => .error e
    | .ok (_, s', w') => M.advance k s' w'

end TreeIter
