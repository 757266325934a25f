import Verif.Model.PipelineApi

/-! # A client that drives a pipeline by hand

`into_pipeline()` returns an iterator whose `next`, `current_path`, `current_depth` and `prune_current_subtree` are
public (`tree_iterators/mod.rs` 17-51).  This is a client that uses them directly. -/

universe u v w x

namespace TreeIter

variable {S : Type u} {V : Type v} {σ : Type w} {τ : Type x}

/-- At most `k` calls of `next`, also after a `None`.  After each item the client reads `current_path` and decides
(with a state of its own) whether to call `prune_current_subtree`.  Returned: the items with the paths read, and the
client's final state. -/
def Pipe.drive (M : Pipe S V σ) (f : τ → List Nat → V → τ × Bool) :
    Nat → S → σ → τ → Except Panic (List (V × List Nat) × τ)
  | 0, _, _, c => .ok ([], c)
  | k + 1, s, w, c =>
    match M.next s w with
    | .error e => .error e
    | .ok (none, s', w') => M.drive f k s' w' c
    | .ok (some v, s', w') =>
      match M.drive f k (if (f c (M.path s') v).2 then M.prune s' else s') w' (f c (M.path s') v).1 with
      | .error e => .error e
      | .ok (l, c') => .ok ((v, M.path s') :: l, c')

end TreeIter
