import Verif.Model.Exchange

/-! # Programs that change what `get_mut` hands out

The cache of the breadth-first `attach_ancestors` and `attach_context` iterators keeps values in `MaybeUninit`
(`bfs_iterators/mod.rs` 433-438) and reads them with `assume_init` (`bfs_iterators/mod.rs` 131-134, 364-366;
`leaves_iterators/ancestors_breadth_first/mod.rs` 25-27).  In the model an entry without a value is `none`, and reading it
is `Panic.uninit`: undefined behaviour, not a panic.  No other iterator has such a field.

A program may call `next`, keep copies of the items it is shown (`TreeContext` is `Clone`, `tree_context.rs` 3) and write
to the item that `get_mut` hands out (`bfs_iterators/mod.rs` 100-110, 332-342). -/

universe u v w

namespace TreeIter

variable {S : Type u} {O : Type v} {V : Type w}

/-- What a program can reach from the iterator `s₀`, with the items it has been shown.  `may seen o o'`: having seen the items
`seen` it may turn the item `o` into `o'`. -/
inductive Lending.Run (it : Lending S O V) (may : List O → O → O → Prop) (s₀ : S) : List O → S → Prop
  | start : it.Run may s₀ [] s₀
  | next {seen : List O} {s s' : S} {o : Option O} : it.Run may s₀ seen s → it.next s = .ok (o, s') →
    it.Run may s₀ (o.toList ++ seen) s'
  | write {seen : List O} {s : S} {o o' : O} : it.Run may s₀ seen s → it.get s = some o → may seen o o' →
    it.Run may s₀ seen (it.put s o')

/-- No such program makes the iterator read uninitialised memory. -/
def Lending.NoUninit (it : Lending S O V) (may : List O → O → O → Prop) (s₀ : S) : Prop :=
  ∀ seen s, it.Run may s₀ seen s → it.next s ≠ .error .uninit

/-- Writing to a slice leaves its length. -/
def mayWrite (_ : List (List V)) (o o' : List V) : Prop := o'.length = o.length

/-- Writing a copy of an item seen before: `*it.get_mut().unwrap() = copy`. -/
def mayRestore (seen : List O) (_ o' : O) : Prop := o' ∈ seen

end TreeIter
