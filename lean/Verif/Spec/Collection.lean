import Verif.Spec.Pipeline

/-! # Specification of the operations on collections of trees -/

universe u v w

namespace TreeIter

/-- Treat the trees of a collection from the first to the last, threading the state of the closures from one to the next.
`g` is given the number of the tree, the first being number `i`; trees that come to nothing are left out. -/
def eachS {A : Type u} {B : Type v} {σ : Type w} (g : σ → Nat → A → σ × Option B) (w : σ) (i : Nat) : List A → σ × List B
  | [] => (w, [])
  | a :: as =>
    ((eachS g (g w i a).1 (i + 1) as).1, (g w i a).2.toList ++ (eachS g (g w i a).1 (i + 1) as).2)

/-- An operation that kept has a result. -/
def kept {B : Type v} {σ : Type w} (r : σ × B) : σ × Option B := (r.1, some r.2)

/-- What a client that calls `next()` `n` times sees of an iterator over `os`: the items, then `None` for ever. -/
def seen {B : Type v} (n : Nat) (os : List B) : List (Option B) := (List.range n).map fun k => os[k]?

/-- The state of the closures of the stages when `n` results have been handed out and nothing more is asked for, if `g`
treats a tree and `root` only its root, saying whether it is kept: the trees up to the one of the last result have been
treated, and after them one kept root has been looked at. -/
def stopS {A : Type u} {B : Type v} {σ : Type w} (root : σ → Nat → A → σ × Bool) (g : σ → Nat → A → σ × Option B) :
    Nat → σ → Nat → List A → σ
  | _, w, _, [] => w
  | 0, w, i, a :: as => if (root w i a).2 then (root w i a).1 else stopS root g 0 (root w i a).1 (i + 1) as
  | n + 1, w, i, a :: as => stopS root g (if (g w i a).2.isSome then n else n + 1) (g w i a).1 (i + 1) as

/-- The same for a client that calls `next()` `n` times: nothing happens before the first call. -/
def quitS {A : Type u} {B : Type v} {σ : Type w} (root : σ → Nat → A → σ × Bool) (g : σ → Nat → A → σ × Option B) (n : Nat)
    (w : σ) (as : List A) : σ :=
  if n = 0 then w else stopS root g n w 0 as

end TreeIter
