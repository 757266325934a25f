import Verif.Model.MutRef
import Verif.Model.PipelineApi

/-!
# Closures of the `…_mut` whole-tree operations

`map_mut`, `map_path_mut`, `fold_mut`, `fold_path_mut`, `prune_mut`, `prune_path_mut`
(`prelude.rs` 2114-2373 for general and 1582-1844 for binary trees) run the pipelines of `Model/PipelineApi` on nodes `&'a mut Tree<T>`, so the closure is handed a reference `&'a mut T`.
As in `Model/MutRef` a reference is the address of a cell, and the memory is part of the state of the closure.

Simplification: a closure touches only the cell behind the reference of its own call.
-/

universe u v w x y z

namespace TreeIter

/-- The closure of `map_mut`: `body` sees its own state and the value behind the reference, and says what to write
there and what to return.  `dangling` is what it would return on a reference without a cell. -/
def mapRef {A : Type u} {M : Type v} {V : Type w} {σ : Type x} {W : Type y} (read : M → A → Option V)
    (write : M → A → V → M) (dangling : W) (body : σ → V → σ × V × W) (mw : M × σ) (a : A) : (M × σ) × W :=
  match read mw.1 a with
  | none => (mw, dangling)
  | some x => ((write mw.1 a (body mw.2 x).2.1, (body mw.2 x).1), (body mw.2 x).2.2)

/-- The closure of `fold_mut`: `body` also sees the results of the children. -/
def foldRef {A : Type u} {M : Type v} {V : Type w} {σ : Type x} {O : Type y} {C : Type z} (read : M → A → Option V)
    (write : M → A → V → M) (dangling : O) (body : σ → C → V → σ × V × O) (mw : M × σ) (c : C) (a : A) :
    (M × σ) × O :=
  match read mw.1 a with
  | none => (mw, dangling)
  | some x => ((write mw.1 a (body mw.2 c x).2.1, (body mw.2 c x).1), (body mw.2 c x).2.2)

/-- The closure of `fold_path_mut`: `body` also sees the path. -/
def foldRefPath {A : Type u} {M : Type v} {V : Type w} {σ : Type x} {O : Type y} {C : Type z} (read : M → A → Option V)
    (write : M → A → V → M) (dangling : O) (body : σ → C → List Nat → V → σ × V × O) (mw : M × σ) (c : C)
    (p : List Nat) (a : A) : (M × σ) × O :=
  foldRef read write dangling (fun w c x => body w c p x) mw c a

/-- The closure of `prune_mut`, of type `FnMut(&&'a mut T) -> bool`: behind the shared reference the value can be read
but not written. -/
def pruneRef {A : Type u} {M : Type v} {V : Type w} {σ : Type x} (read : M → A → Option V) (m : M) (dangling : Bool)
    (body : σ → V → σ × Bool) (w : σ) (a : A) : σ × Bool :=
  match read m a with
  | none => (w, dangling)
  | some x => body w x

/-- The closure of `map_path_mut` (`prelude.rs` 2318-2323, 1788-1793): `body` also sees the path. -/
def mapRefPath {A : Type u} {M : Type v} {V : Type w} {σ : Type x} {W : Type y} (read : M → A → Option V)
    (write : M → A → V → M) (dangling : W) (body : σ → List Nat → V → σ × V × W) (mw : M × σ) (p : List Nat) (a : A) :
    (M × σ) × W :=
  mapRef read write dangling (fun w x => body w p x) mw a

/-- The closure of `prune_path_mut` (`prelude.rs` 2184-2189, 1652-1657), of type `FnMut(&[usize], &&'a mut T) -> bool`. -/
def pruneRefPath {A : Type u} {M : Type v} {V : Type w} {σ : Type x} (read : M → A → Option V) (m : M) (dangling : Bool)
    (body : σ → List Nat → V → σ × Bool) (w : σ) (p : List Nat) (a : A) : σ × Bool :=
  pruneRef read m dangling (fun w x => body w p x) w a

/-- The closure `|item| (*item).clone()` of `cloned`; `clone` is the `Clone` implementation of the values, which may
have effects. -/
def cloneRef {A : Type u} {M : Type v} {V : Type w} {σ : Type x} (read : M → A → Option V) (m : M) (dangling : V)
    (clone : σ → V → σ × V) (w : σ) (a : A) : σ × V :=
  match read m a with
  | none => (w, dangling)
  | some x => clone w x

/-- `prelude.rs` 142-144 and 152-154: `Tree<&T>::cloned` and `Tree<&mut T>::cloned`, with `m` the memory the references
point into. -/
def Api.cloned {A : Type u} {M : Type v} {V : Type w} {σ : Type x} (read : M → A → Option V) (m : M) (dangling : V)
    (clone : σ → V → σ × V) (r : Tree A) (w : σ) : Except Panic (Tree V × σ) :=
  Api.map (cloneRef read m dangling clone) r w

/-- `prelude.rs` 110-112 and 120-122: `BinaryTree<&T>::cloned` and `BinaryTree<&mut T>::cloned`. -/
def Api.binCloned {A : Type u} {M : Type v} {V : Type w} {σ : Type x} (read : M → A → Option V) (m : M) (dangling : V)
    (clone : σ → V → σ × V) (r : BinTree A) (w : σ) : Except Panic (BinTree V × σ) :=
  Api.binMap (cloneRef read m dangling clone) r w

end TreeIter
