import Verif.Model.AtPathMut
import Verif.Model.AtPath
import Verif.Spec.Cells

/-! # Lemmas on `at_path_mut` -/

universe u v w

namespace TreeIter

namespace AtPath

variable {T : Type u} {V : Type u} {W : Type v}

/-- Children by number, and the node with one child exchanged. -/
structure Kids (T : Type u) where
  kid : T → Nat → Option T
  setKid : T → Nat → T → T
  kid_same : ∀ t i c u, kid t i = some c → kid (setKid t i u) i = some u
  kid_other : ∀ t i j u, i ≠ j → kid (setKid t i u) j = kid t j
  set_same : ∀ t i c, kid t i = some c → setKid t i c = t
  set_set : ∀ t i u v, setKid (setKid t i u) i v = setKid t i v
  set_comm : ∀ t i j u v, i ≠ j → setKid (setKid t i u) j v = setKid (setKid t j v) i u

namespace Kids

variable (K : Kids T)

/-- The descendant at a path. -/
def sub (t : T) : List Nat → Option T
  | [] => some t
  | i :: p => (K.kid t i).bind fun c => sub c p

/-- The tree with the descendant at a path exchanged. -/
def put (t : T) : List Nat → T → T
  | [], u => u
  | i :: p, u =>
    match K.kid t i with
    | none => t
    | some c => K.setKid t i (put c p u)

theorem sub_append (t : T) (p q : List Nat) : K.sub t (p ++ q) = (K.sub t p).bind fun c => K.sub c q := by
  induction p generalizing t with
  | nil => rfl
  | cons i p ih =>
    simp only [List.cons_append, sub]
    cases K.kid t i with
    | none => rfl
    | some c => exact ih c

theorem put_append (t s u : T) (p q : List Nat) (h : K.sub t p = some s) : K.put t (p ++ q) u = K.put t p (K.put s q u) := by
  induction p generalizing t with
  | nil => obtain rfl := Option.some.inj h; rfl
  | cons i p ih =>
    simp only [List.cons_append, put]
    cases hk : K.kid t i with
    | none => rfl
    | some c => simp only [ih c (by simpa [sub, hk] using h)]

theorem put_sub (t s : T) (p : List Nat) (h : K.sub t p = some s) : K.put t p s = t := by
  induction p generalizing t with
  | nil => exact (Option.some.inj h).symm
  | cons i p ih =>
    cases hk : K.kid t i with
    | none => simp [sub, hk] at h
    | some c =>
      simp only [put, hk]
      rw [ih c (by simpa [sub, hk] using h)]
      exact K.set_same t i c hk

theorem sub_put (t s u : T) (p : List Nat) (h : K.sub t p = some s) : K.sub (K.put t p u) p = some u := by
  induction p generalizing t with
  | nil => rfl
  | cons i p ih =>
    cases hk : K.kid t i with
    | none => simp [sub, hk] at h
    | some c =>
      simp only [put, hk, sub, K.kid_same t i c _ hk, Option.bind_some]
      exact ih c (by simpa [sub, hk] using h)

theorem put_put (t s u v : T) (p : List Nat) (h : K.sub t p = some s) : K.put (K.put t p u) p v = K.put t p v := by
  induction p generalizing t with
  | nil => rfl
  | cons i p ih =>
    cases hk : K.kid t i with
    | none => simp [sub, hk] at h
    | some c =>
      simp only [put, hk, K.kid_same t i c _ hk, K.set_set]
      rw [ih c (by simpa [sub, hk] using h)]

/-- Paths that part. -/
theorem parts {p q : List Nat} (h1 : ¬ p <+: q) (h2 : ¬ q <+: p) :
    ∃ r i j p' q', p = r ++ i :: p' ∧ q = r ++ j :: q' ∧ i ≠ j := by
  induction p generalizing q with
  | nil => exact absurd List.nil_prefix h1
  | cons i p ih =>
    cases q with
    | nil => exact absurd List.nil_prefix h2
    | cons j q =>
      by_cases hij : i = j
      · subst hij
        obtain ⟨r, a, b, p', q', rfl, rfl, h⟩ := ih (fun h => h1 (List.cons_prefix_cons.2 ⟨rfl, h⟩))
          (fun h => h2 (List.cons_prefix_cons.2 ⟨rfl, h⟩))
        exact ⟨i :: r, a, b, p', q', rfl, rfl, h⟩
      · exact ⟨[], i, j, p, q, rfl, rfl, hij⟩

theorem sub_put_other (t u : T) (p q : List Nat) (h1 : ¬ p <+: q) (h2 : ¬ q <+: p) :
    K.sub (K.put t p u) q = K.sub t q := by
  obtain ⟨r, i, j, p, q, rfl, rfl, hij⟩ := parts h1 h2
  clear h1 h2
  induction r generalizing t with
  | nil =>
    simp only [List.nil_append, put, sub]
    cases hk : K.kid t i with
    | none => rfl
    | some c => simp only [K.kid_other t i j _ hij]
  | cons k r ih =>
    simp only [List.cons_append, put, sub]
    cases hk : K.kid t k with
    | none => simp only [hk]
    | some c =>
      simp only [K.kid_same t k c _ hk, Option.bind_some]
      exact ih c

theorem put_comm (t u v : T) (p q : List Nat) (h1 : ¬ p <+: q) (h2 : ¬ q <+: p) :
    K.put (K.put t p u) q v = K.put (K.put t q v) p u := by
  obtain ⟨r, i, j, p, q, rfl, rfl, hij⟩ := parts h1 h2
  clear h1 h2
  induction r generalizing t with
  | nil =>
    simp only [List.nil_append, put]
    cases hi : K.kid t i with
    | none =>
      cases hj : K.kid t j with
      | none => simp only [hi]
      | some d => simp only [K.kid_other t j i _ (Ne.symm hij), hi]
    | some c =>
      cases hj : K.kid t j with
      | none => simp only [hi, K.kid_other t i j _ hij, hj]
      | some d =>
        simp only [K.kid_other t i j _ hij, hi, hj, K.kid_other t j i _ (Ne.symm hij)]
        exact K.set_comm t i j _ _ hij
  | cons k r ih =>
    simp only [List.cons_append, put]
    cases hk : K.kid t k with
    | none => simp only [hk]
    | some c => simp only [K.kid_same t k c _ hk, K.set_set, ih c]

end Kids

/-! ## The two kinds of trees -/

/-- The children of a general tree. -/
def treeKids : Kids (Tree V) where
  kid t i := t.children[i]?
  setKid t i u := .node t.value (t.children.set i u)
  kid_same t i c u h := by
    change (t.children.set i u)[i]? = _
    rw [List.getElem?_set_self (List.getElem?_eq_some_iff.1 h).1]
  kid_other t i j u h := by
    change (t.children.set i u)[j]? = _
    rw [List.getElem?_set_ne h]
  set_same t i c h := by
    cases t
    simp only [Tree.value, Tree.children] at h ⊢
    congr 1
    obtain ⟨hi, rfl⟩ := List.getElem?_eq_some_iff.1 h
    exact List.set_getElem_self hi
  set_set t i u v := by simp [Tree.value, Tree.children]
  set_comm t i j u v h := by 
    change Tree.node t.value ((t.children.set i u).set j v) = Tree.node t.value ((t.children.set j v).set i u)
    rw [List.set_comm _ _ h]

/-- The slots of a binary tree. -/
def binKids : Kids (BinTree V) where
  kid
    | .node _ l _, 0 => l
    | .node _ _ r, 1 => r
    | _, _ => none
  setKid
    | .node a _ r, 0, u => .node a (some u) r
    | .node a l _, 1, u => .node a l (some u)
    | t, _, _ => t
  kid_same := by
    rintro ⟨a, l, r⟩ (_ | _ | i) c u h
    · rfl
    · rfl
    · simp at h
  kid_other := by rintro ⟨a, l, r⟩ (_ | _ | i) (_ | _ | j) u h <;> first | rfl | exact absurd rfl h
  set_same := by
    rintro ⟨a, l, r⟩ (_ | _ | i) c h
    · simp only at h; subst h; rfl
    · simp only at h; subst h; rfl
    · rfl
  set_set := by rintro ⟨a, l, r⟩ (_ | _ | i) u v <;> rfl
  set_comm := by rintro ⟨a, l, r⟩ (_ | _ | i) (_ | _ | j) u v h <;> first | rfl | exact absurd rfl h

/-- What `at_path_mut` returns. -/
theorem atPathMut_eq (r : Loan (Tree V) W) (p : List Nat) :
    atPathMut r p = (treeKids.sub r.now p).map fun s => ⟨s, fun u => r.back (treeKids.put r.now p u)⟩ := by
  induction p generalizing r with
  | nil => rfl
  | cons i p ih =>
    simp only [atPathMut, child, Kids.sub, Kids.put]
    change _ = Option.map _ ((r.now.children[i]?).bind _)
    cases h : r.now.children[i]? with
    | none => rfl
    | some c =>
      have hk : treeKids.kid r.now i = some c := h
      simp only [Option.bind_some, hk]
      rw [ih]
      rfl

theorem atPathMut2_eq (r : Loan (BinTree V) W) (p : List Nat) :
    atPathMut2 r p = (binKids.sub r.now p).map fun s => ⟨s, fun u => r.back (binKids.put r.now p u)⟩ := by
  induction p generalizing r with
  | nil => rfl
  | cons i p ih =>
    obtain ⟨⟨a, left, right⟩, back⟩ := r
    match i with
    | 0 =>
      cases left with
      | none => rfl
      | some c => simp only [atPathMut2, slotsMut, List.getElem?_cons_zero, Option.map_some]; rw [ih]; rfl
    | 1 =>
      cases right with
      | none => rfl
      | some c =>
        simp only [atPathMut2, slotsMut, List.getElem?_cons_succ, List.getElem?_cons_zero, Option.map_some]; rw [ih]; rfl
    | i + 2 => rfl

theorem atPathMutColl_eq (ts : List (Tree V)) (i : Nat) (p : List Nat) :
    atPathMutColl ts (i :: p) =
      ts[i]?.bind fun t => (atPathMut (lend t) p).map fun r => ⟨r.now, fun u => ts.set i (r.back u)⟩ := by
  simp only [atPathMutColl]
  cases ts[i]? with
  | none => rfl
  | some t =>
    simp only [Option.bind_some, atPathMut_eq, Option.map_map]
    rfl

theorem atPathMutColl2_eq (ts : List (BinTree V)) (i : Nat) (p : List Nat) :
    atPathMutColl2 ts (i :: p) =
      ts[i]?.bind fun t => (atPathMut2 (lend t) p).map fun r => ⟨r.now, fun u => ts.set i (r.back u)⟩ := by
  simp only [atPathMutColl2]
  cases ts[i]? with
  | none => rfl
  | some t =>
    simp only [Option.bind_some, atPathMut2_eq, Option.map_map]
    rfl

end AtPath

end TreeIter
