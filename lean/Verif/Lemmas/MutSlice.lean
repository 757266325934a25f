import Verif.Lemmas.MutRef
import Verif.Lemmas.Decor

/-! # Lemmas for writing through the slices of a mutable traversal -/

universe u v w x y

namespace TreeIter

theorem prefixes_snoc (p : List Nat) (i : Nat) : prefixes (p ++ [i]) = prefixes p ++ [p ++ [i]] := by
  rw [prefixes, prefixes, List.length_append, List.length_singleton, List.range_succ (n := p.length + 1),
    List.map_append]
  congr 1
  · refine List.map_congr_left fun j hj => ?_
    rw [List.mem_range] at hj
    rw [List.take_append_of_le_length (by omega)]
  · simp only [List.map_cons, List.map_nil, List.cons.injEq, and_true]
    exact List.take_of_length_le (by simp)

theorem nthCallE_okNext {S : Type u} {O : Type v} (next : S → Option O × S) (k : Nat) (s : S) :
    nthCallE (okNext next) k s = .ok (nthCall next k s) := by
  induction k generalizing s with
  | zero => rfl
  | succ k ih => exact ih (next s).2

section Loop
variable {S : Type u} {M : Type w} {V : Type x} {σ : Type y}

/-- A loop over slices of references is a fold over them while every reference has a cell. -/
theorem forEachSlice_spec (next : S → Except Panic (Option (List (List Nat)) × S))
    (read : M → List Nat → Option V) (write : M → List Nat → V → M) (f : σ → List V → σ × List V)
    (Good : M → Prop) (k : Nat) (s : S) (ps : List (List Nat)) (m : M) (w : σ)
    (hs : ∀ i, i < k → i ≤ ps.length → nthCallE next i s = .ok (ps.map prefixes)[i]?) (hm : Good m)
    (hread : ∀ m, Good m → ∀ p ∈ ps, ∀ a ∈ prefixes p, (read m a).isSome)
    (hwrite : ∀ m a x, Good m → Good (write m a x)) :
    forEachSlice next read write f k s m w = .ok ((ps.take k).foldl (visitAlong read write f) (m, w)) := by
  induction k generalizing s ps m w with
  | zero => simp [forEachSlice]
  | succ k ih =>
    have h0 := hs 0 (by simp) (by simp)
    rw [nthCallE, stateAfterE] at h0
    rw [forEachSlice]
    rcases hn : next s with e | ⟨o, s'⟩
    · simp [hn] at h0
    · simp only [hn, Except.ok.injEq] at h0
      subst h0
      cases ps with
      | nil => simp
      | cons p ps =>
        have hmap : (prefixes p).mapM (read m) = some ((prefixes p).filterMap (read m)) := by
          have := hread m hm p (by simp)
          generalize prefixes p = as at this
          induction as with
          | nil => rfl
          | cons a as iha =>
            obtain ⟨y, hy⟩ := Option.isSome_iff_exists.1 (this a (by simp))
            rw [List.mapM_cons, hy, iha fun b hb => this b (by simp [hb])]
            simp [hy]
        have hgood : ∀ (cs : List (List Nat × V)) (m : M), Good m →
            Good (cs.foldl (fun m c => write m c.1 c.2) m) := by
          intro cs
          induction cs with
          | nil => exact fun _ h => h
          | cons c cs ihc => exact fun m h => ihc _ (hwrite m _ _ h)
        simp only [List.map_cons, List.getElem?_cons_zero, hmap, List.take_succ_cons, List.foldl_cons]
        refine ih s' ps _ _ (fun i hi hl => ?_) (hgood _ _ hm)
          (fun m h q hq => hread m h q (by simp [hq]))
        have := hs (i + 1) (by omega) (by simpa using hl)
        rw [nthCallE, stateAfterE, hn] at this
        simpa [nthCallE] using this

end Loop

section Cells
variable {V : Type u}

theorem prefixes_withPos (t : Tree V) (pre pre' : List Nat) (anc : List V) (ancp : List (List Nat))
    (h : ancp ++ [pre] = prefixes pre) :
    (((t.withPos pre anc).map Pos.path).withPos pre' ancp).map Pos.ancestors =
      (t.withPos pre anc).map fun p => prefixes p.path := by
  induction t using Tree.ind generalizing pre pre' anc ancp with
  | h a cs ih =>
    rw [Tree.withPos, Tree.map_node, Tree.map_node, Tree.withPos, Tree.map_node]
    congr 1
    refine List.ext_getElem? fun j => ?_
    simp only [List.getElem?_map, withPosL_get, Option.map_map]
    cases hj : cs[j]? with
    | none => rfl
    | some c =>
      simp only [Option.map_some, Option.some.injEq, Function.comp_apply]
      exact ih c (List.mem_of_getElem? hj) _ _ _ _ (by rw [h]; simp [prefixes_snoc])

theorem prefixes_located (t : Tree V) :
    (t.located.map Pos.path).located.map Pos.ancestors = t.located.map fun p => prefixes p.path :=
  prefixes_withPos t [] [] [] [] (by simp [prefixes])

theorem prefixes_withPos2 (t : BinTree V) (pre pre' : List Nat) (anc : List V) (ancp : List (List Nat))
    (h : ancp ++ [pre] = prefixes pre) :
    (((t.withPos pre anc).map Pos.path).withPos pre' ancp).map Pos.ancestors =
      (t.withPos pre anc).map fun p => prefixes p.path := by
  induction t using BinTree.ind generalizing pre pre' anc ancp with
  | h a l r ihl ihr =>
    rw [BinTree.withPos, BinTree.map, BinTree.map, BinTree.withPos, BinTree.map]
    congr 1
    · cases l with
      | none => rfl
      | some l =>
        simp only [BinTree.withPosO, BinTree.mapO, Option.some.injEq]
        exact ihl l rfl _ _ _ _ (by rw [h]; simp [prefixes_snoc])
    · cases r with
      | none => rfl
      | some r =>
        simp only [BinTree.withPosO, BinTree.mapO, Option.some.injEq]
        exact ihr r rfl _ _ _ _ (by rw [h]; simp [prefixes_snoc])

theorem prefixes_located2 (t : BinTree V) :
    (t.located.map Pos.path).located.map Pos.ancestors = t.located.map fun p => prefixes p.path :=
  prefixes_withPos2 t [] [] [] [] (by simp [prefixes])

theorem cell_prefix (t : Tree V) (p : List Nat) (i : Nat) (h : (t.cell p).isSome) :
    (t.cell (p.take i)).isSome := by
  induction p generalizing t i with
  | nil => simpa using h
  | cons j p ih =>
    rcases t with ⟨a, cs⟩
    cases i with
    | zero => simp [Tree.cell]
    | succ i =>
      rw [Tree.cell] at h
      rw [List.take_succ_cons, Tree.cell]
      cases hj : cs[j]? with
      | none => simp [hj] at h
      | some c =>
        simp only [hj] at h ⊢
        exact ih c i h

theorem cell_setCell (t : Tree V) (p q : List Nat) (x : V) :
    ((t.setCell p x).cell q).isSome = (t.cell q).isSome := by
  induction p generalizing t q with
  | nil =>
    rcases t with ⟨a, cs⟩
    cases q <;> simp [Tree.setCell, Tree.cell]
  | cons i p ih =>
    rcases t with ⟨a, cs⟩
    rw [Tree.setCell]
    cases hi : cs[i]? with
    | none => rfl
    | some c =>
      cases q with
      | nil => simp [Tree.cell]
      | cons j q =>
        simp only [Tree.cell, List.getElem?_set]
        by_cases hij : i = j
        · subst hij
          obtain ⟨hl, _⟩ := List.getElem?_eq_some_iff.1 hi
          simp only [if_true, hl, hi]
          exact ih c q
        · simp only [if_neg hij]

theorem cell_prefix2 (t : BinTree V) (p : List Nat) (i : Nat) (h : (t.cell p).isSome) :
    (t.cell (p.take i)).isSome := by
  induction p generalizing t i with
  | nil => simpa using h
  | cons j p ih =>
    cases i with
    | zero => cases t; simp [BinTree.cell]
    | succ i =>
      rcases t with ⟨a, _ | l, _ | r⟩ <;> rcases j with _ | _ | j <;>
        simp_all [BinTree.cell]

theorem cell_setCell2 (t : BinTree V) (p q : List Nat) (x : V) :
    ((t.setCell p x).cell q).isSome = (t.cell q).isSome := by
  induction p generalizing t q with
  | nil =>
    rcases t with ⟨a, l, r⟩
    cases q with
    | nil => simp [BinTree.setCell, BinTree.cell]
    | cons j q =>
      rcases l with _ | l <;> rcases r with _ | r <;> rcases j with _ | _ | j <;>
        simp [BinTree.setCell, BinTree.cell]
  | cons i p ih =>
    rcases t with ⟨a, _ | l, _ | r⟩ <;> rcases i with _ | _ | i <;> cases q with
    | nil => simp [BinTree.setCell, BinTree.cell]
    | cons j q => rcases j with _ | _ | j <;> simp [BinTree.setCell, BinTree.cell, ih]

end Cells

end TreeIter
