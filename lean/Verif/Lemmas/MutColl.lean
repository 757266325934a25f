import Verif.Model.MutColl
import Verif.Lemmas.MutPipe
import Verif.Spec.Collection

/-! # Lemmas for collections of mutably borrowed trees -/

universe u v w x y z z' z0

namespace TreeIter

/-! ## Memory -/

/-- Memory that consists of cells: `fill m g` is the memory like `m` with `g a` in the cell `a`. -/
structure Cells (M : Type u) (V : Type v) where
  cell : M → List Nat → Option V
  set : M → List Nat → V → M
  fill : M → (List Nat → V) → M
  read : ∀ m g a, cell (fill m g) a = (cell m a).map fun _ => g a
  write : ∀ m g x a, (cell m a).isSome → set (fill m g) a x = fill m (Function.update g a x)
  self : ∀ m, Nonempty V → ∃ g, fill m g = m

/-- A tree as memory. -/
def treeCells (V : Type u) : Cells (Tree V) V where
  cell := Tree.cell
  set := Tree.setCell
  fill := Tree.fill
  read := cell_fill
  write := setCell_fill
  self t _ := exists_fill t

/-- A binary tree as memory. -/
def binCells (V : Type u) : Cells (BinTree V) V where
  cell := BinTree.cell
  set := BinTree.setCell
  fill := BinTree.fill
  read := cell_fill2
  write := setCell_fill2
  self t _ := exists_fill2 t

section
variable {T : Type u} {V : Type v}

theorem mapIdx_modify {α : Type u} {β : Type v} (f : Nat → α → β) (h : β → β) (f' : Nat → α → β) (i : Nat) (ts : List α)
    (hi : ∀ t ∈ ts[i]?, h (f i t) = f' i t) (hn : ∀ j t, j ≠ i → f j t = f' j t) :
    (ts.mapIdx f).modify i h = ts.mapIdx f' := by
  refine List.ext_getElem? fun j => ?_
  rw [List.getElem?_modify, List.getElem?_mapIdx, List.getElem?_mapIdx]
  by_cases hj : i = j
  · subst hj
    cases ht : ts[i]? with
    | none => rfl
    | some t => simp [hi t (by simp [ht])]
  · cases ts[j]? with
    | none => rfl
    | some t => simp [hj, hn j t (Ne.symm hj)]

/-- A collection of trees as memory. -/
def Cells.each (C : Cells T V) : Cells (List T) V where
  cell := forestCell C.cell
  set := forestSet C.set
  fill ts g := ts.mapIdx fun i t => C.fill t fun p => g (i :: p)
  read ts g a := by
    cases a with
    | nil => rfl
    | cons i p =>
      simp only [forestCell, List.getElem?_mapIdx]
      cases ts[i]? with
      | none => rfl
      | some t => simp [C.read]
  write ts g x a ha := by
    cases a with
    | nil => simp [forestCell] at ha
    | cons i p =>
      refine mapIdx_modify _ _ _ i ts (fun t ht => ?_) fun j t hj => ?_
      · have hc : (C.cell t p).isSome := by
          simp only [Option.mem_def] at ht
          simpa [forestCell, ht] using ha
        show C.set (C.fill t _) p x = C.fill t _
        rw [C.write _ _ _ _ hc]
        congr 1
        funext q
        by_cases hq : q = p
        · subst hq
          simp
        · rw [Function.update_of_ne hq, Function.update_of_ne (by simpa using hq)]
      · congr 1
        funext q
        rw [Function.update_of_ne (by simp [hj])]
  self ts hV := by
    have h : ∀ t : T, ∃ g, C.fill t g = t := fun t => C.self t hV
    refine ⟨fun a => match a with
      | [] => Classical.choice hV
      | i :: p => match ts[i]? with
        | none => Classical.choice hV
        | some t => Classical.choose (h t) p, ?_⟩
    refine List.ext_getElem? fun j => ?_
    rw [List.getElem?_mapIdx]
    cases hj : ts[j]? with
    | none => rfl
    | some t =>
      simp only [Option.map_some, hj]
      exact congrArg some (Classical.choose_spec (h t))

/-! ## Loops -/

variable {M : Type w} {σ : Type x} {S : Type y}

/-- A loop over references into memory, `list` being the listing of the memory in the order of the references. -/
theorem Cells.loop (C : Cells M V) (next : S → Option (List Nat) × S) (s : S) (m : M) (f : σ → V → σ × V) (w : σ) (k : Nat)
    (refs : List (List Nat)) (xs : List V) (hx : refs.map (C.cell m) = xs.map some) (hnd : refs.Nodup)
    (hs : ∀ i, nthCall next i s = refs[i]?) :
    ∃ m', forEachMut next C.cell C.set f k s m w = (m', (mapAccum f w (xs.take k)).2) ∧
      refs.map (C.cell m') = ((mapAccum f w (xs.take k)).1 ++ xs.drop k).map some ∧
      (∀ a, a ∉ refs → C.cell m' a = C.cell m a) ∧ (m' = m ∨ ∃ g, m' = C.fill m g) := by
  cases refs with
  | nil =>
    obtain rfl : xs = [] := by simpa using hx.symm
    refine ⟨m, ?_, by simp [mapAccum], fun _ _ => rfl, .inl rfl⟩
    cases k with
    | zero => simp [forEachMut, mapAccum]
    | succ k =>
      have h0 := hs 0
      rw [nthCall, stateAfter] at h0
      rcases hn : next s with ⟨o, s'⟩
      rw [hn] at h0
      obtain rfl : o = none := by simpa using h0
      simp [forEachMut, hn, mapAccum]
  | cons a0 refs0 =>
    have hV : Nonempty V := by
      cases xs with
      | nil => simp at hx
      | cons x _ => exact ⟨x⟩
    generalize a0 :: refs0 = refs at *
    obtain ⟨g0, hg0⟩ := C.self m hV
    have hsome : ∀ a ∈ refs, (C.cell m a).isSome := by
      intro a ha
      have : C.cell m a ∈ xs.map some := hx ▸ List.mem_map_of_mem ha
      obtain ⟨x, -, hx⟩ := List.mem_map.1 this
      simp [← hx]
    obtain ⟨g, h1, h2, h3⟩ := forEachMut_spec next C.cell C.set f (C.fill m) k s refs g0 w hs hnd
      (fun g a ha => by
        rw [C.read]
        obtain ⟨y, hy⟩ := Option.isSome_iff_exists.1 (hsome a ha)
        simp [hy])
      (fun g x a ha => C.write m g x a (hsome a ha))
    have e : refs.map g0 = xs := by
      have : (refs.map g0).map some = xs.map some := by
        rw [← hx, List.map_map]
        refine List.map_congr_left fun a ha => ?_
        obtain ⟨y, hy⟩ := Option.isSome_iff_exists.1 (hsome a ha)
        have h := C.read m g0 a
        rw [hg0, hy, Option.map_some, Option.some.injEq] at h
        rw [hy, Function.comp_apply, ← h]
      exact (List.map_inj_right fun _ _ => Option.some.inj).1 this
    rw [List.map_take, e] at h1 h2
    rw [List.map_drop, e] at h2
    rw [hg0] at h1
    refine ⟨C.fill m g, h1, ?_, ?_, .inr ⟨g, rfl⟩⟩
    · rw [← h2, List.map_map]
      refine List.map_congr_left fun a ha => ?_
      obtain ⟨y, hy⟩ := Option.isSome_iff_exists.1 (hsome a ha)
      simp [C.read, hy]
    · intro a ha
      rw [C.read]
      conv => rhs; rw [← hg0, C.read]
      rw [h3 a ha]

/-- The addresses of a listing of a collection. -/
def eachRefs (refs : T → List (List Nat)) (ts : List T) : List (List Nat) :=
  (ts.mapIdx fun i t => (refs t).map (i :: ·)).flatten

theorem mem_eachRefs {refs : T → List (List Nat)} {ts : List T} {a : List Nat} :
    a ∈ eachRefs refs ts ↔ ∃ i t p, ts[i]? = some t ∧ p ∈ refs t ∧ a = i :: p := by
  simp only [eachRefs, List.mem_flatten, List.mem_mapIdx]
  constructor
  · rintro ⟨l, ⟨i, hi, rfl⟩, ha⟩
    obtain ⟨p, hp, rfl⟩ := List.mem_map.1 ha
    exact ⟨i, ts[i], p, List.getElem?_eq_getElem hi, hp, rfl⟩
  · rintro ⟨i, t, p, ht, hp, rfl⟩
    obtain ⟨hi, rfl⟩ := List.getElem?_eq_some_iff.1 ht
    exact ⟨_, ⟨i, hi, rfl⟩, List.mem_map_of_mem hp⟩

theorem eachRefs_nodup (refs : T → List (List Nat)) (ts : List T) (h : ∀ t ∈ ts, (refs t).Nodup) :
    (eachRefs refs ts).Nodup := by
  rw [eachRefs, List.nodup_flatten]
  constructor
  · intro l hl
    rw [List.mem_mapIdx] at hl
    obtain ⟨i, hi, rfl⟩ := hl
    exact List.Nodup.map (fun _ _ h => by simpa using h) (h _ (List.getElem_mem hi))
  · rw [List.pairwise_iff_getElem]
    intro i j hi hj hij a ha hb
    simp only [List.getElem_mapIdx, List.mem_map] at ha hb
    obtain ⟨p, -, rfl⟩ := ha
    obtain ⟨q, -, hq⟩ := hb
    simp only [List.cons.injEq] at hq
    omega

/-- The listing of a collection is the listing of its cells. -/
theorem eachRefs_cells (C : Cells T V) (refs : T → List (List Nat)) (list : T → List V) (ts : List T)
    (h : ∀ t ∈ ts, (refs t).map (C.cell t) = (list t).map some) :
    (eachRefs refs ts).map (C.each.cell ts) = (ts.flatMap list).map some := by
  have key : ∀ (ds pre : List T), ts = pre ++ ds →
      ((ds.mapIdx fun i t => (refs t).map ((pre.length + i) :: ·)).flatten).map (C.each.cell ts) =
        (ds.flatMap list).map some := by
    intro ds
    induction ds with
    | nil => intro pre _; rfl
    | cons d ds ih =>
      intro pre hp
      rw [List.mapIdx_cons, List.flatten_cons, List.map_append, List.flatMap_cons, List.map_append]
      have h1 := ih (pre ++ [d]) (by simp [hp])
      simp only [List.length_append, List.length_singleton] at h1
      rw [← h1, ← h d (by simp [hp]), List.map_map]
      congr 1
      · refine List.map_congr_left fun p _ => ?_
        show (ts[pre.length + 0]?.bind fun t => C.cell t p) = _
        rw [hp]
        simp
      · congr 3
        funext i t
        rw [Nat.add_assoc, Nat.add_comm i 1]
  simpa [eachRefs] using key ts [] rfl

/-- A loop over all references into a collection, in the order of the listing `list` of each tree. -/
theorem Cells.loopEach (C : Cells T V) (next : S → Option (List Nat) × S) (s : S) (ts : List T) (f : σ → V → σ × V) (w : σ)
    (k : Nat) (refs : T → List (List Nat)) (list : T → List V) (hnd : ∀ t ∈ ts, (refs t).Nodup)
    (hl : ∀ t, (refs t).map (C.cell t) = (list t).map some) (hr : ∀ t g, refs (C.fill t g) = refs t)
    (hs : ∀ i, nthCall next i s = (eachRefs refs ts)[i]?) :
    ∃ ts', forEachMut next (forestCell C.cell) (forestSet C.set) f k s ts w =
        (ts', (mapAccum f w ((ts.flatMap list).take k)).2) ∧
      ts'.flatMap list = (mapAccum f w ((ts.flatMap list).take k)).1 ++ (ts.flatMap list).drop k ∧
      (∀ a, a ∉ eachRefs refs ts → forestCell C.cell ts' a = forestCell C.cell ts a) ∧
      (ts' = ts ∨ ∃ g, ts' = C.each.fill ts g) := by
  obtain ⟨ts', h1, h2, h3, h4⟩ := C.each.loop next s ts f w k (eachRefs refs ts) (ts.flatMap list)
    (eachRefs_cells C refs list ts fun t _ => hl t) (eachRefs_nodup refs ts hnd) hs
  refine ⟨ts', h1, ?_, h3, h4⟩
  have e : eachRefs refs ts' = eachRefs refs ts := by
    rcases h4 with rfl | ⟨g, rfl⟩
    · rfl
    · simp only [eachRefs, Cells.each]
      congr 1
      refine List.ext_getElem? fun j => ?_
      simp only [List.getElem?_mapIdx]
      cases ts[j]? with
      | none => rfl
      | some t => simp [hr]
  have h := eachRefs_cells C refs list ts' fun t _ => hl t
  rw [e, h2] at h
  exact ((List.map_inj_right fun _ _ => Option.some.inj).1 h).symm

theorem Cells.each_shape {Q : Type z} (C : Cells T V) (shape : T → Q) (hq : ∀ t g, shape (C.fill t g) = shape t)
    {ts ts' : List T} (h : ts' = ts ∨ ∃ g, ts' = C.each.fill ts g) : ts'.map shape = ts.map shape := by
  rcases h with rfl | ⟨g, rfl⟩
  · rfl
  · refine List.ext_getElem? fun j => ?_
    simp only [Cells.each, List.getElem?_map, List.getElem?_mapIdx]
    cases ts[j]? with
    | none => rfl
    | some t => simp [hq]

end

/-! ## Borrowed collections -/

section
variable {V : Type u}

theorem treeOf_mutRef_at (t : Tree V) (i : Nat) (p : List Nat) :
    treeOf (MutRef.mk (i :: p) t) = (treeOf (MutRef.mk p t)).map (i :: ·) := by
  induction t using Tree.ind generalizing p with
  | h a cs ih =>
    rw [treeOf, unfold_eq, treeOf, unfold_eq, Tree.map_node, Tree.map_node, Tree.map_node]
    congr 1
    refine List.ext_getElem? fun j => ?_
    simp only [List.getElem?_map, kids, split, Tree.children, List.getElem?_mapIdx, Option.map_map]
    cases hj : cs[j]? with
    | none => rfl
    | some c =>
      simp only [Option.map_some, Option.some.injEq, Function.comp_apply]
      simpa [treeOf] using ih c (List.mem_of_getElem? hj) (p ++ [j])

theorem binTreeOf_mutRef_at (t : BinTree V) (i : Nat) (p : List Nat) :
    binTreeOf (MutRef2.mk (i :: p) t) = (binTreeOf (MutRef2.mk p t)).map (i :: ·) := by
  induction t using BinTree.ind generalizing p with
  | h a l r ihl ihr =>
    rw [binTreeOf, unfold2_eq, binTreeOf, unfold2_eq, BinTree.map, BinTree.map, BinTree.map]
    simp only [split2, BinTree.mapO_eq]
    congr 1
    · cases l with
      | none => rfl
      | some l =>
        simp only [Option.map_some, Option.some.injEq]
        exact ihl l rfl (p ++ [0])
    · cases r with
      | none => rfl
      | some r =>
        simp only [Option.map_some, Option.some.injEq]
        exact ihr r rfl (p ++ [1])

/-- The addresses of the nodes of a tree, and of a tree in a collection. -/
def Tree.addrs (t : Tree V) : Tree (List Nat) := t.located.map Pos.path

def BinTree.addrs (t : BinTree V) : BinTree (List Nat) := t.located.map Pos.path

theorem borrowEach_trees (ts : List (Tree V)) :
    (borrowEach ts).map treeOf = ts.mapIdx fun i t => t.addrs.map (i :: ·) := by
  refine List.ext_getElem? fun j => ?_
  simp only [borrowEach, List.getElem?_map, List.getElem?_mapIdx]
  cases ts[j]? with
  | none => rfl
  | some t => simp [treeOf_mutRef_at, treeOf_mutRef, Tree.addrs]

theorem borrowEach2_trees (ts : List (BinTree V)) :
    (borrowEach2 ts).map binTreeOf = ts.mapIdx fun i t => t.addrs.map (i :: ·) := by
  refine List.ext_getElem? fun j => ?_
  simp only [borrowEach2, List.getElem?_map, List.getElem?_mapIdx]
  cases ts[j]? with
  | none => rfl
  | some t => simp [binTreeOf_mutRef_at, binTreeOf_mutRef, BinTree.addrs]

theorem flatMap_mapIdx {A : Type u} {B : Type v} {R : Type w} (f : Nat → A → B) (g : B → List R) (as : List A) :
    (as.mapIdx f).flatMap g = (as.mapIdx fun i a => g (f i a)).flatten := by
  rw [List.flatMap_def]
  congr 1
  refine List.ext_getElem? fun j => ?_
  simp only [List.getElem?_map, List.getElem?_mapIdx, Option.map_map]
  rfl

theorem flatMap_borrowEach {R : Type v} (g : Tree (List Nat) → List R) (ts : List (Tree V)) :
    ((borrowEach ts).flatMap fun n => g (treeOf n)) = (ts.mapIdx fun i t => g (t.addrs.map (i :: ·))).flatten := by
  have h := congrArg (List.flatMap g) (borrowEach_trees ts)
  rw [List.flatMap_map, flatMap_mapIdx] at h
  exact h

theorem flatMap_borrowEach2 {R : Type v} (g : BinTree (List Nat) → List R) (ts : List (BinTree V)) :
    ((borrowEach2 ts).flatMap fun n => g (binTreeOf n)) = (ts.mapIdx fun i t => g (t.addrs.map (i :: ·))).flatten := by
  have h := congrArg (List.flatMap g) (borrowEach2_trees ts)
  rw [List.flatMap_map, flatMap_mapIdx] at h
  exact h

theorem addrs_fill (t : Tree V) (g : List Nat → V) : (t.fill g).addrs = t.addrs := by
  rw [Tree.addrs, Tree.addrs, ← treeOf_mutRef, ← treeOf_mutRef]
  suffices h : ∀ (t : Tree V) (p : List Nat) (t' : Tree V), t'.shape = t.shape → treeOf (MutRef.mk p t') = treeOf (MutRef.mk p t) from
    h t [] _ (shape_fill t g)
  intro t
  induction t using Tree.ind with
  | h a cs ih =>
    intro p t' ht
    obtain ⟨b, ds⟩ := t'
    simp only [Tree.shape, Tree.map_node, Tree.node.injEq, true_and] at ht
    rw [treeOf, unfold_eq, treeOf, unfold_eq, Tree.map_node, Tree.map_node]
    congr 1
    refine List.ext_getElem? fun j => ?_
    simp only [List.getElem?_map, kids, split, Tree.children, List.getElem?_mapIdx, Option.map_map]
    have hj := congrArg (fun l => l[j]?) ht
    simp only [List.getElem?_map] at hj
    cases hc : cs[j]? with
    | none =>
      rw [hc] at hj
      cases hd : ds[j]? with
      | none => rfl
      | some d => rw [hd] at hj; simp at hj
    | some c =>
      rw [hc] at hj
      cases hd : ds[j]? with
      | none => rw [hd] at hj; simp at hj
      | some d =>
        rw [hd] at hj
        simp only [Option.map_some, Option.some.injEq, Function.comp_apply] at hj ⊢
        simpa [treeOf] using ih c (List.mem_of_getElem? hc) (p ++ [j]) d hj

theorem addrs_fill2 (t : BinTree V) (g : List Nat → V) : (t.fill g).addrs = t.addrs := by
  rw [BinTree.addrs, BinTree.addrs, ← binTreeOf_mutRef, ← binTreeOf_mutRef]
  suffices h : ∀ (t : BinTree V) (p : List Nat) (t' : BinTree V), t'.shape = t.shape →
      binTreeOf (MutRef2.mk p t') = binTreeOf (MutRef2.mk p t) from h t [] _ (shape_fill2 t g)
  intro t
  induction t using BinTree.ind with
  | h a l r ihl ihr =>
    intro p t' ht
    obtain ⟨b, l', r'⟩ := t'
    simp only [BinTree.shape, BinTree.map, BinTree.node.injEq, true_and, BinTree.mapO_eq] at ht
    rw [binTreeOf, unfold2_eq, binTreeOf, unfold2_eq, BinTree.map, BinTree.map]
    simp only [split2, BinTree.mapO_eq]
    congr 1
    · cases l <;> cases l' <;> simp at ht ⊢
      exact ihl _ rfl (p ++ [0]) _ ht.1
    · cases r <;> cases r' <;> simp at ht ⊢
      exact ihr _ rfl (p ++ [1]) _ ht.2

theorem addrs_cells (t : Tree V) : t.addrs.map t.cell = t.map some := by
  rw [Tree.addrs, Tree.map_map]
  conv => rhs; rw [← map_item_located t, Tree.map_map]
  exact map_congr_mem _ _ _ fun p hp => cell_of_mem_located t p hp

theorem addrs_cells2 (t : BinTree V) : t.addrs.map t.cell = t.map some := by
  rw [BinTree.addrs, BinTree.map_map]
  conv => rhs; rw [← map_item_located2 t, BinTree.map_map]
  exact map_congr_mem2 _ _ _ fun p hp => cell_of_mem_located2 t p hp

theorem addrs_nodup (t : Tree V) : t.addrs.preorder.Nodup := by
  rw [Tree.addrs, Tree.preorder_map]
  exact located_nodup t

theorem addrs_nodup2 (t : BinTree V) : t.addrs.toTree.preorder.Nodup := by
  rw [BinTree.addrs, BinTree.toTree_map, Tree.preorder_map]
  exact located2_nodup t

end

/-! ## Operations tree by tree -/

/-- An operation on each tree of references that writes through them, against the same operation `G` on the values, which
returns what is left behind (`h1`) and what is returned (`h2`). -/
theorem each_refs {A : Type u} {V : Type v} {M : Type w} {σ : Type x} {TA : Type y} {TV : Type z} {R : Type z'} {O : Type z0}
    (nodes : TA → List A) (view : (A → V) → TA → TV) (fill : (A → V) → M) (ok : A → Prop)
    (F : M × σ → Nat → TA → (M × σ) × O) (G : σ → Nat → TV → σ × R) (h1 : R → TV) (h2 : R → O)
    (hview : ∀ L g g', (∀ a ∈ nodes L, g a = g' a) → view g L = view g' L)
    (hstep : ∀ L i g w, (nodes L).Nodup → (∀ a ∈ nodes L, ok a) →
      ∃ g', F (fill g, w) i L = ((fill g', (G w i (view g L)).1), h2 (G w i (view g L)).2) ∧
        view g' L = h1 (G w i (view g L)).2 ∧ ∀ a, a ∉ nodes L → g' a = g a) (Ls : List TA) :
    ∀ (g : A → V) (w : σ) (i : Nat), (Ls.flatMap nodes).Nodup → (∀ a ∈ Ls.flatMap nodes, ok a) →
      ∃ g', eachS (fun mw i L => kept (F mw i L)) (fill g, w) i Ls =
          ((fill g', (eachS (fun w i t => kept (G w i t)) w i (Ls.map (view g))).1),
            (eachS (fun w i t => kept (G w i t)) w i (Ls.map (view g))).2.map h2) ∧
        Ls.map (view g') = (eachS (fun w i t => kept (G w i t)) w i (Ls.map (view g))).2.map h1 ∧
        ∀ a, a ∉ Ls.flatMap nodes → g' a = g a := by
  induction Ls with
  | nil => intro g w i _ _; exact ⟨g, rfl, rfl, fun _ _ => rfl⟩
  | cons L Ls ih =>
    intro g w i hnd hok
    rw [List.flatMap_cons, List.nodup_append'] at hnd
    simp only [List.flatMap_cons, List.mem_append] at hok
    obtain ⟨g1, e1, e2, e3⟩ := hstep L i g w hnd.1 fun a ha => hok a (.inl ha)
    obtain ⟨g2, e4, e5, e6⟩ := ih g1 (G w i (view g L)).1 (i + 1) hnd.2.1 fun a ha => hok a (.inr ha)
    have v1 : Ls.map (view g1) = Ls.map (view g) := List.map_congr_left fun b hb =>
      hview b _ _ fun a ha => e3 a fun h => hnd.2.2 h (List.mem_flatMap.2 ⟨b, hb, ha⟩)
    have v2 : view g2 L = view g1 L := hview L _ _ fun a ha => e6 a fun h => hnd.2.2 ha h
    rw [v1] at e4 e5
    refine ⟨g2, ?_, ?_, ?_⟩
    · simp only [eachS, kept, e1, List.map_cons, Option.toList_some, List.cons_append, List.nil_append] at e4 ⊢
      rw [e4]
    · simp only [eachS, kept, List.map_cons, Option.toList_some, List.cons_append, List.nil_append] at e5 ⊢
      rw [v2, e2, e5]
    · intro a ha
      simp only [List.flatMap_cons, List.mem_append, not_or] at ha
      rw [e6 a ha.2, e3 a ha.1]

end TreeIter
