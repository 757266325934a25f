import Verif.Lemmas.AtPathMut
import Verif.Props.MutRef
import Verif.Props.Positions
import Verif.Props.BreadthFirstCtx

/-! # C66: what is written through `at_path_mut` changes the subtree there and nothing else -/

universe u v w

namespace TreeIter

open AtPath

variable {V : Type u} {σ : Type v}

/-! ## General trees -/

theorem atPath_eq_sub (t : Tree V) (p : List Nat) : atPath t p = treeKids.sub t p := by
  induction p generalizing t with
  | nil => rfl
  | cons i p ih =>
    cases t with
    | node a cs =>
      simp only [atPath, Kids.sub]
      have h1 : kids (Tree.node a cs) = cs := rfl
      have h2 : treeKids.kid (Tree.node a cs) i = cs[i]? := rfl
      rw [h1, h2]
      cases cs[i]? with
      | none => rfl
      | some c => exact ih c

theorem reaches_iff (t s : Tree V) (p : List Nat) : Reaches t p s ↔ treeKids.sub t p = some s := by
  rw [← C16_at_path, atPath_eq_sub]

theorem atPathMut_some {t : Tree V} {p : List Nat} {r : Loan (Tree V) (Tree V)} (h : atPathMut (lend t) p = some r) :
    treeKids.sub t p = some r.now ∧ ∀ u, r.back u = treeKids.put t p u := by
  rw [atPathMut_eq] at h
  obtain ⟨s, h1, rfl⟩ := Option.map_eq_some_iff.1 h
  exact ⟨h1, fun _ => rfl⟩

/-- C66: `at_path_mut` finds the same node as `at_path`. -/
theorem C66_found (t s : Tree V) (p : List Nat) :
    (atPathMut (lend t) p).map Loan.now = some s ↔ Reaches t p s := by
  rw [reaches_iff, atPathMut_eq, Option.map_map]
  change Option.map id _ = _ ↔ _
  rw [Option.map_id_fun, id]
  rfl

/-- C66: a reference nothing is written through changes nothing. -/
theorem C66_unwritten (t : Tree V) (p : List Nat) (r : Loan (Tree V) (Tree V)) (h : atPathMut (lend t) p = some r) :
    r.back r.now = t := by
  obtain ⟨h1, h2⟩ := atPathMut_some h
  rw [h2, Kids.put_sub _ _ _ _ h1]

example := C66_unwritten sampleTree [1, 0] _ rfl

/-- C66: after `u` has been written, the descendants of the node at `p` are those of `u`. -/
theorem C66_written (t : Tree V) (p : List Nat) (r : Loan (Tree V) (Tree V)) (h : atPathMut (lend t) p = some r)
    (u m : Tree V) (q : List Nat) : Reaches (r.back u) (p ++ q) m ↔ Reaches u q m := by
  obtain ⟨h1, h2⟩ := atPathMut_some h
  rw [reaches_iff, reaches_iff, h2, Kids.sub_append, Kids.sub_put _ _ _ _ _ h1, Option.bind_some]

example := C66_written sampleTree [0] _ rfl (.node 7 [.node 8 []]) (.node 7 [.node 8 []]) []

/-- C66: nodes neither above nor below keep their places and their subtrees. -/
theorem C66_elsewhere (t : Tree V) (p : List Nat) (r : Loan (Tree V) (Tree V)) (h : atPathMut (lend t) p = some r)
    (u m : Tree V) (q : List Nat) (h1 : ¬ p <+: q) (h2 : ¬ q <+: p) : Reaches (r.back u) q m ↔ Reaches t q m := by
  rw [reaches_iff, reaches_iff, (atPathMut_some h).2, Kids.sub_put_other _ _ _ _ _ h1 h2]

example := C66_elsewhere sampleTree [0] _ rfl (.node 7 [.node 8 []]) (.node 7 [.node 8 []]) [1, 0] (by decide) (by decide)

/-- C66: nodes above keep their values and the number of their children. -/
theorem C66_above (t : Tree V) (p : List Nat) (r : Loan (Tree V) (Tree V)) (h : atPathMut (lend t) p = some r)
    (u m : Tree V) (q : List Nat) (h1 : q <+: p) (h2 : q ≠ p) (hm : Reaches t q m) :
    ∃ m', Reaches (r.back u) q m' ∧ m'.value = m.value ∧ m'.children.length = m.children.length := by
  obtain ⟨a, rfl⟩ := h1
  obtain ⟨h3, h4⟩ := atPathMut_some h
  rw [reaches_iff] at hm
  rw [Kids.sub_append, hm, Option.bind_some] at h3
  rw [h4, Kids.put_append _ _ _ _ _ _ hm]
  refine ⟨_, (reaches_iff _ _ _).2 (Kids.sub_put _ _ _ _ _ hm), ?_⟩
  cases a with
  | nil => simp at h2
  | cons i a =>
    simp only [Kids.put]
    cases treeKids.kid m i with
    | none => exact ⟨rfl, rfl⟩
    | some c => exact ⟨rfl, List.length_set⟩

example := C66_above sampleTree [0, 1] _ rfl (.node 7 []) sampleTree [] (by decide) (by decide) ((reaches_iff _ _ _).2 rfl)

theorem preorder_put (t s : Tree V) (p : List Nat) (h : treeKids.sub t p = some s) :
    ∃ l r, ∀ u, (treeKids.put t p u).preorder = l ++ u.preorder ++ r := by
  induction p generalizing t with
  | nil => exact ⟨[], [], fun u => by simp [Kids.put]⟩
  | cons i p ih =>
    cases t with
    | node a cs =>
      cases hk : cs[i]? with
      | none =>
        have : treeKids.kid (.node a cs) i = none := hk
        simp [Kids.sub, this] at h
      | some c =>
        have hk' : treeKids.kid (.node a cs) i = some c := hk
        obtain ⟨l, r, hu⟩ := ih c (by simpa [Kids.sub, hk'] using h)
        have hi := (List.getElem?_eq_some_iff.1 hk).1
        refine ⟨a :: ((cs.take i).flatMap Tree.preorder ++ l), r ++ (cs.drop (i + 1)).flatMap Tree.preorder, fun u => ?_⟩
        simp only [Kids.put, hk']
        change (Tree.node a (cs.set i _)).preorder = _
        rw [Tree.preorder_node, List.set_eq_take_append_cons_drop, if_pos hi, List.flatMap_append, List.flatMap_cons, hu]
        simp

theorem postorder_put (t s : Tree V) (p : List Nat) (h : treeKids.sub t p = some s) :
    ∃ l r, ∀ u, (treeKids.put t p u).postorder = l ++ u.postorder ++ r := by
  induction p generalizing t with
  | nil => exact ⟨[], [], fun u => by simp [Kids.put]⟩
  | cons i p ih =>
    cases t with
    | node a cs =>
      cases hk : cs[i]? with
      | none =>
        have : treeKids.kid (.node a cs) i = none := hk
        simp [Kids.sub, this] at h
      | some c =>
        have hk' : treeKids.kid (.node a cs) i = some c := hk
        obtain ⟨l, r, hu⟩ := ih c (by simpa [Kids.sub, hk'] using h)
        have hi := (List.getElem?_eq_some_iff.1 hk).1
        refine ⟨(cs.take i).flatMap Tree.postorder ++ l, r ++ ((cs.drop (i + 1)).flatMap Tree.postorder ++ [a]), fun u => ?_⟩
        simp only [Kids.put, hk']
        change (Tree.node a (cs.set i _)).postorder = _
        rw [Tree.postorder_node, List.set_eq_take_append_cons_drop, if_pos hi, List.flatMap_append, List.flatMap_cons, hu]
        simp

/-- C66: the traversals of the tree change in one block. -/
theorem C66_listings (t : Tree V) (p : List Nat) (r : Loan (Tree V) (Tree V)) (h : atPathMut (lend t) p = some r) :
    (∃ left right, ∀ u, (r.back u).preorder = left ++ u.preorder ++ right) ∧
    ∃ left right, ∀ u, (r.back u).postorder = left ++ u.postorder ++ right := by
  obtain ⟨h1, h2⟩ := atPathMut_some h
  simp only [h2]
  exact ⟨preorder_put t _ p h1, postorder_put t _ p h1⟩

example := C66_listings sampleTree [1, 0] _ rfl

/-- C66: asking again after writing `u` finds `u`, and what is written then replaces it. -/
theorem C66_again (t : Tree V) (p : List Nat) (r : Loan (Tree V) (Tree V)) (h : atPathMut (lend t) p = some r) (u : Tree V) :
    ∃ r', atPathMut (lend (r.back u)) p = some r' ∧ r'.now = u ∧ ∀ v, r'.back v = r.back v := by
  obtain ⟨h1, h2⟩ := atPathMut_some h
  refine ⟨⟨u, fun v => treeKids.put (r.back u) p v⟩, ?_, rfl, fun v => ?_⟩
  · rw [atPathMut_eq]
    have : treeKids.sub (lend (r.back u)).now p = some u := by
      rw [show (lend (r.back u)).now = treeKids.put t p u from h2 u]
      exact Kids.sub_put _ _ _ _ _ h1
    rw [this]
    rfl
  · simp only [h2]
    exact Kids.put_put _ _ _ _ _ _ h1

example := C66_again sampleTree [0] _ rfl (.node 7 [.node 8 []])

/-- C66: going on from the node found is the same as going there at once. -/
theorem C66_nested {W : Type w} (c : Loan (Tree V) W) (p q : List Nat) :
    atPathMut c (p ++ q) = (atPathMut c p).bind fun r => atPathMut r q := by
  simp only [atPathMut_eq, Kids.sub_append]
  cases h : treeKids.sub c.now p with
  | none => rfl
  | some s =>
    simp only [Option.bind_some, Option.map_some, Kids.put_append _ _ _ _ _ _ h]

/-- C66: two edits at places neither of which lies above the other can be made in either order. -/
theorem C66_apart (t : Tree V) (p q : List Nat) (h1 : ¬ p <+: q) (h2 : ¬ q <+: p) (u v : Tree V)
    (r s : Loan (Tree V) (Tree V)) (hr : atPathMut (lend t) p = some r) (hs : atPathMut (lend t) q = some s) :
    ∃ s' r', atPathMut (lend (r.back u)) q = some s' ∧ atPathMut (lend (s.back v)) p = some r' ∧ s'.now = s.now ∧
      r'.now = r.now ∧ s'.back v = r'.back u := by
  obtain ⟨r1, r2⟩ := atPathMut_some hr
  obtain ⟨s1, s2⟩ := atPathMut_some hs
  refine ⟨⟨s.now, fun w => treeKids.put (r.back u) q w⟩, ⟨r.now, fun w => treeKids.put (s.back v) p w⟩, ?_, ?_, rfl, rfl, ?_⟩
  · rw [atPathMut_eq]
    have : treeKids.sub (lend (r.back u)).now q = some s.now := by
      rw [show (lend (r.back u)).now = treeKids.put t p u from r2 u, Kids.sub_put_other _ _ _ _ _ h1 h2, s1]
    rw [this]
    rfl
  · rw [atPathMut_eq]
    have : treeKids.sub (lend (s.back v)).now p = some r.now := by
      rw [show (lend (s.back v)).now = treeKids.put t q v from s2 v, Kids.sub_put_other _ _ _ _ _ h2 h1, r1]
    rw [this]
    rfl
  · simp only [r2, s2]
    exact Kids.put_comm _ _ _ _ _ _ h1 h2

example := C66_apart sampleTree [0, 1] [1] (by decide) (by decide) (.node 7 [.node 8 []]) (.node 7 [.node 8 []]) _ _ rfl rfl

/-- C66, collections of trees: the first index chooses the tree, and what is written changes that tree alone. -/
theorem C66_collection (ts : List (Tree V)) (i : Nat) (p : List Nat) :
    (atPathMutColl ts [] = none) ∧
    (∀ s, (atPathMutColl ts (i :: p)).map Loan.now = some s ↔ ∃ t, ts[i]? = some t ∧ Reaches t p s) ∧
    ∀ r, atPathMutColl ts (i :: p) = some r → ∃ t r', ts[i]? = some t ∧ atPathMut (lend t) p = some r' ∧
      ∀ u j, (r.back u)[j]? = if j = i then some (r'.back u) else ts[j]? := by
  refine ⟨rfl, fun s => ?_, fun r h => ?_⟩
  · rw [atPathMutColl_eq]
    cases ts[i]? with
    | none => simp
    | some t =>
      simp only [Option.bind_some, Option.map_map, Option.some.injEq, exists_eq_left']
      rw [← C66_found]
      rfl
  · rw [atPathMutColl_eq] at h
    cases ht : ts[i]? with
    | none => simp [ht] at h
    | some t =>
      rw [ht, Option.bind_some, Option.map_eq_some_iff] at h
      obtain ⟨r', h1, rfl⟩ := h
      refine ⟨t, r', rfl, h1, fun u j => ?_⟩
      by_cases hj : j = i
      · subst hj
        rw [if_pos rfl]
        exact List.getElem?_set_self (List.getElem?_eq_some_iff.1 ht).1
      · rw [if_neg hj]
        exact List.getElem?_set_ne (Ne.symm hj)

example : (atPathMut (lend sampleTree) [1]).map (fun r => ((r.back (.node 70 [.node 71 []])).preorder, r.now.value)) =
    some ([0, 1, 3, 4, 70, 71], 2) := by decide +kernel

example : (atPathMut (lend sampleTree) [2]).isNone ∧ (atPathMut (lend sampleTree) [0, 5]).isNone := by decide +kernel

/-! ### Edits along the paths of contexts -/

theorem cell_eq_sub (t : Tree V) (p : List Nat) : t.cell p = (treeKids.sub t p).map Tree.value := by
  induction p generalizing t with
  | nil => cases t; rfl
  | cons i p ih =>
    cases t with
    | node a cs =>
      have h2 : treeKids.kid (Tree.node a cs) i = cs[i]? := rfl
      simp only [Tree.cell, Kids.sub, h2]
      cases cs[i]? with
      | none => rfl
      | some c => exact ih c

theorem setCell_eq_put (t s : Tree V) (x : V) (p : List Nat) (h : treeKids.sub t p = some s) :
    t.setCell p x = treeKids.put t p (.node x s.children) := by
  induction p generalizing t with
  | nil => obtain rfl := Option.some.inj h; cases t; rfl
  | cons i p ih =>
    cases t with
    | node a cs =>
      have h2 : treeKids.kid (Tree.node a cs) i = cs[i]? := rfl
      cases hc : cs[i]? with
      | none => simp [Kids.sub, h2, hc] at h
      | some c =>
        have hk := h2.trans hc
        simp only [Tree.setCell, Kids.put, hk, hc]
        rw [ih c (by simpa [Kids.sub, hk] using h)]
        rfl

theorem editAt_eq (f : σ → V → σ × V) (t : Tree V) (w : σ) (p : List Nat) (x : V) (h : t.cell p = some x) :
    editAt f t w p = (t.setCell p (f w x).2, (f w x).1) := by
  rw [cell_eq_sub] at h
  obtain ⟨s, h1, rfl⟩ := Option.map_eq_some_iff.1 h
  have h1' : treeKids.sub (lend t).now p = some s := h1
  rw [editAt, atPathMut_eq, h1', setCell_eq_put t s _ p h1]
  rfl

theorem cell_setCell_isSome (t : Tree V) (p q : List Nat) (x : V) (hp : (t.cell p).isSome) (hq : (t.cell q).isSome) :
    ((t.setCell p x).cell q).isSome := by
  obtain ⟨g, hg⟩ := exists_fill t
  rw [← hg] at hp hq ⊢
  simp only [cell_fill, Option.isSome_map] at hp hq
  rw [setCell_fill t g x p hp, cell_fill, Option.isSome_map]
  exact hq

theorem editAll_eq {S : Type w} (next : S → Option (List Nat) × S) (f : σ → V → σ × V) (paths : List (List Nat)) (s : S)
    (t : Tree V) (w : σ) (hs : ∀ i, nthCall next i s = paths[i]?) (hc : ∀ p ∈ paths, (t.cell p).isSome) :
    editAll f paths t w = forEachMut next Tree.cell Tree.setCell f paths.length s t w := by
  induction paths generalizing s t w with
  | nil => rfl
  | cons p ps ih =>
    obtain ⟨x, hx⟩ := Option.isSome_iff_exists.1 (hc p (by simp))
    have h0 : (next s).1 = some p := hs 0
    cases hn : next s with
    | mk o s' =>
      rw [hn] at h0
      simp only at h0
      subst h0
      rw [List.length_cons, forEachMut, hn]
      simp only [hx]
      rw [editAll, List.foldl_cons, editAt_eq f t w p x hx]
      exact ih s' _ _ (fun i => by simpa [nthCall, stateAfter, hn] using hs (i + 1))
        (fun q hq => cell_setCell_isSome t p q _ (hc p (by simp)) (hc q (by simp [hq])))

theorem paths_unfold (t : Tree V) : t.located.map Pos.path = (unfold t).located.map Pos.path := by
  conv => lhs; rw [← treeOf_tree t, treeOf, Tree.located_map, Tree.map_map]
  rfl

/-- C66: a first pass collects the paths of the contexts, in preorder, and a second one edits the nodes there; the outcome is that
of the loop over the iterator of mutable references. -/
theorem C66_loop_preorder (t : Tree V) (ha : ArityOk t) (f : σ → V → σ × V) (w : σ) :
    ∃ s, Preorder.attachContext (Preorder.new t) = .ok s ∧ ∀ paths, (∀ k, (nthCallE Preorder.ctxNext k s).map (Option.map Ctx.path) = .ok paths[k]?) →
      editAll f paths t w =
        forEachMut Preorder.next Tree.cell Tree.setCell f t.preorder.length (Preorder.new (MutRef.mk [] t)) t w := by
  obtain ⟨s, h1, h2⟩ := C10_preorder_context t ha
  refine ⟨s, h1, fun paths hp => ?_⟩
  have e : paths = t.located.preorder.map Pos.path := by
    apply List.ext_getElem?
    intro k
    have h := hp k
    rw [h2 k] at h
    have h' : ((((unfold t).located.preorder.map Pos.ctx)[k]?).map Ctx.path) = paths[k]? := Except.ok.inj h
    have e := congrArg (fun t : Tree (List Nat) => t.preorder) (paths_unfold t)
    simp only [Tree.preorder_map] at e
    rw [← h', e, ← List.getElem?_map, List.map_map]
    rfl
  have hl : paths.length = t.preorder.length := by
    rw [e, List.length_map]
    conv => rhs; rw [← map_item_located t, Tree.preorder_map, List.length_map]
  rw [← hl]
  refine editAll_eq _ f paths _ t w (fun i => ?_) (fun p hp => ?_)
  · rw [e, C01_preorder, treeOf_mutRef, Tree.preorder_map]
  · rw [e] at hp
    obtain ⟨q, h, rfl⟩ := List.mem_map.1 hp
    rw [cell_of_mem_located t q (h)]
    rfl

example := C66_loop_preorder sampleTree sampleTree_arity (fun w v => (w + 1, v + w)) 0

/-- C66: a first pass collects the paths of the contexts, in postorder, and a second one edits the nodes there; the outcome is that
of the loop over the iterator of mutable references. -/
theorem C66_loop_postorder (t : Tree V) (ha : ArityOk t) (f : σ → V → σ × V) (w : σ) :
    ∃ s, Postorder.attachContext (Postorder.new t) = .ok s ∧ ∀ paths, (∀ k, (nthCallE Postorder.ctxNext k s).map (Option.map Ctx.path) = .ok paths[k]?) →
      editAll f paths t w =
        forEachMut Postorder.next Tree.cell Tree.setCell f t.postorder.length (Postorder.new (MutRef.mk [] t)) t w := by
  obtain ⟨s, h1, h2⟩ := C12_postorder_context t ha
  refine ⟨s, h1, fun paths hp => ?_⟩
  have e : paths = t.located.postorder.map Pos.path := by
    apply List.ext_getElem?
    intro k
    have h := hp k
    rw [h2 k] at h
    have h' : ((((unfold t).located.postorder.map Pos.ctx)[k]?).map Ctx.path) = paths[k]? := Except.ok.inj h
    have e := congrArg (fun t : Tree (List Nat) => t.postorder) (paths_unfold t)
    simp only [Tree.postorder_map] at e
    rw [← h', e, ← List.getElem?_map, List.map_map]
    rfl
  have hl : paths.length = t.postorder.length := by
    rw [e, List.length_map]
    conv => rhs; rw [← map_item_located t, Tree.postorder_map, List.length_map]
  rw [← hl]
  refine editAll_eq _ f paths _ t w (fun i => ?_) (fun p hp => ?_)
  · rw [e, C02_postorder, treeOf_mutRef, Tree.postorder_map]
  · rw [e] at hp
    obtain ⟨q, h, rfl⟩ := List.mem_map.1 hp
    rw [cell_of_mem_located t q ((postorder_perm_preorder _).mem_iff.1 h)]
    rfl

example := C66_loop_postorder sampleTree sampleTree_arity (fun w v => (w + 1, v + w)) 0

/-- C66: a first pass collects the paths of the contexts, breadth first, and a second one edits the nodes there; the outcome is that
of the loop over the iterator of mutable references. -/
theorem C66_loop_bfs (t : Tree V) (ha : ArityLt t) (f : σ → V → σ × V) (w : σ) :
    ∃ s, Bfs.attachContext (Bfs.new t) = .ok s ∧ ∀ paths, (∀ k, (nthCallE Bfs.ctxNext k s).map (Option.map Ctx.path) = .ok paths[k]?) →
      editAll f paths t w =
        forEachMut Bfs.next Tree.cell Tree.setCell f t.levelOrder.length (Bfs.new (MutRef.mk [] t)) t w := by
  obtain ⟨s, h1, h2⟩ := C14_bfs_context t ha
  refine ⟨s, h1, fun paths hp => ?_⟩
  have e : paths = t.located.levelOrder.map Pos.path := by
    apply List.ext_getElem?
    intro k
    have h := hp k
    rw [h2 k] at h
    have h' : ((((unfold t).located.levelOrder.map Pos.ctx)[k]?).map Ctx.path) = paths[k]? := Except.ok.inj h
    have e := congrArg (fun t : Tree (List Nat) => t.levelOrder) (paths_unfold t)
    simp only [Tree.levelOrder_map] at e
    rw [← h', e, ← List.getElem?_map, List.map_map]
    rfl
  have hl : paths.length = t.levelOrder.length := by
    rw [e, List.length_map]
    conv => rhs; rw [← map_item_located t, Tree.levelOrder_map, List.length_map]
  rw [← hl]
  refine editAll_eq _ f paths _ t w (fun i => ?_) (fun p hp => ?_)
  · rw [e, C04_bfs, treeOf_mutRef, Tree.levelOrder_map]
  · rw [e] at hp
    obtain ⟨q, h, rfl⟩ := List.mem_map.1 hp
    rw [cell_of_mem_located t q ((levelOrder_perm_preorder _).mem_iff.1 h)]
    rfl

example := C66_loop_bfs sampleTree sampleTree_arityLt (fun w v => (w + 1, v + w)) 0

/-! ## Binary trees -/

theorem atPath2_eq_sub (t : BinTree V) (p : List Nat) : atPath2 t p = binKids.sub t p := by
  induction p generalizing t with
  | nil => rfl
  | cons i p ih =>
    obtain ⟨a, l, r⟩ := t
    match i with
    | 0 =>
      cases l with
      | none => rfl
      | some c => exact ih c
    | 1 =>
      cases r with
      | none => rfl
      | some c => exact ih c
    | i + 2 => rfl

theorem reaches2_iff (t s : BinTree V) (p : List Nat) : Reaches2 t p s ↔ binKids.sub t p = some s := by
  rw [← C16_at_path_binary, atPath2_eq_sub]

theorem atPathMut2_some {t : BinTree V} {p : List Nat} {r : Loan (BinTree V) (BinTree V)} (h : atPathMut2 (lend t) p = some r) :
    binKids.sub t p = some r.now ∧ ∀ u, r.back u = binKids.put t p u := by
  rw [atPathMut2_eq] at h
  obtain ⟨s, h1, rfl⟩ := Option.map_eq_some_iff.1 h
  exact ⟨h1, fun _ => rfl⟩

/-- C66: `at_path_mut` finds the same node as `at_path`, on binary trees. -/
theorem C66_found_binary (t s : BinTree V) (p : List Nat) :
    (atPathMut2 (lend t) p).map Loan.now = some s ↔ Reaches2 t p s := by
  rw [reaches2_iff, atPathMut2_eq, Option.map_map]
  change Option.map id _ = _ ↔ _
  rw [Option.map_id_fun, id]
  rfl

/-- C66: a reference nothing is written through changes nothing, binary trees. -/
theorem C66_unwritten_binary (t : BinTree V) (p : List Nat) (r : Loan (BinTree V) (BinTree V)) (h : atPathMut2 (lend t) p = some r) :
    r.back r.now = t := by
  obtain ⟨h1, h2⟩ := atPathMut2_some h
  rw [h2, Kids.put_sub _ _ _ _ h1]

example := C66_unwritten_binary sampleBin [1, 0] _ rfl

/-- C66: after `u` has been written, the descendants of the node at `p` are those of `u`, binary trees. -/
theorem C66_written_binary (t : BinTree V) (p : List Nat) (r : Loan (BinTree V) (BinTree V)) (h : atPathMut2 (lend t) p = some r)
    (u m : BinTree V) (q : List Nat) : Reaches2 (r.back u) (p ++ q) m ↔ Reaches2 u q m := by
  obtain ⟨h1, h2⟩ := atPathMut2_some h
  rw [reaches2_iff, reaches2_iff, h2, Kids.sub_append, Kids.sub_put _ _ _ _ _ h1, Option.bind_some]

example := C66_written_binary sampleBin [0] _ rfl (.node 7 none none) (.node 7 none none) []

/-- C66: nodes neither above nor below keep their places and their subtrees, binary trees. -/
theorem C66_elsewhere_binary (t : BinTree V) (p : List Nat) (r : Loan (BinTree V) (BinTree V)) (h : atPathMut2 (lend t) p = some r)
    (u m : BinTree V) (q : List Nat) (h1 : ¬ p <+: q) (h2 : ¬ q <+: p) : Reaches2 (r.back u) q m ↔ Reaches2 t q m := by
  rw [reaches2_iff, reaches2_iff, (atPathMut2_some h).2, Kids.sub_put_other _ _ _ _ _ h1 h2]

example := C66_elsewhere_binary sampleBin [0] _ rfl (.node 7 none none) (.node 7 none none) [1, 0] (by decide) (by decide)

/-- C66: nodes above keep their values and their slots stay as full as they were. -/
theorem C66_above_binary (t : BinTree V) (p : List Nat) (r : Loan (BinTree V) (BinTree V))
    (h : atPathMut2 (lend t) p = some r) (u m : BinTree V) (q : List Nat) (h1 : q <+: p) (h2 : q ≠ p) (hm : Reaches2 t q m) :
    ∃ m', Reaches2 (r.back u) q m' ∧ m'.value = m.value ∧ (slots m').map Option.isSome = (slots m).map Option.isSome := by
  obtain ⟨a, rfl⟩ := h1
  obtain ⟨h3, h4⟩ := atPathMut2_some h
  rw [reaches2_iff] at hm
  rw [Kids.sub_append, hm, Option.bind_some] at h3
  rw [h4, Kids.put_append _ _ _ _ _ _ hm]
  refine ⟨_, (reaches2_iff _ _ _).2 (Kids.sub_put _ _ _ _ _ hm), ?_⟩
  cases a with
  | nil => simp at h2
  | cons i a =>
    obtain ⟨b, left, right⟩ := m
    match i with
    | 0 => cases left <;> exact ⟨rfl, rfl⟩
    | 1 => cases right <;> exact ⟨rfl, rfl⟩
    | i + 2 => exact ⟨rfl, rfl⟩

example := C66_above_binary sampleBin [0, 1] _ rfl (.node 7 none none) sampleBin [] (by decide) (by decide) ((reaches2_iff _ _ _).2 rfl)

theorem inorder_put (t s : BinTree V) (p : List Nat) (h : binKids.sub t p = some s) :
    ∃ l r, ∀ u, (binKids.put t p u).inorder = l ++ u.inorder ++ r := by
  induction p generalizing t with
  | nil => exact ⟨[], [], fun u => by simp [Kids.put]⟩
  | cons i p ih =>
    obtain ⟨b, left, right⟩ := t
    match i with
    | 0 =>
      cases left with
      | none => simp [Kids.sub, binKids] at h
      | some c =>
        obtain ⟨l, r, hu⟩ := ih c h
        refine ⟨l, r ++ b :: (BinTree.node b none right).inorder.tail, fun u => ?_⟩
        change (BinTree.node b (some (binKids.put c p u)) right).inorder = _
        simp only [BinTree.inorder, BinTree.inorderO, hu]
        simp
    | 1 =>
      cases right with
      | none => simp [Kids.sub, binKids] at h
      | some c =>
        obtain ⟨l, r, hu⟩ := ih c h
        refine ⟨(BinTree.node b left none).inorder ++ l, r, fun u => ?_⟩
        change (BinTree.node b left (some (binKids.put c p u))).inorder = _
        simp only [BinTree.inorder, BinTree.inorderO, hu]
        simp
    | i + 2 => simp [Kids.sub, binKids] at h

/-- C66: the in-order traversal of the tree changes in one block. -/
theorem C66_listings_binary (t : BinTree V) (p : List Nat) (r : Loan (BinTree V) (BinTree V))
    (h : atPathMut2 (lend t) p = some r) : ∃ left right, ∀ u, (r.back u).inorder = left ++ u.inorder ++ right := by
  obtain ⟨h1, h2⟩ := atPathMut2_some h
  simp only [h2]
  exact inorder_put t _ p h1

example := C66_listings_binary sampleBin [1, 0] _ rfl

/-- C66: asking again after writing `u` finds `u`, and what is written then replaces it, binary trees. -/
theorem C66_again_binary (t : BinTree V) (p : List Nat) (r : Loan (BinTree V) (BinTree V)) (h : atPathMut2 (lend t) p = some r) (u : BinTree V) :
    ∃ r', atPathMut2 (lend (r.back u)) p = some r' ∧ r'.now = u ∧ ∀ v, r'.back v = r.back v := by
  obtain ⟨h1, h2⟩ := atPathMut2_some h
  refine ⟨⟨u, fun v => binKids.put (r.back u) p v⟩, ?_, rfl, fun v => ?_⟩
  · rw [atPathMut2_eq]
    have : binKids.sub (lend (r.back u)).now p = some u := by
      rw [show (lend (r.back u)).now = binKids.put t p u from h2 u]
      exact Kids.sub_put _ _ _ _ _ h1
    rw [this]
    rfl
  · simp only [h2]
    exact Kids.put_put _ _ _ _ _ _ h1

example := C66_again_binary sampleBin [0] _ rfl (.node 7 none none)

/-- C66: going on from the node found is the same as going there at once, binary trees. -/
theorem C66_nested_binary {W : Type w} (c : Loan (BinTree V) W) (p q : List Nat) :
    atPathMut2 c (p ++ q) = (atPathMut2 c p).bind fun r => atPathMut2 r q := by
  simp only [atPathMut2_eq, Kids.sub_append]
  cases h : binKids.sub c.now p with
  | none => rfl
  | some s =>
    simp only [Option.bind_some, Option.map_some, Kids.put_append _ _ _ _ _ _ h]

/-- C66: two edits at places neither of which lies above the other can be made in either order, binary trees. -/
theorem C66_apart_binary (t : BinTree V) (p q : List Nat) (h1 : ¬ p <+: q) (h2 : ¬ q <+: p) (u v : BinTree V)
    (r s : Loan (BinTree V) (BinTree V)) (hr : atPathMut2 (lend t) p = some r) (hs : atPathMut2 (lend t) q = some s) :
    ∃ s' r', atPathMut2 (lend (r.back u)) q = some s' ∧ atPathMut2 (lend (s.back v)) p = some r' ∧ s'.now = s.now ∧
      r'.now = r.now ∧ s'.back v = r'.back u := by
  obtain ⟨r1, r2⟩ := atPathMut2_some hr
  obtain ⟨s1, s2⟩ := atPathMut2_some hs
  refine ⟨⟨s.now, fun w => binKids.put (r.back u) q w⟩, ⟨r.now, fun w => binKids.put (s.back v) p w⟩, ?_, ?_, rfl, rfl, ?_⟩
  · rw [atPathMut2_eq]
    have : binKids.sub (lend (r.back u)).now q = some s.now := by
      rw [show (lend (r.back u)).now = binKids.put t p u from r2 u, Kids.sub_put_other _ _ _ _ _ h1 h2, s1]
    rw [this]
    rfl
  · rw [atPathMut2_eq]
    have : binKids.sub (lend (s.back v)).now p = some r.now := by
      rw [show (lend (s.back v)).now = binKids.put t q v from s2 v, Kids.sub_put_other _ _ _ _ _ h2 h1, r1]
    rw [this]
    rfl
  · simp only [r2, s2]
    exact Kids.put_comm _ _ _ _ _ _ h1 h2

example := C66_apart_binary sampleBin [0, 1] [1] (by decide) (by decide) (.node 7 none none) (.node 7 none none) _ _ rfl rfl

/-- C66, collections of binary trees: the first index chooses the tree, and what is written changes that tree alone. -/
theorem C66_collection_binary (ts : List (BinTree V)) (i : Nat) (p : List Nat) :
    (atPathMutColl2 ts [] = none) ∧
    (∀ s, (atPathMutColl2 ts (i :: p)).map Loan.now = some s ↔ ∃ t, ts[i]? = some t ∧ Reaches2 t p s) ∧
    ∀ r, atPathMutColl2 ts (i :: p) = some r → ∃ t r', ts[i]? = some t ∧ atPathMut2 (lend t) p = some r' ∧
      ∀ u j, (r.back u)[j]? = if j = i then some (r'.back u) else ts[j]? := by
  refine ⟨rfl, fun s => ?_, fun r h => ?_⟩
  · rw [atPathMutColl2_eq]
    cases ts[i]? with
    | none => simp
    | some t =>
      simp only [Option.bind_some, Option.map_map, Option.some.injEq, exists_eq_left']
      rw [← C66_found_binary]
      rfl
  · rw [atPathMutColl2_eq] at h
    cases ht : ts[i]? with
    | none => simp [ht] at h
    | some t =>
      rw [ht, Option.bind_some, Option.map_eq_some_iff] at h
      obtain ⟨r', h1, rfl⟩ := h
      refine ⟨t, r', rfl, h1, fun u j => ?_⟩
      by_cases hj : j = i
      · subst hj
        rw [if_pos rfl]
        exact List.getElem?_set_self (List.getElem?_eq_some_iff.1 ht).1
      · rw [if_neg hj]
        exact List.getElem?_set_ne (Ne.symm hj)

example : (atPathMut2 (lend sampleBin) [0, 1]).map (fun r => ((r.back (.node 70 none none)).inorder, r.now.value)) =
    some ([1, 70, 0, 4, 2], 3) := by decide +kernel

/-! ### Edits along the paths of contexts -/

theorem cell_eq_sub2 (t : BinTree V) (p : List Nat) : t.cell p = (binKids.sub t p).map BinTree.value := by
  induction p generalizing t with
  | nil => cases t; rfl
  | cons i p ih =>
    obtain ⟨a, l, r⟩ := t
    match i with
    | 0 =>
      cases l with
      | none => cases r <;> rfl
      | some c => simp only [BinTree.cell]; exact ih c
    | 1 =>
      cases r with
      | none => cases l <;> rfl
      | some c => simp only [BinTree.cell]; exact ih c
    | i + 2 => cases l <;> cases r <;> rfl

theorem setCell_eq_put2 (t s : BinTree V) (x : V) (p : List Nat) (h : binKids.sub t p = some s) :
    t.setCell p x = binKids.put t p (setValue2 s x) := by
  induction p generalizing t with
  | nil => obtain rfl := Option.some.inj h; cases t; rfl
  | cons i p ih =>
    obtain ⟨a, l, r⟩ := t
    match i with
    | 0 =>
      cases l with
      | none => simp [Kids.sub, binKids] at h
      | some c =>
        have h' : binKids.sub c p = some s := h
        change BinTree.node a (some (c.setCell p x)) r = BinTree.node a (some _) r
        rw [ih c h']
    | 1 =>
      cases r with
      | none => simp [Kids.sub, binKids] at h
      | some c =>
        have : (BinTree.node a l (some c)).setCell (1 :: p) x = BinTree.node a l (some (c.setCell p x)) := by
          cases l <;> rfl
        rw [this]
        have h' : binKids.sub c p = some s := h
        change _ = BinTree.node a l (some _)
        rw [ih c h']
    | i + 2 => simp [Kids.sub, binKids] at h

theorem editAt2_eq (f : σ → V → σ × V) (t : BinTree V) (w : σ) (p : List Nat) (x : V) (h : t.cell p = some x) :
    editAt2 f t w p = (t.setCell p (f w x).2, (f w x).1) := by
  rw [cell_eq_sub2] at h
  obtain ⟨s, h1, rfl⟩ := Option.map_eq_some_iff.1 h
  have h1' : binKids.sub (lend t).now p = some s := h1
  rw [editAt2, atPathMut2_eq, h1', setCell_eq_put2 t s _ p h1]
  cases s; rfl

theorem cell_setCell_isSome2 (t : BinTree V) (p q : List Nat) (x : V) (hp : (t.cell p).isSome) (hq : (t.cell q).isSome) :
    ((t.setCell p x).cell q).isSome := by
  obtain ⟨g, hg⟩ := exists_fill2 t
  rw [← hg] at hp hq ⊢
  simp only [cell_fill2, Option.isSome_map] at hp hq
  rw [setCell_fill2 t g x p hp, cell_fill2, Option.isSome_map]
  exact hq

theorem editAll2_eq {S : Type w} (next : S → Option (List Nat) × S) (f : σ → V → σ × V) (paths : List (List Nat)) (s : S)
    (t : BinTree V) (w : σ) (hs : ∀ i, nthCall next i s = paths[i]?) (hc : ∀ p ∈ paths, (t.cell p).isSome) :
    editAll2 f paths t w = forEachMut next BinTree.cell BinTree.setCell f paths.length s t w := by
  induction paths generalizing s t w with
  | nil => rfl
  | cons p ps ih =>
    obtain ⟨x, hx⟩ := Option.isSome_iff_exists.1 (hc p (by simp))
    have h0 : (next s).1 = some p := hs 0
    cases hn : next s with
    | mk o s' =>
      rw [hn] at h0
      simp only at h0
      subst h0
      rw [List.length_cons, forEachMut, hn]
      simp only [hx]
      rw [editAll2, List.foldl_cons, editAt2_eq f t w p x hx]
      exact ih s' _ _ (fun i => by simpa [nthCall, stateAfter, hn] using hs (i + 1))
        (fun q hq => cell_setCell_isSome2 t p q _ (hc p (by simp)) (hc q (by simp [hq])))

theorem paths_unfold2 (t : BinTree V) : t.located.map Pos.path = (unfold2 t).located.map Pos.path := by
  conv => lhs; rw [← binTreeOf_binTree t, binTreeOf, BinTree.located_map, BinTree.map_map]
  rfl

/-- C66: a first pass collects the paths of the contexts, in preorder, on a binary tree, and a second one edits the nodes there; the outcome is that
of the loop over the iterator of mutable references. -/
theorem C66_loop_preorder_binary (t : BinTree V) (f : σ → V → σ × V) (w : σ) :
    ∃ s, Preorder.binAttachContext (Preorder.new t) = .ok s ∧ ∀ paths, (∀ k, (nthCallE Preorder.binCtxNext k s).map (Option.map Ctx.path) = .ok paths[k]?) →
      editAll2 f paths t w =
        forEachMut Preorder.next BinTree.cell BinTree.setCell f t.toTree.preorder.length (Preorder.new (MutRef2.mk [] t)) t w := by
  obtain ⟨s, h1, h2⟩ := C11_preorder_context_binary t
  refine ⟨s, h1, fun paths hp => ?_⟩
  have e : paths = t.located.toTree.preorder.map Pos.path := by
    apply List.ext_getElem?
    intro k
    have h := hp k
    rw [h2 k] at h
    have h' : ((((unfold2 t).located.toTree.preorder.map Pos.ctx2)[k]?).map Ctx.path) = paths[k]? := Except.ok.inj h
    have e := congrArg (fun t : BinTree (List Nat) => t.toTree.preorder) (paths_unfold2 t)
    simp only [BinTree.toTree_map, Tree.preorder_map] at e
    rw [← h', e, ← List.getElem?_map, List.map_map]
    rfl
  have hl : paths.length = t.toTree.preorder.length := by
    rw [e, List.length_map]
    conv => rhs; rw [← map_item_located2 t, BinTree.toTree_map, Tree.preorder_map, List.length_map]
  rw [← hl]
  refine editAll2_eq _ f paths _ t w (fun i => ?_) (fun p hp => ?_)
  · rw [e, C01_preorder_binary, binTreeOf_mutRef, BinTree.toTree_map, Tree.preorder_map]
  · rw [e] at hp
    obtain ⟨q, h, rfl⟩ := List.mem_map.1 hp
    rw [cell_of_mem_located2 t q (h)]
    rfl

/-- C66: a first pass collects the paths of the contexts, in postorder, on a binary tree, and a second one edits the nodes there; the outcome is that
of the loop over the iterator of mutable references. -/
theorem C66_loop_postorder_binary (t : BinTree V) (f : σ → V → σ × V) (w : σ) :
    ∃ s, Postorder.binAttachContext (Postorder.new t) = .ok s ∧ ∀ paths, (∀ k, (nthCallE Postorder.binCtxNext k s).map (Option.map Ctx.path) = .ok paths[k]?) →
      editAll2 f paths t w =
        forEachMut Postorder.next BinTree.cell BinTree.setCell f t.toTree.postorder.length (Postorder.new (MutRef2.mk [] t)) t w := by
  obtain ⟨s, h1, h2⟩ := C12_postorder_context_binary t
  refine ⟨s, h1, fun paths hp => ?_⟩
  have e : paths = t.located.toTree.postorder.map Pos.path := by
    apply List.ext_getElem?
    intro k
    have h := hp k
    rw [h2 k] at h
    have h' : ((((unfold2 t).located.toTree.postorder.map Pos.ctx2)[k]?).map Ctx.path) = paths[k]? := Except.ok.inj h
    have e := congrArg (fun t : BinTree (List Nat) => t.toTree.postorder) (paths_unfold2 t)
    simp only [BinTree.toTree_map, Tree.postorder_map] at e
    rw [← h', e, ← List.getElem?_map, List.map_map]
    rfl
  have hl : paths.length = t.toTree.postorder.length := by
    rw [e, List.length_map]
    conv => rhs; rw [← map_item_located2 t, BinTree.toTree_map, Tree.postorder_map, List.length_map]
  rw [← hl]
  refine editAll2_eq _ f paths _ t w (fun i => ?_) (fun p hp => ?_)
  · rw [e, C02_postorder_binary, binTreeOf_mutRef, BinTree.toTree_map, Tree.postorder_map]
  · rw [e] at hp
    obtain ⟨q, h, rfl⟩ := List.mem_map.1 hp
    rw [cell_of_mem_located2 t q ((postorder_perm_preorder _).mem_iff.1 h)]
    rfl

/-- C66: a first pass collects the paths of the contexts, breadth first, on a binary tree, and a second one edits the nodes there; the outcome is that
of the loop over the iterator of mutable references. -/
theorem C66_loop_bfs_binary (t : BinTree V) (f : σ → V → σ × V) (w : σ) :
    ∃ s, Bfs.binAttachContext (Bfs.new t) = .ok s ∧ ∀ paths, (∀ k, (nthCallE Bfs.binCtxNext k s).map (Option.map Ctx.path) = .ok paths[k]?) →
      editAll2 f paths t w =
        forEachMut Bfs.next BinTree.cell BinTree.setCell f t.toTree.levelOrder.length (Bfs.new (MutRef2.mk [] t)) t w := by
  obtain ⟨s, h1, h2⟩ := C14_bfs_context_binary t
  refine ⟨s, h1, fun paths hp => ?_⟩
  have e : paths = t.located.toTree.levelOrder.map Pos.path := by
    apply List.ext_getElem?
    intro k
    have h := hp k
    rw [h2 k] at h
    have h' : ((((unfold2 t).located.toTree.levelOrder.map Pos.ctx2)[k]?).map Ctx.path) = paths[k]? := Except.ok.inj h
    have e := congrArg (fun t : BinTree (List Nat) => t.toTree.levelOrder) (paths_unfold2 t)
    simp only [BinTree.toTree_map, Tree.levelOrder_map] at e
    rw [← h', e, ← List.getElem?_map, List.map_map]
    rfl
  have hl : paths.length = t.toTree.levelOrder.length := by
    rw [e, List.length_map]
    conv => rhs; rw [← map_item_located2 t, BinTree.toTree_map, Tree.levelOrder_map, List.length_map]
  rw [← hl]
  refine editAll2_eq _ f paths _ t w (fun i => ?_) (fun p hp => ?_)
  · rw [e, C04_bfs_binary, binTreeOf_mutRef, BinTree.toTree_map, Tree.levelOrder_map]
  · rw [e] at hp
    obtain ⟨q, h, rfl⟩ := List.mem_map.1 hp
    rw [cell_of_mem_located2 t q ((levelOrder_perm_preorder _).mem_iff.1 h)]
    rfl

/-- C66: a first pass collects the paths of the contexts, in order, and a second one edits the nodes there; the outcome is that
of the loop over the iterator of mutable references. -/
theorem C66_loop_inorder (t : BinTree V) (f : σ → V → σ × V) (w : σ) :
    ∃ s, Inorder.attachContext (Inorder.new t) = .ok s ∧ ∀ paths, (∀ k, (nthCallE Inorder.ctxNext k s).map (Option.map Ctx.path) = .ok paths[k]?) →
      editAll2 f paths t w =
        forEachMut Inorder.next BinTree.cell BinTree.setCell f t.inorder.length (Inorder.new (MutRef2.mk [] t)) t w := by
  obtain ⟨s, h1, h2⟩ := C13_inorder_context t
  refine ⟨s, h1, fun paths hp => ?_⟩
  have e : paths = t.located.inorder.map Pos.path := by
    apply List.ext_getElem?
    intro k
    have h := hp k
    rw [h2 k] at h
    have h' : ((((unfold2 t).located.inorder.map Pos.ctx2)[k]?).map Ctx.path) = paths[k]? := Except.ok.inj h
    have e := congrArg (fun t : BinTree (List Nat) => t.inorder) (paths_unfold2 t)
    simp only [BinTree.inorder_map] at e
    rw [← h', e, ← List.getElem?_map, List.map_map]
    rfl
  have hl : paths.length = t.inorder.length := by
    rw [e, List.length_map]
    conv => rhs; rw [← map_item_located2 t, BinTree.inorder_map, List.length_map]
  rw [← hl]
  refine editAll2_eq _ f paths _ t w (fun i => ?_) (fun p hp => ?_)
  · rw [e, C03_inorder, binTreeOf_mutRef, BinTree.inorder_map]
  · rw [e] at hp
    obtain ⟨q, h, rfl⟩ := List.mem_map.1 hp
    rw [cell_of_mem_located2 t q ((inorder_perm_preorder _).mem_iff.1 h)]
    rfl

example : (editAll (fun n x => (n + 1, 100 * n + x)) (sampleTree.located.postorder.map Pos.path) sampleTree 1).1.postorder =
    [103, 204, 301, 405, 502, 600] := by decide +kernel

end TreeIter
