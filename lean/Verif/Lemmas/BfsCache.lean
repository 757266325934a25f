import Verif.Model.BfsCache
import Verif.Lemmas.Bfs

/-!
# The cache of the breadth-first ancestor iterators as a zipper

The deques hold a tree whose leaves are the nodes with pending child iterators.  `Frame`s are the cache nodes on the
way from the root to the node being worked on.
-/

universe u v w

namespace TreeIter

namespace Bfs

variable {β : Type w}

/-! ## Encoding of trees of pending nodes -/

mutual
/-- A finished cache node: its entries followed by the marker; childless nodes have no marker. -/
def enc : Tree β → Cache β
  | .node v [] => .mk (some v) []
  | .node v (c :: cs) => .mk (some v) (some (enc c) :: (encL cs ++ [none]))
/-- Entries of a deque. -/
def encL : List (Tree β) → List (Option (Cache β))
  | [] => []
  | t :: ts => some (enc t) :: encL ts
end

mutual
/-- Root-to-leaf lists, leaf first, below `anc`. -/
def leafPaths (anc : List β) : Tree β → List (List β)
  | .node v [] => [v :: anc]
  | .node v (c :: cs) => leafPaths (v :: anc) c ++ leafPathsL (v :: anc) cs
/-- Forest version. -/
def leafPathsL (anc : List β) : List (Tree β) → List (List β)
  | [] => []
  | t :: ts => leafPaths anc t ++ leafPathsL anc ts
end

theorem encL_append (a b : List (Tree β)) : encL (a ++ b) = encL a ++ encL b := by
  induction a with
  | nil => rfl
  | cons t ts ih => simp [encL, ih]

theorem leafPathsL_append (anc : List β) (a b : List (Tree β)) :
    leafPathsL anc (a ++ b) = leafPathsL anc a ++ leafPathsL anc b := by
  induction a with
  | nil => rfl
  | cons t ts ih => simp [leafPathsL, ih]

theorem enc_node (v : β) (cs : List (Tree β)) (h : cs ≠ []) :
    enc (.node v cs) = .mk (some v) (encL cs ++ [none]) := by
  cases cs with
  | nil => exact absurd rfl h
  | cons c cs => rw [enc, encL, List.cons_append]

theorem leafPaths_node (anc : List β) (v : β) (cs : List (Tree β)) (h : cs ≠ []) :
    leafPaths anc (.node v cs) = leafPathsL (v :: anc) cs := by
  cases cs with
  | nil => exact absurd rfl h
  | cons c cs => rw [leafPaths, leafPathsL]

theorem leafPaths_ne (anc : List β) (t : Tree β) : leafPaths anc t ≠ [] := by
  induction t using Tree.ind generalizing anc with
  | h v cs ih =>
    cases cs with
    | nil => simp [leafPaths]
    | cons c cs => simp [leafPaths, ih c (by simp)]

theorem leafPathsL_eq_nil (anc : List β) (ts : List (Tree β)) : leafPathsL anc ts = [] ↔ ts = [] := by
  cases ts with
  | nil => simp [leafPathsL]
  | cons t ts => simp [leafPathsL, leafPaths_ne]

theorem encL_eq_nil (ts : List (Tree β)) : encL ts = [] ↔ ts = [] := by
  cases ts <;> simp [encL]

theorem encL_length (ts : List (Tree β)) : (encL ts).length = ts.length := by
  induction ts with
  | nil => rfl
  | cons t ts ih => simp [encL, ih]

/-- The leaves for values just yielded. -/
def asLeaves (ys : List β) : List (Tree β) := ys.map fun y => .node y []

theorem leafPathsL_asLeaves (anc : List β) (ys : List β) : leafPathsL anc (asLeaves ys) = ys.map (· :: anc) := by
  induction ys with
  | nil => rfl
  | cons y ys ih =>
    simp only [asLeaves, List.map_cons, leafPathsL, leafPaths] at *
    simp [ih]

/-! ## Frames -/

/-- A cache node that is being worked through: entries still to do and entries done. -/
structure Frame (β : Type w) where
  v : β
  todo : List (Tree β)
  done : List (Tree β)

/-- The cache node of a frame. -/
def Frame.enc (f : Frame β) : Cache β := .mk none (encL f.todo ++ none :: encL f.done)

/-- Values of the frames, deepest first. -/
def ancOf (fs : List (Frame β)) (r : Frame β) : List β := fs.map Frame.v ++ [r.v]

/-- Pending nodes of this pass. -/
def todoL (r : Frame β) : List (Frame β) → List (List β)
  | [] => leafPathsL [r.v] r.todo
  | f :: fs => leafPathsL (f.v :: ancOf fs r) f.todo ++ todoL r fs

/-- Pending nodes of the next pass. -/
def doneL (r : Frame β) : List (Frame β) → List (List β)
  | [] => leafPathsL [r.v] r.done
  | f :: fs => doneL r fs ++ leafPathsL (f.v :: ancOf fs r) f.done

/-- The machine state looking for the next pending node at frame `fs.head`. -/
def encS (fs : List (Frame β)) (r : Frame β) : CacheState β :=
  ⟨ancOf fs r, fs.map Frame.enc, r.enc⟩

/-! ## Number of steps -/

mutual
/-- Depth of the leftmost leaf. -/
def lh : Tree β → Nat
  | .node _ [] => 0
  | .node _ (c :: _) => 1 + lh c
end

/-- Steps needed to find the next pending node. -/
def need (r : Frame β) : List (Frame β) → Nat
  | [] =>
    match r.todo, r.done with
    | c :: _, _ => 1 + lh c
    | [], c :: _ => 2 + lh c
    | [], [] => 2
  | f :: fs =>
    match f.todo with
    | c :: _ => 1 + lh c
    | [] =>
      match fs with
      | [] => 1 + need { r with done := r.done ++ [.node f.v f.done] } []
      | g :: fs => 1 + need r ({ g with done := g.done ++ [.node f.v f.done] } :: fs)
termination_by fs => fs.length

theorem sizeL_append (a b : List (Option (Cache β))) : Cache.sizeL (a ++ b) = Cache.sizeL a + Cache.sizeL b := by
  induction a with
  | nil => simp [Cache.sizeL]
  | cons c cs ih => simp only [List.cons_append, Cache.sizeL, ih]; omega

theorem lh_lt (t : Tree β) : lh t + 1 ≤ (enc t).size := by
  induction t using Tree.ind with
  | h v cs ih =>
    cases cs with
    | nil => simp [lh, enc, Cache.size]
    | cons c cs =>
      have := ih c (by simp)
      rw [lh, enc, Cache.size, Cache.sizeL, Cache.sizeO]
      omega

theorem size_enc_node (v : β) (cs : List (Tree β)) : (enc (.node v cs)).size = 1 + Cache.sizeL (encL cs) := by
  cases cs with
  | nil => simp [enc, encL, Cache.size]
  | cons c cs =>
    rw [enc, encL, Cache.size, Cache.sizeL, Cache.sizeL, sizeL_append]
    simp [Cache.sizeL, Cache.sizeO]

theorem Frame.size_enc (f : Frame β) :
    f.enc.size = 1 + Cache.sizeL (encL f.todo) + Cache.sizeL (encL f.done) := by
  rw [Frame.enc, Cache.size, sizeL_append, Cache.sizeL, Cache.sizeO]
  omega

theorem need_le (fs : List (Frame β)) (r : Frame β) : need r fs ≤ fs.length + (encS fs r).total + 1 := by
  fun_induction need r fs with
  | case1 r c cs h =>
    have := lh_lt c
    simp only [encS, CacheState.total, Frame.size_enc, h, encL, Cache.sizeL, Cache.sizeO, List.map_nil, List.sum_nil,
      List.length_nil]
    omega
  | case2 r c cs h h2 =>
    have := lh_lt c
    simp only [encS, CacheState.total, Frame.size_enc, h, h2, encL, Cache.sizeL, Cache.sizeO, List.map_nil,
      List.sum_nil, List.length_nil]
    omega
  | case3 r h h2 =>
    simp only [encS, CacheState.total, Frame.size_enc, h, h2, encL, Cache.sizeL, List.map_nil, List.sum_nil,
      List.length_nil]
    omega
  | case4 r f fs c cs h =>
    have := lh_lt c
    simp only [encS, CacheState.total, Frame.size_enc, h, encL, Cache.sizeL, Cache.sizeO, List.map_cons, List.sum_cons,
      List.length_cons]
    omega
  | case5 r f h ih =>
    simp only [encS, CacheState.total, Frame.size_enc, h, encL, Cache.sizeL, Cache.sizeO, List.map_cons, List.sum_cons,
      List.length_cons, List.map_nil, List.sum_nil, List.length_nil, encL_append, sizeL_append, size_enc_node] at ih ⊢
    omega
  | case6 r f h g fs ih =>
    simp only [encS, CacheState.total, Frame.size_enc, h, encL, Cache.sizeL, Cache.sizeO, List.map_cons, List.sum_cons,
      List.length_cons, encL_append, sizeL_append, size_enc_node] at ih ⊢
    omega

theorem length_le_total (fs : List (Frame β)) (r : Frame β) : fs.length + 1 ≤ (encS fs r).total := by
  induction fs with
  | nil => simp only [encS, CacheState.total, Frame.size_enc, List.length_nil, List.map_nil, List.sum_nil]; omega
  | cons f fs ih =>
    simp only [encS, CacheState.total, Frame.size_enc, List.length_cons, List.map_cons, List.sum_cons] at ih ⊢
    omega

/-! ## Looking for the next pending node -/

/-- A node with a pending child iterator: either the root, or a node below the frames.  `ys` are the children it has
yielded. -/
inductive Zip (β : Type w) where
  | root (v : β) (ys : List β)
  | deep (v : β) (ys : List β) (fs : List (Frame β)) (r : Frame β)

/-- The machine state working on the node of a zipper. -/
def Zip.enc : Zip β → CacheState β
  | .root v ys => ⟨[v], [], .mk none (encL (asLeaves ys))⟩
  | .deep v ys fs r => ⟨v :: ancOf fs r, .mk none (encL (asLeaves ys)) :: fs.map Frame.enc, r.enc⟩

/-- The current node, deepest first. -/
def Zip.cur : Zip β → List β
  | .root v _ => [v]
  | .deep v _ fs r => v :: ancOf fs r

/-- The pending nodes after the current one, in breadth-first order. -/
def Zip.others : Zip β → List (List β)
  | .root v ys => ys.map (· :: [v])
  | .deep v ys fs r => todoL r fs ++ doneL r fs ++ ys.map (· :: v :: ancOf fs r)

open CacheState in
/-- From a node just entered, down to the leftmost leaf. -/
theorem descend_spec (start fuel : Nat) (fs : List (Frame β)) (r : Frame β) (s : CacheState β)
    (c : Tree β) (rest : List (Option (Cache β)))
    (hs : s.topChildren = some (enc c) :: rest)
    (h1 : (s.setTop rest).items = ancOf fs r) (h2 : (s.setTop rest).stack = fs.map Frame.enc)
    (h3 : (s.setTop rest).cache = r.enc)
    (hstart : ∀ p ∈ leafPaths (ancOf fs r) c, start ≤ p.length) (hfuel : lh c + 1 ≤ fuel) :
    ∃ p fs', advanceDfs start fuel s = .ok (Zip.deep p [] fs' r).enc ∧
      (p :: ancOf fs' r) :: todoL r fs' = leafPaths (ancOf fs r) c ++ todoL r fs ∧ doneL r fs' = doneL r fs := by
  induction c using Tree.ind generalizing fs s fuel rest with
  | h v cs ih =>
    obtain ⟨fuel, rfl⟩ : ∃ f, fuel = f + 1 := ⟨fuel - 1, by omega⟩
    rw [advanceDfs, hs]
    cases cs with
    | nil =>
      have : start ≤ (ancOf fs r).length + 1 := by simpa [leafPaths] using hstart
      simp only [enc, Cache.value, Cache.children, List.isEmpty_nil, Bool.true_and, List.length_cons, h1, ge_iff_le,
        this, decide_true, if_true, h2, h3]
      exact ⟨v, fs, rfl, by simp [leafPaths], rfl⟩
    | cons d ds =>
      simp only [enc, Cache.value, Cache.children, List.isEmpty_cons, Bool.false_and, Bool.false_eq_true, if_false,
        h1, h2, h3]
      have := ih d (by simp) fuel (⟨v, ds, []⟩ :: fs)
        ⟨v :: ancOf fs r, .mk none (some (enc d) :: (encL ds ++ [none])) :: fs.map Frame.enc, r.enc⟩
        (encL ds ++ [none]) rfl rfl (by simp [setTop, Frame.enc, Cache.setChildren, Cache.value, encL]) rfl
        (fun p hp => hstart p (by
          rw [leafPaths]
          exact List.mem_append_left _ hp)) (by
          rw [lh] at hfuel
          omega)
      obtain ⟨p, fs', e1, e2, e3⟩ := this
      refine ⟨p, fs', e1, ?_, ?_⟩
      · rw [e2, leafPaths, todoL]
        simp [ancOf]
      · rw [e3, doneL]
        simp [leafPathsL]

open CacheState in
/-- One step down from a frame with something to do. -/
theorem seek_down (start fuel : Nat) (fs : List (Frame β)) (f r : Frame β) (c : Tree β) (cs : List (Tree β))
    (ht : f.todo = c :: cs)
    (hstart : ∀ p ∈ todoL r (f :: fs), start ≤ p.length) (hfuel : 1 + lh c ≤ fuel) :
    ∃ p fs', advanceDfs start fuel (encS (f :: fs) r) = .ok (Zip.deep p [] fs' r).enc ∧
      (p :: ancOf fs' r) :: todoL r fs' = todoL r (f :: fs) ∧ doneL r fs' = doneL r (f :: fs) := by
  obtain ⟨p, fs', e1, e2, e3⟩ := descend_spec start fuel ({ f with todo := cs } :: fs) r (encS (f :: fs) r) c
    (encL cs ++ none :: encL f.done) (by simp [encS, topChildren, Frame.enc, ht, encL, Cache.children]) rfl
    (by simp [encS, setTop, Frame.enc, Cache.setChildren, Cache.value]) rfl
    (fun p hp => hstart p (by
      rw [todoL, ht, leafPathsL]
      exact List.mem_append_left _ (List.mem_append_left _ hp))) (by omega)
  refine ⟨p, fs', e1, ?_, e3⟩
  rw [e2]
  simp [todoL, ht, leafPathsL, ancOf]

open CacheState in
/-- One step down from the root. -/
theorem seek_down_root (start fuel : Nat) (r : Frame β) (c : Tree β) (cs : List (Tree β))
    (ht : r.todo = c :: cs)
    (hstart : ∀ p ∈ todoL r [], start ≤ p.length) (hfuel : 1 + lh c ≤ fuel) :
    ∃ p fs' r', advanceDfs start fuel (encS [] r) = .ok (Zip.deep p [] fs' r').enc ∧
      (p :: ancOf fs' r') :: todoL r' fs' = todoL r [] ∧ doneL r' fs' = doneL r [] := by
  obtain ⟨p, fs', e1, e2, e3⟩ := descend_spec start fuel [] { r with todo := cs } (encS [] r) c
    (encL cs ++ none :: encL r.done) (by simp [encS, topChildren, Frame.enc, ht, encL, Cache.children]) rfl
    rfl (by simp [encS, setTop, Frame.enc, Cache.setChildren, Cache.value])
    (fun p hp => hstart p (by
      rw [todoL, ht, leafPathsL]
      exact List.mem_append_left _ hp)) (by omega)
  refine ⟨p, fs', _, e1, ?_, e3⟩
  rw [e2]
  simp [todoL, ht, leafPathsL, ancOf]

open CacheState in
/-- `advance_dfs` finds the next pending node. -/
theorem seek_spec (start fuel : Nat) (fs : List (Frame β)) (r : Frame β)
    (hne : ∀ f ∈ fs.head?, f.todo ≠ [] ∨ f.done ≠ [])
    (hstart : ∀ p ∈ todoL r fs ++ doneL r fs, start ≤ p.length) (hfuel : need r fs ≤ fuel)
    (hsome : todoL r fs ++ doneL r fs ≠ []) :
    ∃ p fs' r', advanceDfs start fuel (encS fs r) = .ok (Zip.deep p [] fs' r').enc ∧
      (p :: ancOf fs' r') :: (todoL r' fs' ++ doneL r' fs') = todoL r fs ++ doneL r fs := by
  fun_induction need r fs generalizing fuel with
  | case1 r c cs h =>
    obtain ⟨p, fs', r', e1, e2, e3⟩ := seek_down_root start fuel r c cs h
      (fun p hp => hstart p (List.mem_append_left _ hp)) hfuel
    exact ⟨p, fs', r', e1, by rw [← e2, e3]; rfl⟩
  | case2 r c cs h h2 =>
    obtain ⟨fuel, rfl⟩ : ∃ f, fuel = f + 1 := ⟨fuel - 1, by omega⟩
    have e0 : advanceDfs start (fuel + 1) (encS [] r) = advanceDfs start fuel (encS [] ⟨r.v, r.done, []⟩) := by
      rw [advanceDfs]
      simp [encS, topChildren, Frame.enc, Cache.children, h, h2, encL, setTop, Cache.setChildren, Cache.value,
        ancOf, moveUp]
    obtain ⟨p, fs', r', e1, e2, e3⟩ := seek_down_root start fuel ⟨r.v, r.done, []⟩ c cs h
      (fun p hp => hstart p (List.mem_append_right _ hp)) (by omega)
    refine ⟨p, fs', r', by rw [e0, e1], ?_⟩
    rw [← List.cons_append, e2, e3]
    simp [todoL, doneL, h2, leafPathsL]
  | case3 r h h2 =>
    simp [todoL, doneL, h, h2, leafPathsL] at hsome
  | case4 r f fs c cs h =>
    obtain ⟨p, fs', e1, e2, e3⟩ := seek_down start fuel fs f r c cs h
      (fun p hp => hstart p (List.mem_append_left _ hp)) hfuel
    exact ⟨p, fs', r, e1, by rw [← e2, e3]; rfl⟩
  | case5 r f h ih =>
    obtain ⟨fuel, rfl⟩ : ∃ f, fuel = f + 1 := ⟨fuel - 1, by omega⟩
    have hd : f.done ≠ [] := by simpa [h] using hne
    have e0 : advanceDfs start (fuel + 1) (encS [f] r) =
        advanceDfs start fuel (encS [] { r with done := r.done ++ [.node f.v f.done] }) := by
      rw [advanceDfs]
      have : encL f.done ≠ [] := fun h => hd ((encL_eq_nil f.done).1 h)
      simp [encS, topChildren, Frame.enc, Cache.children, h, encL, setTop, Cache.setChildren, Cache.value,
        ancOf, moveUp, this, Cache.pushBack, encL_append, enc_node _ _ hd]
    have e4 : todoL { r with done := r.done ++ [.node f.v f.done] } [] ++
        doneL { r with done := r.done ++ [.node f.v f.done] } [] = todoL r [f] ++ doneL r [f] := by
      simp [todoL, doneL, h, leafPathsL, leafPathsL_append, ancOf, leafPaths_node _ _ _ hd]
    rw [e0, ← e4]
    rw [← e4] at hstart hsome
    exact ih fuel (by simp) hstart (by omega) hsome
  | case6 r f h g fs ih =>
    obtain ⟨fuel, rfl⟩ : ∃ f, fuel = f + 1 := ⟨fuel - 1, by omega⟩
    have hd : f.done ≠ [] := by simpa [h] using hne
    have e0 : advanceDfs start (fuel + 1) (encS (f :: g :: fs) r) =
        advanceDfs start fuel (encS ({ g with done := g.done ++ [.node f.v f.done] } :: fs) r) := by
      rw [advanceDfs]
      have : encL f.done ≠ [] := fun h => hd ((encL_eq_nil f.done).1 h)
      simp [encS, topChildren, Frame.enc, Cache.children, h, encL, setTop, Cache.setChildren, Cache.value,
        ancOf, moveUp, this, Cache.pushBack, encL_append, enc_node _ _ hd]
    have e4 : todoL r ({ g with done := g.done ++ [.node f.v f.done] } :: fs) ++
        doneL r ({ g with done := g.done ++ [.node f.v f.done] } :: fs) =
        todoL r (f :: g :: fs) ++ doneL r (f :: g :: fs) := by
      simp [todoL, doneL, h, leafPathsL, leafPathsL_append, ancOf, leafPaths_node _ _ _ hd]
    rw [e0, ← e4]
    rw [← e4] at hstart hsome
    exact ih fuel (by simp) hstart (by omega) hsome

/-! ## Retiring the current node -/

open CacheState in
theorem dropSpent_spec (fs : List (Frame β)) (r : Frame β) :
    ∃ fs', dropSpent (fs.map Frame.enc) (ancOf fs r) = (fs'.map Frame.enc, ancOf fs' r) ∧
      todoL r fs' = todoL r fs ∧ doneL r fs' = doneL r fs ∧ fs'.length ≤ fs.length ∧
      ∀ f ∈ fs'.head?, f.todo ≠ [] ∨ f.done ≠ [] := by
  induction fs with
  | nil => exact ⟨[], by simp [dropSpent], rfl, rfl, Nat.le_refl _, by simp⟩
  | cons f fs ih =>
    classical
    by_cases hf : f.todo = [] ∧ f.done = []
    · obtain ⟨fs', e1, e2, e3, e4, e5⟩ := ih
      refine ⟨fs', ?_, ?_, ?_, by simp only [List.length_cons]; omega, e5⟩
      · rw [List.map_cons, dropSpent]
        simpa [Frame.enc, hf.1, hf.2, encL, Cache.children, ancOf] using e1
      · rw [e2, todoL, hf.1]; simp [leafPathsL]
      · rw [e3, doneL, hf.2]; simp [leafPathsL]
    · refine ⟨f :: fs, ?_, rfl, rfl, Nat.le_refl _, ?_⟩
      · rw [List.map_cons, dropSpent, if_pos]
        simp only [Frame.enc, Cache.children, List.length_append, List.length_cons, encL_length]
        rcases Decidable.not_and_iff_or_not.1 hf with h | h <;>
        · have := List.length_pos_iff.2 h
          omega
      · intro g hg
        obtain rfl : f = g := by simpa using hg
        exact Decidable.not_and_iff_or_not.1 hf

open CacheState in
/-- When the iterator of the current node is exhausted the machine moves to the next pending node. -/
theorem retire_spec (z : Zip β) (h : ∀ p ∈ z.others, z.cur.length ≤ p.length) :
    (z.others = [] → ∃ s, z.enc.retire = .ok s) ∧
      (z.others ≠ [] → ∃ z' : Zip β, z.enc.retire = .ok z'.enc ∧ z'.cur :: z'.others = z.others) := by
  have key : ∀ (fs : List (Frame β)) (r : Frame β) (start : Nat),
      (∀ f ∈ fs.head?, f.todo ≠ [] ∨ f.done ≠ []) → (∀ p ∈ todoL r fs ++ doneL r fs, start ≤ p.length) →
      (todoL r fs ++ doneL r fs = [] → ∃ s, advanceDfs start (2 * (encS fs r).total + 2) (encS fs r) = .ok s) ∧
      (todoL r fs ++ doneL r fs ≠ [] → ∃ z' : Zip β,
        advanceDfs start (2 * (encS fs r).total + 2) (encS fs r) = .ok z'.enc ∧
          z'.cur :: z'.others = todoL r fs ++ doneL r fs) := by
    intro fs r start hne hstart
    constructor
    · intro he
      simp only [List.append_eq_nil_iff] at he
      cases fs with
      | nil =>
        simp only [todoL, doneL, leafPathsL_eq_nil] at he
        generalize 2 * (encS [] r).total = m
        rw [show m + 2 = m + 1 + 1 from rfl]
        simp [advanceDfs, encS, topChildren, Frame.enc, Cache.children, he.1, he.2, encL, setTop, Cache.setChildren, Cache.value,
          ancOf, moveUp]
      | cons f fs =>
        simp only [todoL, doneL, List.append_eq_nil_iff, leafPathsL_eq_nil] at he
        rcases hne f (by simp) with h | h
        · exact absurd he.1.1 h
        · exact absurd he.2.2 h
    · intro hsome
      have h1 := need_le fs r
      have h2 := length_le_total fs r
      obtain ⟨p, fs', r', e1, e2⟩ := seek_spec start (2 * (encS fs r).total + 2) fs r hne hstart (by omega) hsome
      refine ⟨.deep p [] fs' r', e1, ?_⟩
      simpa [Zip.cur, Zip.others] using e2
  cases z with
  | root v ys =>
    cases ys with
    | nil =>
      refine ⟨fun _ => ?_, fun h => absurd rfl h⟩
      refine ⟨⟨[v], [], .mk none []⟩, ?_⟩
      simp only [retire, Zip.enc, asLeaves, List.map_nil, encL, topChildren, Cache.children, List.isEmpty_nil,
        Bool.not_true, Bool.false_eq_true, if_false, dropSpent]
      rw [advanceDfs]
      rfl
    | cons y ys =>
      have := key [] ⟨v, [], asLeaves (y :: ys)⟩ 1 (by simp) (by
        intro p hp
        simp only [todoL, doneL, leafPathsL, List.nil_append, leafPathsL_asLeaves] at hp
        exact h p hp)
      simp only [todoL, doneL, leafPathsL, List.nil_append, leafPathsL_asLeaves] at this
      exact this
  | deep v ys fs r =>
    cases ys with
    | nil =>
      obtain ⟨fs', e1, e2, e3, e4, e5⟩ := dropSpent_spec fs r
      have e6 : (Zip.deep v [] fs r).enc.retire =
          advanceDfs (encS fs' r).items.length (2 * (encS fs' r).total + 2) (encS fs' r) := by
        simp only [retire, Zip.enc, asLeaves, List.map_nil, encL, topChildren, Cache.children, List.isEmpty_nil,
          Bool.not_true, Bool.false_eq_true, if_false, dropSpent, List.length_nil, gt_iff_lt, Nat.not_lt_zero,
          List.tail_cons, e1]
        rfl
      have e7 : (Zip.deep v [] fs r).others = todoL r fs' ++ doneL r fs' := by simp [Zip.others, e2, e3]
      rw [e6, e7]
      refine key fs' r _ e5 fun p hp => ?_
      have := h p (by rw [e7]; exact hp)
      simp only [Zip.cur, encS, ancOf, List.length_cons, List.length_append, List.length_map] at this ⊢
      omega
    | cons y ys =>
      have := key (⟨v, [], asLeaves (y :: ys)⟩ :: fs) r (fs.length + 2) (by simp [asLeaves]) (by
        intro p hp
        simp only [todoL, doneL, leafPathsL, List.nil_append, leafPathsL_asLeaves] at hp
        have := h p (by simpa [Zip.others] using hp)
        simpa [Zip.cur, ancOf] using this)
      simp only [todoL, doneL, leafPathsL, List.nil_append, leafPathsL_asLeaves, ← List.append_assoc] at this
      have e6 : (Zip.deep v (y :: ys) fs r).enc.retire =
          advanceDfs (fs.length + 2) (2 * (encS (⟨v, [], asLeaves (y :: ys)⟩ :: fs) r).total + 2)
            (encS (⟨v, [], asLeaves (y :: ys)⟩ :: fs) r) := by
        simp only [retire, Zip.enc, topChildren, Cache.children, setTop, asLeaves, List.map_cons, encL,
          List.isEmpty_cons, Bool.not_false, if_true, encS, Frame.enc, List.nil_append, ancOf, Cache.setChildren,
          Cache.value, List.length_cons, List.length_append, List.length_map, List.length_nil]
        rfl
      rw [e6]
      exact this

/-- A value just yielded by the current node, recorded. -/
def Zip.push : Zip β → β → Zip β
  | .root v ys, y => .root v (ys ++ [y])
  | .deep v ys fs r, y => .deep v (ys ++ [y]) fs r

theorem settle_enc (z : Zip β) : settle z.enc = .ok z.enc := by
  cases z <;> simp [settle, Zip.enc, ancOf]

theorem settle_push (z : Zip β) (y : β) :
    settle { z.enc with items := y :: z.enc.items } = .ok (z.push y).enc := by
  cases z with
  | root v ys =>
    simp [settle, Zip.enc, CacheState.popItem, Zip.push, Cache.pushBack, Cache.value, Cache.children, asLeaves,
      encL_append, encL, enc]
  | deep v ys fs r =>
    have : ancOf fs r ≠ [] := by simp [ancOf]
    simp [settle, Zip.enc, CacheState.popItem, Zip.push, Cache.pushBack, Cache.value, Cache.children, asLeaves,
      encL_append, encL, enc, ancOf]

theorem Zip.cur_push (z : Zip β) (y : β) : (z.push y).cur = z.cur := by cases z <;> rfl

theorem Zip.others_push (z : Zip β) (y : β) : (z.push y).others = z.others ++ [y :: z.cur] := by
  cases z <;> simp [Zip.push, Zip.others, Zip.cur]

theorem Zip.items_enc (z : Zip β) : z.enc.items = z.cur := by cases z <;> rfl

end Bfs

end TreeIter
