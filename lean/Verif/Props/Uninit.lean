import Verif.Lemmas.Uninit
import Verif.Props.Samples

/-! # C58: no read of uninitialised memory from safe code

Only the breadth-first iterators with ancestors or contexts have memory that may be uninitialised.  The iterators with
ancestors and their leaves never read it before it is written; neither do the iterators with contexts unless the program
replaces a context by one of a node further up.  Programs that do that are safe code. -/

universe u v w

namespace TreeIter

variable {N : Type u} {V : Type v}

/-- C58, breadth-first ancestors: whatever a program writes to the slices it is shown, `next` reads no uninitialised memory. -/
theorem C58_bfs_ancestors [SplitNode N V] (n : N) :
    ∃ s, Bfs.attachAncestors (Bfs.new n) = .ok s ∧ (Bfs.lendAncestors (N := N) (V := V)).NoUninit mayWrite s :=
  ⟨_, rfl, .of_inv Bfs.AncState.Ok (.new n) (fun s h => (Bfs.ancAdvance_ok s h).streamNextE)
    fun _ _ _ _ h h1 h2 => h.put h1 h2⟩

/-- C58, `attach_ancestors().leaves()`, breadth first: the same, and `leaves` may be called at any time. -/
theorem C58_bfs_leaves [TreeNode N V] (n : N) :
    ∃ s, Bfs.attachAncestors (Bfs.new n) = .ok s ∧ ∀ seen s', (Bfs.lendAncestors (N := N) (V := V)).Run mayWrite s seen s' →
      (Bfs.lendLeaves (N := N) (V := V)).NoUninit mayWrite s' := by
  refine ⟨_, rfl, fun seen s' h => ?_⟩
  have h0 := h.inv Bfs.AncState.Ok (.new n) (fun s h => (Bfs.ancAdvance_ok s h).streamNextE)
    fun _ _ _ _ h h1 h2 => h.put h1 h2
  exact .of_inv Bfs.AncState.LvOk (h0.imp id fun h => h.2)
    (fun s h => (Bfs.lvLoop_ok s.isRoot s.queue s.cs (h.imp id fun h => h.2)).streamNextE) fun _ _ _ _ h h1 h2 => h.put h1 h2

/-- C58, breadth-first contexts, for programs that do not shorten the list of ancestors: they may write to the ancestors
and the children, and they may leave the context of a node as deep as the current one or deeper.  What is missing
are the programs of `C58_bfs_context_false`. -/
theorem C58_bfs_context_partial [TreeNode N V] (n : N) (may : List (Ctx V (List N)) → Ctx V (List N) → Ctx V (List N) → Prop)
    (hm : ∀ seen o o', may seen o o' → o.ancestors.length ≤ o'.ancestors.length) :
    ∃ s, Bfs.attachContext (Bfs.new n) = .ok s ∧ (Bfs.lendContext (N := N) (V := V)).NoUninit may s :=
  ⟨_, rfl, .of_inv Bfs.CtxState.Ok (.new n []) (fun s h => (Bfs.ctxAdvance_ok s h).streamNextE)
    fun seen _ o o' h h1 h2 => h.put h1 (hm seen o o' h2)⟩

example := C58_bfs_context_partial sampleTree (fun _ o o' => o.ancestors.length = o'.ancestors.length) (fun _ _ _ h => Nat.le_of_eq h)

/-- C58, breadth-first contexts of binary nodes, for programs that do not shorten the list of ancestors. -/
theorem C58_bfs_context_binary_partial [BinNode N V] (n : N)
    (may : List (Ctx V (Option N × Option N)) → Ctx V (Option N × Option N) → Ctx V (Option N × Option N) → Prop)
    (hm : ∀ seen o o', may seen o o' → o.ancestors.length ≤ o'.ancestors.length) :
    ∃ s, Bfs.binAttachContext (Bfs.new n) = .ok s ∧ (Bfs.lendBinContext (N := N) (V := V)).NoUninit may s :=
  ⟨_, rfl, .of_inv Bfs.CtxState.Ok (.binNew n []) (fun s h => (Bfs.binCtxAdvance_ok s h).streamNextE)
    fun seen _ o o' h h1 h2 => h.put h1 (hm seen o o' h2)⟩

example := C58_bfs_context_binary_partial sampleBin (fun _ o o' => o.ancestors.length = o'.ancestors.length) (fun _ _ _ h => Nat.le_of_eq h)

/-- C58, breadth-first contexts of a collection, for programs that do not shorten the list of ancestors. -/
theorem C58_collection_bfs_context_partial [TreeNode N V] (ns : List N)
    (may : List (Ctx V (List N)) → Ctx V (List N) → Ctx V (List N) → Prop)
    (hm : ∀ seen o o', may seen o o' → o.ancestors.length ≤ o'.ancestors.length) :
    ∃ s, Coll.attachContext (Coll.new (S := Bfs.State N) ns) = .ok s ∧
      (Coll.lend Bfs.CtxState.new Bfs.ctxAdvance (Bfs.lendContext (N := N) (V := V))).NoUninit may s := by
  refine ⟨_, rfl, .of_inv (fun s => ∀ i ∈ s.inner, Bfs.CtxState.Ok i) (fun i hi => by simp at hi)
    (fun s h => (Coll.ctxAdvance_safe Bfs.CtxState.Ok _ _ (fun s h => (Bfs.ctxAdvance_ok s h).streamNextE)
      Bfs.CtxState.Ok.new s h).streamNextE) fun seen s o o' h h1 h2 => ?_⟩
  obtain ⟨i, hi, h3⟩ := Option.bind_eq_some_iff.1 h1
  intro j hj
  simp only [Coll.lend, hi, Option.map_some, Option.mem_some_iff] at hj
  exact hj ▸ (h i hi).put h3 (hm seen o o' h2)

example := C58_collection_bfs_context_partial [sampleTree, sampleTree] (fun _ o o' => o.ancestors.length = o'.ancestors.length) (fun _ _ _ h => Nat.le_of_eq h)

/-- C58, breadth-first contexts of a collection of binary trees, for programs that do not shorten the list of ancestors. -/
theorem C58_collection_bfs_context_binary_partial [BinNode N V] (ns : List N)
    (may : List (Ctx V (Option N × Option N)) → Ctx V (Option N × Option N) → Ctx V (Option N × Option N) → Prop)
    (hm : ∀ seen o o', may seen o o' → o.ancestors.length ≤ o'.ancestors.length) :
    ∃ s, Coll.attachContext (Coll.new (S := Bfs.State N) ns) = .ok s ∧
      (Coll.lend Bfs.CtxState.binNew Bfs.binCtxAdvance (Bfs.lendBinContext (N := N) (V := V))).NoUninit may s := by
  refine ⟨_, rfl, .of_inv (fun s => ∀ i ∈ s.inner, Bfs.CtxState.Ok i) (fun i hi => by simp at hi)
    (fun s h => (Coll.ctxAdvance_safe Bfs.CtxState.Ok _ _ (fun s h => (Bfs.binCtxAdvance_ok s h).streamNextE)
      Bfs.CtxState.Ok.binNew s h).streamNextE) fun seen s o o' h h1 h2 => ?_⟩
  obtain ⟨i, hi, h3⟩ := Option.bind_eq_some_iff.1 h1
  intro j hj
  simp only [Coll.lend, hi, Option.map_some, Option.mem_some_iff] at hj
  exact hj ▸ (h i hi).put h3 (hm seen o o' h2)

example := C58_collection_bfs_context_binary_partial [sampleBin, sampleBin] (fun _ o o' => o.ancestors.length = o'.ancestors.length) (fun _ _ _ h => Nat.le_of_eq h)

/-! ## The program that restores the context of the root

```text
let mut it = tree.bfs().attach_context();
let root = it.next().unwrap().clone();
for _ in 0..4 { it.next(); }
*it.get_mut().unwrap() = root;
it.next();
it.next(); // assume_init on an entry that was never given its value
``` -/

/-- The program, with `k` calls before it restores the context and `m + 1` after it: does it read uninitialised memory? -/
def restoreFirst {S : Type u} {O : Type w} (it : Lending S O V) (s₀ : S) (k m : Nat) : Bool :=
  match it.next s₀ with
  | .ok (some root, s1) =>
    match stateAfterE it.next k s1 with
    | .error _ => false
    | .ok s2 =>
      if (it.get s2).isSome then
        match stateAfterE it.next m (it.put s2 root) with
        | .error _ => false
        | .ok s3 =>
          match it.next s3 with
          | .error .uninit => true
          | _ => false
      else false
  | _ => false

theorem Lending.Run.calls {S : Type u} {O : Type w} {it : Lending S O V} {may : List O → O → O → Prop} {s₀ : S} (k : Nat) :
    ∀ {seen : List O} {s s' : S}, it.Run may s₀ seen s → stateAfterE it.next k s = .ok s' →
      ∃ seen', it.Run may s₀ seen' s' ∧ ∀ o ∈ seen, o ∈ seen' := by
  induction k with
  | zero =>
    intro seen s s' h hs
    obtain rfl := Except.ok.inj hs
    exact ⟨seen, h, fun _ h => h⟩
  | succ k ih =>
    intro seen s s' h hs
    rw [stateAfterE] at hs
    split at hs
    · cases hs
    · rename_i o s1 h1
      obtain ⟨seen', h2, h3⟩ := ih (h.next h1) hs
      exact ⟨seen', h2, fun o ho => h3 o (List.mem_append_right _ ho)⟩

/-- The program is one of those that restore contexts they have seen. -/
theorem Lending.not_noUninit {S : Type u} {O : Type w} {it : Lending S O V} {s₀ : S} {k m : Nat}
    (h : restoreFirst it s₀ k m = true) : ¬ it.NoUninit mayRestore s₀ := by
  intro hn
  unfold restoreFirst at h
  split at h
  · rename_i root s1 h1
    split at h
    · cases h
    · rename_i s2 h2
      split at h
      · rename_i hg
        obtain ⟨o, hg⟩ := Option.isSome_iff_exists.1 hg
        split at h
        · cases h
        · rename_i s3 h3
          split at h
          · rename_i h4
            obtain ⟨seen, h5, h6⟩ := (Run.start (may := mayRestore) |>.next h1).calls k h2
            obtain ⟨seen', h7, -⟩ := (h5.write hg (h6 root (by simp))).calls m h3
            exact hn _ _ h7 h4
          · cases h
      · cases h
  · cases h

/-- C58 is false of breadth-first contexts: the root's context restored at the node `4` of the sample tree. -/
theorem C58_bfs_context_false : ¬ ∀ (n : Tree Nat) s, Bfs.attachContext (Bfs.new n) = .ok s →
    (Bfs.lendContext (N := Tree Nat) (V := Nat)).NoUninit mayRestore s :=
  fun h => Lending.not_noUninit (k := 4) (m := 1) (by decide +kernel) (h sampleTree _ rfl)

/-- A binary tree of the same shape. -/
def restoreBin : BinTree Nat :=
  .node 0 (some (.node 1 (some (.node 3 none none)) (some (.node 4 none none)))) (some (.node 2 (some (.node 5 none none)) none))

/-- C58 is false of breadth-first contexts of binary nodes. -/
theorem C58_bfs_context_binary_false : ¬ ∀ (n : BinTree Nat) s, Bfs.binAttachContext (Bfs.new n) = .ok s →
    (Bfs.lendBinContext (N := BinTree Nat) (V := Nat)).NoUninit mayRestore s :=
  fun h => Lending.not_noUninit (k := 4) (m := 1) (by decide +kernel) (h restoreBin _ rfl)

/-- C58 is false of breadth-first contexts of collections. -/
theorem C58_collection_bfs_context_false : ¬ ∀ (ns : List (Tree Nat)) s,
    Coll.attachContext (Coll.new (S := Bfs.State (Tree Nat)) ns) = .ok s →
    (Coll.lend Bfs.CtxState.new Bfs.ctxAdvance (Bfs.lendContext (N := Tree Nat) (V := Nat))).NoUninit mayRestore s :=
  fun h => Lending.not_noUninit (k := 4) (m := 1) (by decide +kernel) (h [sampleTree] _ rfl)

/-! Concrete cases.  The programs that write to ancestors and children through `ancestors_mut` and `children_mut` meet the
hypothesis of the partial theorems, and one of them gets as far as the node `9` it added; the program above does not meet
it. -/

example (o o' : Ctx Nat (List (Tree Nat)))
    (h : o'.path = o.path ∧ o'.ancestors.length = o.ancestors.length) : o.ancestors.length ≤ o'.ancestors.length :=
  Nat.le_of_eq h.2.symm

example : ∃ seen s, (Bfs.lendContext (N := Tree Nat) (V := Nat)).Run
    (fun _ o o' => o'.path = o.path ∧ o'.ancestors.length = o.ancestors.length) (Bfs.CtxState.new sampleTree []) seen s ∧
    (Bfs.ctxGet s).map (·.ancestors) = some [100, 9] :=
  ⟨_, _, ((Lending.Run.start.next (o := some ⟨[], [0], some (kids sampleTree)⟩) rfl).write
    (o' := ⟨[], [100], some [.node 9 []]⟩) rfl ⟨rfl, rfl⟩).next (o := some ⟨[0], [100, 9], some []⟩)
      (s' := ⟨false, ⟨[9, 100], [0], [], .mk none []⟩, some [], [[]], 1⟩) (by with_unfolding_all rfl), rfl⟩

end TreeIter
