import Verif.Lemmas.SliceEditCtx
import Verif.Lemmas.SliceEditBfs

/-! # Lemmas about editing the ancestors in the contexts of an owned breadth-first traversal -/

universe u v w x y

namespace TreeIter

namespace Bfs

variable {N : Type u} {V : Type v} {N' : Type w} {V' : Type x}

/-- Apply a function to the value of an entry. -/
def onValue (g : V → V') (e : V × Nat) : V' × Nat := (g e.1, e.2)

namespace CtxCache

/-- Apply a function to the values of a cache. -/
def map (g : V → V') (s : CtxCache V) : CtxCache V' :=
  ⟨s.ancestors.map g, s.path, s.stack.map (Cache.map (onValue g)), s.cache.map (onValue g)⟩

theorem map_topChildren (g : V → V') (s : CtxCache V) : (s.map g).topChildren = Cache.mapL (onValue g) s.topChildren := by
  obtain ⟨anc, path, _ | ⟨t, st⟩, c⟩ := s <;> simp [map, topChildren, Cache.map_children]

theorem map_setTop (g : V → V') (s : CtxCache V) (cs : List (Option (Cache (V × Nat)))) :
    (s.setTop cs).map g = (s.map g).setTop (Cache.mapL (onValue g) cs) := by
  obtain ⟨anc, path, _ | ⟨t, st⟩, c⟩ := s <;> simp [map, setTop, Cache.map_setChildren]

theorem map_total (g : V → V') (s : CtxCache V) : (s.map g).total = s.total := by
  simp only [total, map, List.map_map, Cache.map_size]
  congr 2
  refine List.map_congr_left fun c _ => ?_
  simp [Cache.map_size]

theorem map_giveBack (g : V → V') (s : CtxCache V) : (s.map g).giveBack = s.giveBack.map (map g) := by
  obtain ⟨anc, path, stack, c⟩ := s
  rcases anc with _ | ⟨x, _ | ⟨y, anc⟩⟩ <;> rcases stack with _ | ⟨t, stack⟩ <;> rcases path with _ | ⟨p, path⟩ <;>
    simp [map, giveBack, Except.map, Cache.map, Cache.map_children, onValue]

theorem map_popToParent (g : V → V') (s : CtxCache V) : (s.map g).popToParent = s.popToParent.map g := by
  obtain ⟨anc, path, _ | ⟨t, st⟩, c⟩ := s
  · rfl
  · have h1 : (pushTop (⟨anc, path, st, c⟩ : CtxCache V) t).map g = pushTop (map g ⟨anc, path, st, c⟩) (t.map (onValue g)) := by
      rw [pushTop, pushTop, map_setTop, Cache.mapL_append, ← map_topChildren]
      rfl
    exact h1.symm

theorem map_advanceDfs (g : V → V') (start fuel : Nat) (s : CtxCache V) :
    (s.map g).advanceDfs start fuel = (s.advanceDfs start fuel).map (map g) := by
  induction fuel generalizing s with
  | zero => rfl
  | succ fuel ih =>
    rw [advanceDfs, advanceDfs, map_topChildren]
    rcases s.topChildren with _ | ⟨_ | c, rest⟩
    · simp [Cache.mapL, Except.map]
    · simp only [Cache.mapL, Cache.mapO]
      have h1 : (if (Cache.mapL (onValue g) rest).isEmpty then [] else Cache.mapL (onValue g) rest ++ [none]) =
          Cache.mapL (onValue g) (if rest.isEmpty then [] else rest ++ [none]) := by
        rw [Cache.mapL_isEmpty]
        split <;> simp [Cache.mapL, Cache.mapL_append, Cache.mapO]
      rw [h1, ← map_setTop, map_giveBack]
      rcases (s.setTop (if rest.isEmpty then [] else rest ++ [none])).giveBack with e | s1
      · rfl
      · have := ih s1.popToParent
        rw [← map_popToParent] at this
        exact this
    · simp only [Cache.mapL, Cache.mapO, Cache.map_value]
      rcases c.value with _ | ⟨v, p⟩
      · rfl
      · have h1 : (⟨g v :: ((s.map g).setTop (Cache.mapL (onValue g) rest)).ancestors,
            p :: ((s.map g).setTop (Cache.mapL (onValue g) rest)).path,
            .mk none (c.map (onValue g)).children :: ((s.map g).setTop (Cache.mapL (onValue g) rest)).stack,
            ((s.map g).setTop (Cache.mapL (onValue g) rest)).cache⟩ : CtxCache V') =
            map g ⟨v :: (s.setTop rest).ancestors, p :: (s.setTop rest).path,
              .mk none c.children :: (s.setTop rest).stack, (s.setTop rest).cache⟩ := by
          rw [← map_setTop]
          simp [map, Cache.map, Cache.map_children]
        simp only [Option.map_some, onValue, h1, ih]
        have h2 : (g v :: ((s.map g).setTop (Cache.mapL (onValue g) rest)).ancestors).length =
            (v :: (s.setTop rest).ancestors).length := by
          rw [← map_setTop]; simp [map]
        rw [Cache.map_children, Cache.mapL_isEmpty, h2]
        split <;> rfl

theorem map_popItem (g : V → V') (s : CtxCache V) : (s.map g).popItem = s.popItem.map (map g) := by
  obtain ⟨anc, path, stack, c⟩ := s
  rcases anc with _ | ⟨x, _ | ⟨y, _ | ⟨z, anc⟩⟩⟩
  · rfl
  · simp [map, popItem, Except.map]
  · rcases path with _ | ⟨p, path⟩ <;>
      simp [map, popItem, Except.map, Cache.map_pushBack, Cache.mapO, Cache.map, Cache.mapL, onValue]
  · simp only [popItem, map, List.map_cons, List.length_cons, List.length_map]
    split
    · rcases path with _ | ⟨p, path⟩
      · rfl
      · simp only [Except.map, map, List.map_cons]
        rw [CacheState.map_modify (Cache.map (onValue g)) (·.pushBack (some (.mk (some (x, p)) [])))]
        intro t
        simp [Cache.map_pushBack, Cache.mapO, Cache.map, Cache.mapL, onValue]
    · rfl

theorem map_dropSpent (g : V → V') (stack : List (Cache (V × Nat))) (anc : List V) (path : List Nat) :
    dropSpent (stack.map (Cache.map (onValue g))) (anc.map g) path =
      ((dropSpent stack anc path).1.map (Cache.map (onValue g)), (dropSpent stack anc path).2.1.map g,
        (dropSpent stack anc path).2.2) := by
  induction stack generalizing anc path with
  | nil => simp [dropSpent]
  | cons t st ih =>
    simp only [List.map_cons, dropSpent, Cache.map_children, Cache.mapL_length]
    split
    · simp
    · simpa using ih anc.tail path.tail

theorem map_retire (g : V → V') (s : CtxCache V) : (s.map g).retire = s.retire.map (map g) := by
  simp only [retire, map_topChildren, Cache.mapL_isEmpty]
  split
  · have h1 : (s.map g).setTop (none :: Cache.mapL (onValue g) s.topChildren) = (s.setTop (none :: s.topChildren)).map g := by
      rw [map_setTop]; simp [Cache.mapL, Cache.mapO]
    rw [h1, map_total, map_advanceDfs]
    simp [map]
  · have h1 : (⟨(dropSpent (s.map g).stack (s.map g).ancestors (s.map g).path).2.1,
        (dropSpent (s.map g).stack (s.map g).ancestors (s.map g).path).2.2,
        (dropSpent (s.map g).stack (s.map g).ancestors (s.map g).path).1, (s.map g).cache⟩ :
        CtxCache V') = map g ⟨(dropSpent s.stack s.ancestors s.path).2.1, (dropSpent s.stack s.ancestors s.path).2.2,
          (dropSpent s.stack s.ancestors s.path).1, s.cache⟩ := by
      simp [map, map_dropSpent]
    rw [h1, map_total, map_advanceDfs]
    simp [map]

theorem map_settle (g : V → V') (s : CtxCache V) : (s.map g).settle = s.settle.map (map g) := by
  simp only [settle]
  rw [map_popItem]
  simp only [map, List.length_map]
  split <;> rfl

end CtxCache

/-- Apply a function to the nodes and one to the values of a state. -/
def CtxState.mapG (h : N → N') (g : V → V') (s : CtxState V (List N) N) : CtxState V' (List N') N' :=
  ⟨s.isRoot, s.cc.map g, s.children.map (List.map h), s.queue.map (List.map h), s.counter⟩

/-- The same for binary nodes. -/
def CtxState.mapB (h : N → N') (g : V → V') (s : CtxState V (Option N × Option N) (Option N)) :
    CtxState V' (Option N' × Option N') (Option N') :=
  ⟨s.isRoot, s.cc.map g, s.children.map (Prod.map (Option.map h) (Option.map h)), s.queue.map (List.map (Option.map h)), s.counter⟩

theorem ctxLoop_map [SplitNode N V] [SplitNode N' V'] {h : N → N'} {g : V → V'} (hh : NodeHom h g) (queue : List (List N))
    (cc : CtxCache V) (counter : Nat) :
    ctxLoop (queue.map (List.map h)) (cc.map g) counter =
      (ctxLoop queue cc counter).map (CtxState.mapG h g) := by
  induction queue generalizing cc counter with
  | nil =>
    rw [ctxLoop, ctxLoop, CtxCache.map_settle]
    rcases cc.settle with e | cs <;> rfl
  | cons l q ih =>
    rw [ctxLoop, ctxLoop, CtxCache.map_settle]
    rcases cc.settle with e | cc
    · rfl
    · cases l with
      | cons n ns =>
        simp only [Except.map, List.map_cons]
        rcases checkedSucc counter with e | c
        · rfl
        · simp [CtxState.mapG, CtxCache.map, hh.val, hh.kids]
      | nil =>
        simp only [Except.map, List.map_cons, List.map_nil, CtxCache.map_retire]
        rcases cc.retire with e | cs
        · rfl
        · simp only [List.isEmpty_map, ih]
          split
          · simp [CtxState.mapG, CtxCache.map]
          · rfl

theorem ctxNext_map [SplitNode N V] [SplitNode N' V'] {h : N → N'} {g : V → V'} (hh : NodeHom h g)
    (s : CtxState V (List N) N) :
    ctxNext (s.mapG h g) = (ctxNext s).map fun r => (r.1.map (Ctx.map g (List.map h)), r.2.mapG h g) := by
  refine streamNextE_map _ _ _ ?_ fun s => ?_
  · obtain ⟨isRoot, cc, children, queue, counter⟩ := s
    cases isRoot with
    | true => rfl
    | false =>
      simp only [ctxAdvance, CtxState.mapG, CtxCache.map, List.isEmpty_map]
      simp only [Bool.false_eq_true, if_false]
      split
      · rfl
      · cases children with
        | none => rfl
        | some cs =>
          have := ctxLoop_map hh (queue ++ [cs]) cc counter
          rw [List.map_append] at this
          exact this
  · simp only [ctxGet, CtxState.mapG, CtxCache.map, List.isEmpty_map]
    split <;> simp [Ctx.map]

theorem binScan_map (h : N → N') (l : List (Option N)) (c : Nat) :
    binScan (l.map (Option.map h)) c =
      (binScan l c).map fun r => (r.1.map h, r.2.1.map (Option.map h), r.2.2) := by
  induction l generalizing c with
  | nil => rfl
  | cons o l ih =>
    cases o with
    | some n => rfl
    | none =>
      simp only [List.map_cons, Option.map_none, binScan]
      rcases checkedSucc c with e | c
      · rfl
      · exact ih c

theorem binCtxLoop_map [SplitNode2 N V] [SplitNode2 N' V'] {h : N → N'} {g : V → V'} (hh : BinNodeHom h g)
    (queue : List (List (Option N))) (cc : CtxCache V) (counter : Nat) :
    binCtxLoop (queue.map (List.map (Option.map h))) (cc.map g) counter =
      (binCtxLoop queue cc counter).map (CtxState.mapB h g) := by
  induction queue generalizing cc counter with
  | nil =>
    rw [binCtxLoop, binCtxLoop, CtxCache.map_settle]
    rcases cc.settle with e | cs <;> rfl
  | cons l q ih =>
    rw [binCtxLoop, binCtxLoop, CtxCache.map_settle]
    rcases cc.settle with e | cc
    · rfl
    · simp only [Except.map, List.map_cons, binScan_map]
      rcases binScan l counter with e | ⟨_ | n, ss, c⟩
      · rfl
      · simp only [Option.map_none, CtxCache.map_retire]
        rcases cc.retire with e | cs
        · rfl
        · simp only [Except.map, List.isEmpty_map, ih]
          split
          · simp [CtxState.mapB, CtxCache.map]
          · rfl
      · simp only [Option.map_some]
        rcases checkedSucc c with e | c
        · rfl
        · have h1 : (split2 (h n)).2 = Prod.map (Option.map h) (Option.map h) (split2 n).2 :=
            Prod.ext (hh.left n) (hh.right n)
          simp [CtxState.mapB, CtxCache.map, hh.val, h1]

theorem binCtxNext_map [SplitNode2 N V] [SplitNode2 N' V'] {h : N → N'} {g : V → V'} (hh : BinNodeHom h g)
    (s : CtxState V (Option N × Option N) (Option N)) :
    binCtxNext (s.mapB h g) =
      (binCtxNext s).map fun r => (r.1.map (Ctx.map g (Prod.map (Option.map h) (Option.map h))), r.2.mapB h g) := by
  refine streamNextE_map _ _ _ ?_ fun s => ?_
  · obtain ⟨isRoot, cc, children, queue, counter⟩ := s
    cases isRoot with
    | true => rfl
    | false =>
      simp only [binCtxAdvance, CtxState.mapB, CtxCache.map, List.isEmpty_map]
      simp only [Bool.false_eq_true, if_false]
      split
      · rfl
      · cases children with
        | none => rfl
        | some cs =>
          have := binCtxLoop_map hh (queue ++ [[cs.1, cs.2]]) cc counter
          rw [List.map_append] at this
          exact this
  · simp only [ctxGet, CtxState.mapB, CtxCache.map, List.isEmpty_map]
    split <;> simp [Ctx.map]

/-! ## Every value is in one place -/

theorem accOne_nodup {S : Type u} [BEq V] [LawfulBEq V] {todo live : S → List V} {k : Nat} {s s' : S}
    {es : List (Handles.Event V)}
    (h : Handles.AccOne todo live k s es s') (hn : (live s ++ todo s).Nodup) : (live s' ++ todo s').Nodup := by
  obtain ⟨h1, h2, h3⟩ := h
  refine nodup_of_count_le (fun a => ?_) hn
  have h4 := h3.count_eq a
  have h5 : ((todo s).take k).count a + ((todo s).drop k).count a = (todo s).count a := by
    rw [← List.count_append, List.take_append_drop]
  rw [h1] at h4
  rw [h2]
  simp only [List.count_append] at h4 ⊢
  omega

/-- Every value is in one place, and the iterator is in a state that it can be in. -/
def CtxState.Good (s : CtxState V (List (Tree V)) (Tree V)) : Prop :=
  CtxInv { s with isRoot := false } ∧ (s.live ++ ctxTodo s).Nodup

theorem ctxAdvance_good [BEq V] [LawfulBEq V] (s s' : CtxState V (List (Tree V)) (Tree V)) (h : s.Good)
    (ha : ctxAdvance s = .ok s') : s'.Good := by
  obtain ⟨isRoot, cc, children, queue, counter⟩ := s
  cases isRoot with
  | true =>
    obtain rfl := Except.ok.inj ha
    exact h
  | false =>
    obtain ⟨h1, h2⟩ := h
    rw [ctxAdvanceD_erase] at ha
    rcases hd : ctxAdvanceD (⟨false, cc, children, queue, counter⟩ : CtxState V (List (Tree V)) (Tree V)) with e | ⟨es, s1⟩
    · rw [hd] at ha; cases ha
    · rw [hd] at ha
      obtain rfl := Except.ok.inj ha
      obtain ⟨h3, h4⟩ := ctxAdvanceD_acc _ _ _ h1 hd
      refine ⟨?_, accOne_nodup h3 h2⟩
      have : ({ s1 with isRoot := false } : CtxState V (List (Tree V)) (Tree V)) = s1 := by
        obtain ⟨a, b, c, d, e⟩ := s1
        obtain rfl : a = false := h4.1
        rfl
      simp only [this]
      exact h4

/-- The same for binary nodes. -/
def CtxState.BinGood (s : CtxState V (Option (BinTree V) × Option (BinTree V)) (Option (BinTree V))) : Prop :=
  BinCtxInv { s with isRoot := false } ∧ (s.live ++ binCtxTodo s).Nodup

theorem binCtxAdvance_good [BEq V] [LawfulBEq V]
    (s s' : CtxState V (Option (BinTree V) × Option (BinTree V)) (Option (BinTree V))) (h : s.BinGood)
    (ha : binCtxAdvance s = .ok s') : s'.BinGood := by
  obtain ⟨isRoot, cc, children, queue, counter⟩ := s
  cases isRoot with
  | true =>
    obtain rfl := Except.ok.inj ha
    exact h
  | false =>
    obtain ⟨h1, h2⟩ := h
    rw [binCtxAdvanceD_erase] at ha
    rcases hd : binCtxAdvanceD (⟨false, cc, children, queue, counter⟩ :
      CtxState V (Option (BinTree V) × Option (BinTree V)) (Option (BinTree V))) with e | ⟨es, s1⟩
    · rw [hd] at ha; cases ha
    · rw [hd] at ha
      obtain rfl := Except.ok.inj ha
      obtain ⟨h3, h4⟩ := binCtxAdvanceD_acc _ _ _ h1 hd
      refine ⟨?_, accOne_nodup h3 h2⟩
      have : ({ s1 with isRoot := false } : CtxState V (Option (BinTree V) × Option (BinTree V)) (Option (BinTree V))) = s1 := by
        obtain ⟨a, b, c, d, e⟩ := s1
        obtain rfl : a = false := h4.1
        rfl
      simp only [this]
      exact h4

section Write
variable {A : Type u} [DecidableEq A]

theorem map_cc_writeAll (cc : CtxCache A) (h : cc.live.Nodup) (g : A → V) (ys : List V) :
    ({ cc.map g with ancestors := overwriteStack (cc.map g).ancestors ys } : CtxCache V) =
      cc.map (writeAll g cc.ancestors.reverse ys) := by
  rw [CtxCache.live] at h
  obtain ⟨h1, -, h3⟩ := List.nodup_append.1 h
  have h4 : ∀ e : A × Nat, e.1 ∈ cc.kept → onValue g e = onValue (writeAll g cc.ancestors.reverse ys) e := by
    intro e he
    rw [onValue, onValue, writeAll_of_notMem _ _ _ _ fun hi => h3 e.1 (List.mem_reverse.1 hi) e.1 he rfl]
  simp only [CtxCache.map, map_writeAll_reverse _ _ _ h1, CtxCache.mk.injEq, true_and]
  refine ⟨List.map_congr_left fun c hc => Cache.map_congr_vals _ _ _ fun a ha => h4 a ?_,
    Cache.map_congr_vals _ _ _ fun a ha => h4 a ?_⟩
  · rw [CtxCache.kept]
    refine List.mem_map_of_mem (List.mem_append.2 (.inl (List.mem_flatMap.2 ⟨c, hc, ha⟩)))
  · rw [CtxCache.kept]
    exact List.mem_map_of_mem (List.mem_append.2 (.inr ha))

theorem ctxEdit_map (s : CtxState A (List (Tree A)) (Tree A)) (h : (s.live ++ ctxTodo s).Nodup) (g : A → V) (ys : List V) :
    (s.mapG (Tree.map g) g).edit ys =
      s.mapG (Tree.map (writeAll g s.cc.ancestors.reverse ys)) (writeAll g s.cc.ancestors.reverse ys) := by
  obtain ⟨h1, -, h3⟩ := List.nodup_append.1 h
  have h4 : ∀ t ∈ s.queue.flatten ++ s.children.toList.flatten,
      Tree.map g t = Tree.map (writeAll g s.cc.ancestors.reverse ys) t := by
    intro t ht
    refine map_tree_writeAll _ _ _ _ fun a ha hi => h3 a (List.mem_append.2 (.inl (List.mem_reverse.1 hi))) a ?_ rfl
    rw [ctxTodo, (bfsF_perm_preorder _).mem_iff]
    exact List.mem_flatMap.2 ⟨t, List.mem_map.2 ⟨t, ht, treeOf_tree t⟩, ha⟩
  simp only [CtxState.mapG, CtxState.edit, map_cc_writeAll _ h1, CtxState.mk.injEq, true_and]
  refine ⟨?_, ?_, trivial⟩
  · rcases hc : s.children with _ | cs
    · rfl
    · exact congrArg some (List.map_congr_left fun t ht => h4 t (by simp [hc, ht]))
  · exact List.map_congr_left fun l hl => List.map_congr_left fun t ht =>
      h4 t (List.mem_append.2 (.inl (List.mem_flatten.2 ⟨l, hl, ht⟩)))

theorem binCtxEdit_map (s : CtxState A (Option (BinTree A) × Option (BinTree A)) (Option (BinTree A)))
    (h : (s.live ++ binCtxTodo s).Nodup) (g : A → V) (ys : List V) :
    (s.mapB (BinTree.map g) g).edit ys =
      s.mapB (BinTree.map (writeAll g s.cc.ancestors.reverse ys)) (writeAll g s.cc.ancestors.reverse ys) := by
  obtain ⟨h1, -, h3⟩ := List.nodup_append.1 h
  have h4 : ∀ o ∈ s.queue.flatten ++ s.children.toList.flatMap fun c => [c.1, c.2],
      Option.map (BinTree.map g) o = Option.map (BinTree.map (writeAll g s.cc.ancestors.reverse ys)) o := by
    intro o ho
    refine map_slot_writeAll _ _ _ _ fun a ha hi => h3 a (List.mem_append.2 (.inl (List.mem_reverse.1 hi))) a ?_ rfl
    cases o with
    | none => simp [slotVals] at ha
    | some t =>
      rw [binCtxTodo, (bfsF_perm_preorder _).mem_iff]
      refine List.mem_flatMap.2 ⟨t.toTree, List.mem_map.2 ⟨t, List.mem_filterMap.2 ⟨_, ho, rfl⟩, ?_⟩, by simpa [slotVals] using ha⟩
      rw [treeOf_eq_toTree, binTreeOf_binTree]
  simp only [CtxState.mapB, CtxState.edit, map_cc_writeAll _ h1, CtxState.mk.injEq, true_and]
  refine ⟨?_, ?_, trivial⟩
  · rcases hc : s.children with _ | cs
    · rfl
    · exact congrArg some (Prod.ext (h4 cs.1 (by simp [hc])) (h4 cs.2 (by simp [hc])))
  · exact List.map_congr_left fun l hl => List.map_congr_left fun t ht =>
      h4 t (List.mem_append.2 (.inl (List.mem_flatten.2 ⟨l, hl, ht⟩)))

end Write

theorem mapG_new [SplitNode N V] [SplitNode N' V'] {h : N → N'} {g : V → V'} (hh : NodeHom h g) (n : N) (path : List Nat) :
    (CtxState.new n path).mapG h g = CtxState.new (h n) path := by
  simp [CtxState.new, CtxState.mapG, CtxCache.map, hh.val, hh.kids, Cache.map, Cache.mapL]

theorem mapB_new [SplitNode2 N V] [SplitNode2 N' V'] {h : N → N'} {g : V → V'} (hh : BinNodeHom h g) (n : N) (path : List Nat) :
    (CtxState.binNew n path).mapB h g = CtxState.binNew (h n) path := by
  have h1 : (split2 (h n)).2 = Prod.map (Option.map h) (Option.map h) (split2 n).2 := Prod.ext (hh.left n) (hh.right n)
  simp [CtxState.binNew, CtxState.mapB, CtxCache.map, hh.val, h1, Cache.map, Cache.mapL]

theorem good_new (t : Tree V) (ha : ArityLt t) (hn : t.preorder.Nodup) : (CtxState.new t []).Good := by
  refine ⟨⟨rfl, ?_, by simp [CtxState.new]⟩, ?_⟩
  · generalize hu : ctxT [] [] (unfold t) = u
    obtain ⟨a, us⟩ := u
    obtain ⟨s', h1, h2, h3⟩ := ctxNext_spec _ _ (ctxRel_new t [] ha)
    rw [hu] at h3
    obtain ⟨h4, h5⟩ := h3 a us [] rfl
    refine ⟨us, ?_⟩
    obtain rfl := Except.ok.inj (streamNextE_ok h4).1
    exact h5
  · refine List.Perm.nodup (List.Perm.symm ?_) hn
    rw [preorder_kids, ctxTodo]
    simp only [CtxState.live, CtxCache.live, CtxCache.kept, CtxState.new, Cache.vals, Cache.valsL, List.flatMap_nil, List.nil_append,
      Option.toList_none, Option.toList_some, List.map_nil, List.append_nil, List.flatten_nil, List.flatten_cons, List.singleton_append]
    refine List.Perm.cons _ ((bfsF_perm_preorder _).trans ?_)
    rw [show ((kids t).map treeOf) = kids t from (List.map_congr_left fun c _ => treeOf_tree c).trans (List.map_id _)]

theorem binGood_new (t : BinTree V) (hn : t.toTree.preorder.Nodup) : (CtxState.binNew t []).BinGood := by
  refine ⟨⟨rfl, ?_, by simp [CtxState.binNew]⟩, ?_⟩
  · generalize hu : (ctxB [] [] (unfold2 t)).toTree = u
    obtain ⟨a, us⟩ := u
    obtain ⟨s', h1, h2, h3⟩ := binCtxNext_spec _ _ (binCtxRel_new t [])
    rw [hu] at h3
    obtain ⟨h4, h5⟩ := h3 a us [] rfl
    refine ⟨us, ?_⟩
    obtain rfl := Except.ok.inj (streamNextE_ok h4).1
    exact h5
  · refine List.Perm.nodup (List.Perm.symm ?_) hn
    have h0 : t.toTree.preorder = slotVals (some t) := by simp [slotVals]
    rw [h0, slotVals_some, binCtxTodo]
    simp only [CtxState.live, CtxCache.live, CtxCache.kept, CtxState.binNew, Cache.vals, Cache.valsL, List.flatMap_nil,
      List.flatMap_cons, List.nil_append,
      Option.toList_none, Option.toList_some, List.map_nil, List.append_nil, List.flatten_nil, List.singleton_append]
    refine List.Perm.cons _ ((bfsF_perm_preorder _).trans ?_)
    rcases (split2 t).2 with ⟨_ | l, _ | r⟩ <;> simp [slotVals, treeOf_eq_toTree, binTreeOf_binTree]

theorem ctxGet_ancestors {C : Type w} {I : Type u} (s : CtxState V C I) (c : Ctx V C) (h : ctxGet s = some c) :
    c.ancestors = s.cc.ancestors.reverse := by
  simp only [ctxGet] at h
  split at h
  · cases h
  · exact congrArg Ctx.ancestors (Option.some.inj h).symm

end Bfs

variable {N : Type u} {V : Type v} {N' : Type w} {V' : Type x}

/-! ## The contexts of a tree of addresses -/

theorem seen_withPos (t : Tree V) (pre : List Nat) (anc : List V) (ancp : List (List Nat)) (h : ancp ++ [pre] = prefixes pre) :
    (((t.withPos pre anc).map Pos.path).withPos pre ancp).map (fun p => (p.path, p.ancestors)) =
      (t.withPos pre anc).map fun p => (p.path, prefixes p.path) := by
  induction t using Tree.ind generalizing pre anc ancp with
  | h a cs ih =>
    rw [Tree.withPos, Tree.map_node, Tree.map_node, Tree.withPos, Tree.map_node, h]
    congr 1
    refine List.ext_getElem? fun j => ?_
    simp only [List.getElem?_map, withPosL_get, Option.map_map]
    cases hj : cs[j]? with
    | none => rfl
    | some c =>
      simp only [Option.map_some, Option.some.injEq, Function.comp_apply]
      exact ih c (List.mem_of_getElem? hj) _ _ _ (by simp [prefixes_snoc])

theorem seen_withPos2 (t : BinTree V) (pre : List Nat) (anc : List V) (ancp : List (List Nat))
    (h : ancp ++ [pre] = prefixes pre) :
    (((t.withPos pre anc).map Pos.path).withPos pre ancp).map (fun p => (p.path, p.ancestors)) =
      (t.withPos pre anc).map fun p => (p.path, prefixes p.path) := by
  induction t using BinTree.ind generalizing pre anc ancp with
  | h a l r ihl ihr =>
    rw [BinTree.withPos, BinTree.map, BinTree.map, BinTree.withPos, BinTree.map, h]
    congr 1
    · cases l with
      | none => rfl
      | some l =>
        simp only [BinTree.withPosO, BinTree.mapO, Option.some.injEq]
        exact ihl l rfl _ _ _ (by simp [prefixes_snoc])
    · cases r with
      | none => rfl
      | some r =>
        simp only [BinTree.withPosO, BinTree.mapO, Option.some.injEq]
        exact ihr r rfl _ _ _ (by simp [prefixes_snoc])

/-- What the contexts of the tree of addresses say. -/
theorem seen_located (t : Tree V) :
    (unfold (t.located.map Pos.path)).located.map (fun p => p.ctx.seen) = t.located.map fun p => (p.path, prefixes p.path) := by
  have h1 : (unfold (t.located.map Pos.path)).located.map (fun p => p.ctx.seen) =
      (t.located.map Pos.path).located.map fun p => (p.path, p.ancestors) := by
    conv => rhs; rw [← treeOf_tree (t.located.map Pos.path), treeOf, Tree.located_map, Tree.map_map]
    rfl
  rw [h1]
  exact seen_withPos t [] [] [] (by simp [prefixes])

theorem seen_located2 (t : BinTree V) :
    (unfold2 (t.located.map Pos.path)).located.map (fun p => p.ctx2.seen) =
      t.located.map fun p => (p.path, prefixes p.path) := by
  have h1 : (unfold2 (t.located.map Pos.path)).located.map (fun p => p.ctx2.seen) =
      (t.located.map Pos.path).located.map fun p => (p.path, p.ancestors) := by
    conv => rhs; rw [← binTreeOf_binTree (t.located.map Pos.path), binTreeOf, BinTree.located_map, BinTree.map_map]
    rfl
  rw [h1]
  exact seen_withPos2 t [] [] [] (by simp [prefixes])

theorem arityOk_hom [TreeNode N V] [TreeNode N' V'] {h : N → N'} {g : V → V'} (hh : NodeHom h g) (n : N) :
    ArityOk (h n) ↔ ArityOk n := by
  refine node_ind (V := V) (P := fun n => ArityOk (h n) ↔ ArityOk n) (fun n ih => ?_) n
  · rw [arityOk_iff, arityOk_iff, hh.kids, List.length_map, List.forall_mem_map]
    exact and_congr_right fun _ => forall₂_congr ih

theorem arityLt_hom [TreeNode N V] [TreeNode N' V'] {h : N → N'} {g : V → V'} (hh : NodeHom h g) (n : N) :
    ArityLt (h n) ↔ ArityLt n := by
  refine node_ind (V := V) (P := fun n => ArityLt (h n) ↔ ArityLt n) (fun n ih => ?_) n
  · rw [Bfs.arityLt_iff, Bfs.arityLt_iff, hh.kids, List.length_map, List.forall_mem_map]
    exact and_congr_right fun _ => forall₂_congr ih

theorem arityOk_paths [TreeNode N V] (n : N) (h : ArityOk n) : ArityOk ((treeOf n).located.map Pos.path) := by
  rw [arityOk_hom (treeMap_hom _), ← arityOk_hom (treeMap_hom Pos.item), map_item_located, arityOk_hom treeOf_hom]
  exact h

theorem arityLt_paths [TreeNode N V] (n : N) (h : ArityLt n) : ArityLt ((treeOf n).located.map Pos.path) := by
  rw [arityLt_hom (treeMap_hom _), ← arityLt_hom (treeMap_hom Pos.item), map_item_located, arityLt_hom treeOf_hom]
  exact h

end TreeIter
