import Verif.Lemmas.SliceEditIn

/-! # Lemmas about editing the ancestors in the contexts of an owned traversal -/

universe u v w x y z

namespace TreeIter

variable {N : Type u} {V : Type v} {N' : Type w} {V' : Type x}

/-- What the body of the loop sees of a context. -/
def Ctx.seen {C : Type w} (c : Ctx V C) : List Nat × List V := (c.path, c.ancestors)

/-- Apply a function to the values and one to the children of a context. -/
def Ctx.map {C : Type w} {D : Type y} (g : V → V') (h : C → D) (c : Ctx V C) : Ctx V' D :=
  ⟨c.path, c.ancestors.map g, c.children.map h⟩

section Loop
variable {S : Type u} {T : Type x} {σ : Type w} {C : Type y} {D : Type z}

/-- A map of states that commutes with `next` and `edit` and keeps the values does not change what the body sees. -/
theorem ctxEditLoop_hom {next : S → Except Panic (Option (Ctx V C) × S)} {edit : S → List V → S}
    {next' : T → Except Panic (Option (Ctx V D) × T)} {edit' : T → List V → T} (F : S → T) (h : C → D)
    (hn : ∀ s, next' (F s) = (next s).map fun r => (r.1.map (Ctx.map id h), F r.2))
    (he : ∀ s ys, edit' (F s) ys = F (edit s ys)) (f : List Nat → σ → List V → σ × List V) (k : Nat) (s : S) (w : σ) :
    ctxEditLoop next' edit' f k (F s) w = ctxEditLoop next edit f k s w := by
  induction k generalizing s w with
  | zero => rfl
  | succ k ih =>
    rw [ctxEditLoop, ctxEditLoop, hn]
    rcases next s with e | ⟨_ | c, s'⟩
    · rfl
    · rfl
    · simp only [Except.map, Option.map_some, Ctx.map, List.map_id_fun, id, he, ih]

/-- Memory as a function of addresses. -/
def visitFn (f : List Nat → σ → List V → σ × List V) (mw : (List Nat → V) × σ) (p : List Nat) : (List Nat → V) × σ :=
  visitAlong (fun g a => some (g a)) (fun g a x => Function.update g a x) (f p) mw p

/-- If the values in a state are what is in memory at the addresses in another state, then editing the ancestors is
writing to the memory. -/
theorem ctxEditLoop_memory {nextA : T → Except Panic (Option (Ctx (List Nat) D) × T)}
    {next : S → Except Panic (Option (Ctx V C) × S)} {edit : S → List V → S} (inst : (List Nat → V) → T → S)
    (h : (List Nat → V) → D → C) (Good : T → Prop)
    (hn : ∀ g s, next (inst g s) = (nextA s).map fun r => (r.1.map (Ctx.map g (h g)), inst g r.2))
    (hg : ∀ s o s', Good s → nextA s = .ok (o, s') → Good s')
    (he : ∀ s c s', Good s → nextA s = .ok (some c, s') → ∀ g ys, edit (inst g s') ys = inst (writeAll g c.ancestors ys) s')
    (f : List Nat → σ → List V → σ × List V) (k : Nat) (s : T) (g : List Nat → V) (w : σ) (hs : Good s) (ps : List (List Nat))
    (hnth : ∀ i, i < k → i ≤ ps.length →
      (nthCallE nextA i s).map (·.map Ctx.seen) = .ok (ps.map fun p => (p, prefixes p))[i]?) :
    ctxEditLoop next edit f k (inst g s) w = .ok ((ps.take k).foldl (visitFn f) (g, w)).2 := by
  induction k generalizing s g w ps with
  | zero => simp [ctxEditLoop]
  | succ k ih =>
    have h0 := hnth 0 (by simp) (by simp)
    rw [nthCallE, stateAfterE] at h0
    rw [ctxEditLoop, hn]
    rcases hns : nextA s with e | ⟨o, s'⟩
    · simp [hns, Except.map] at h0
    · simp only [hns, Except.map, Except.ok.injEq] at h0
      cases ps with
      | nil =>
        obtain rfl : o = none := by simpa using h0
        simp [Except.map]
      | cons p ps =>
        obtain ⟨c, rfl, hc⟩ : ∃ c, o = some c ∧ c.seen = (p, prefixes p) := by
          simpa [Option.map_eq_some_iff] using h0
        obtain ⟨hc1, hc2⟩ := Prod.mk.inj hc
        simp only [Except.map, Option.map_some, Ctx.map, hc1, hc2]
        rw [he s c s' hs hns, hc2]
        have h1 : ∀ i, i < k → i ≤ ps.length →
            (nthCallE nextA i s').map (·.map Ctx.seen) = .ok (ps.map fun p => (p, prefixes p))[i]? := by
          intro i hi hl
          have := hnth (i + 1) (by omega) (by simpa using hl)
          rw [nthCallE, stateAfterE, hns] at this
          simpa [nthCallE] using this
        rw [ih s' _ _ (hg _ _ _ hs hns) ps h1, List.take_succ_cons, List.foldl_cons]
        have h2 : (prefixes p).filterMap (fun a => some (g a)) = (prefixes p).map g := by
          rw [← List.filterMap_eq_map]; rfl
        simp only [visitFn, visitAlong, h2]
        rfl

/-- The same with a tree as memory. -/
theorem ctxEditLoop_tree {nextA : T → Except Panic (Option (Ctx (List Nat) D) × T)}
    {next : S → Except Panic (Option (Ctx V C) × S)} {edit : S → List V → S} (inst : (List Nat → V) → T → S)
    (h : (List Nat → V) → D → C) (Good : T → Prop)
    (hn : ∀ g s, next (inst g s) = (nextA s).map fun r => (r.1.map (Ctx.map g (h g)), inst g r.2))
    (hg : ∀ s o s', Good s → nextA s = .ok (o, s') → Good s')
    (he : ∀ s c s', Good s → nextA s = .ok (some c, s') → ∀ g ys, edit (inst g s') ys = inst (writeAll g c.ancestors ys) s')
    (f : List Nat → σ → List V → σ × List V) (k : Nat) (s : T) (hs : Good s) (t : Tree V) (g : List Nat → V) (w : σ)
    (ht : t.fill g = t) (ps : List (List Nat)) (hps : ∀ p ∈ ps, (t.cell p).isSome)
    (hnth : ∀ i, (nthCallE nextA i s).map (·.map Ctx.seen) = .ok (ps.map fun p => (p, prefixes p))[i]?) :
    ctxEditLoop next edit f k (inst g s) w =
      .ok ((ps.take k).foldl (fun mw p => visitAlong Tree.cell Tree.setCell (f p) mw p) (t, w)).2 := by
  rw [ctxEditLoop_memory inst h Good hn hg he f k s g w hs ps fun i _ _ => hnth i]
  have := visitAlong_fill t f (ps.take k) g w fun p hp => hps p (List.mem_of_mem_take hp)
  rw [ht] at this
  rw [this]
  rfl

theorem ctxEditLoop_binTree {nextA : T → Except Panic (Option (Ctx (List Nat) D) × T)}
    {next : S → Except Panic (Option (Ctx V C) × S)} {edit : S → List V → S} (inst : (List Nat → V) → T → S)
    (h : (List Nat → V) → D → C) (Good : T → Prop)
    (hn : ∀ g s, next (inst g s) = (nextA s).map fun r => (r.1.map (Ctx.map g (h g)), inst g r.2))
    (hg : ∀ s o s', Good s → nextA s = .ok (o, s') → Good s')
    (he : ∀ s c s', Good s → nextA s = .ok (some c, s') → ∀ g ys, edit (inst g s') ys = inst (writeAll g c.ancestors ys) s')
    (f : List Nat → σ → List V → σ × List V) (k : Nat) (s : T) (hs : Good s) (t : BinTree V) (g : List Nat → V) (w : σ)
    (ht : t.fill g = t) (ps : List (List Nat)) (hps : ∀ p ∈ ps, (t.cell p).isSome)
    (hnth : ∀ i, (nthCallE nextA i s).map (·.map Ctx.seen) = .ok (ps.map fun p => (p, prefixes p))[i]?) :
    ctxEditLoop next edit f k (inst g s) w =
      .ok ((ps.take k).foldl (fun mw p => visitAlong BinTree.cell BinTree.setCell (f p) mw p) (t, w)).2 := by
  rw [ctxEditLoop_memory inst h Good hn hg he f k s g w hs ps fun i _ _ => hnth i]
  have := visitAlong_fill2 t f (ps.take k) g w fun p hp => hps p (List.mem_of_mem_take hp)
  rw [ht] at this
  rw [this]
  rfl

end Loop

section Stream
variable {S : Type u} {T : Type x} {O : Type y} {O' : Type z}

theorem streamNextE_map {advance : S → Except Panic S} {get : S → Option O} {advance' : T → Except Panic T}
    {get' : T → Option O'} (F : S → T) (G : O → O') (s : S) (ha : advance' (F s) = (advance s).map F)
    (hg : ∀ s, get' (F s) = (get s).map G) :
    streamNextE advance' get' (F s) = (streamNextE advance get s).map fun r => (r.1.map G, F r.2) := by
  simp only [streamNextE, ha]
  rcases advance s with e | s'
  · rfl
  · simp [Except.map, hg]

theorem streamNextE_ok {advance : S → Except Panic S} {get : S → Option O} {s s' : S} {o : Option O}
    (h : streamNextE advance get s = .ok (o, s')) : advance s = .ok s' ∧ get s' = o := by
  simp only [streamNextE] at h
  split at h
  · cases h
  · rename_i s1 h1
    obtain ⟨h2, rfl⟩ := Prod.mk.inj (Except.ok.inj h)
    exact ⟨h1, h2⟩

end Stream

/-- The values of the nodes that the slot iterators of a stack have still to yield. -/
def pend2 (st : List (List (Option (BinTree V)))) : List V := st.flatMap fun l => l.flatMap slotVals

theorem pend2_cons (l : List (Option (BinTree V))) (st : List (List (Option (BinTree V)))) :
    pend2 (l :: st) = l.flatMap slotVals ++ pend2 st := rfl

theorem pend2_append (st st' : List (List (Option (BinTree V)))) : pend2 (st ++ st') = pend2 st ++ pend2 st' := by
  simp [pend2]

theorem slotVals_none : slotVals (none : Option (BinTree V)) = [] := rfl

theorem slots_hom [SplitNode2 N V] [SplitNode2 N' V'] {h : N → N'} {g : V → V'} (hh : BinNodeHom h g) (n : N) :
    slots (h n) = (slots n).map (Option.map h) := by
  simp [slots, hh.left, hh.right]

theorem slots_count [BEq V] (t : BinTree V) (a : V) :
    ((slots t).flatMap slotVals).count a = (slotVals (split2 t).2.1).count a + (slotVals (split2 t).2.2).count a := by
  simp [slots]

section Write
variable {A : Type u} [DecidableEq A]

theorem map_slots_writeAll (g : A → V) (as : List A) (ys : List V) (l : List (Option (BinTree A)))
    (h : ∀ a ∈ l.flatMap slotVals, a ∉ as) :
    l.map (Option.map (BinTree.map g)) = l.map (Option.map (BinTree.map (writeAll g as ys))) :=
  List.map_congr_left fun o ho => map_slot_writeAll _ _ _ _ fun a ha => h a (List.mem_flatMap.2 ⟨o, ho, ha⟩)

theorem map_pend2_writeAll (g : A → V) (as : List A) (ys : List V) (st : List (List (Option (BinTree A))))
    (h : ∀ a ∈ pend2 st, a ∉ as) :
    st.map (List.map (Option.map (BinTree.map g))) = st.map (List.map (Option.map (BinTree.map (writeAll g as ys)))) :=
  List.map_congr_left fun l hl => map_slots_writeAll _ _ _ _ fun a ha => h a (List.mem_flatMap.2 ⟨l, hl, ha⟩)

theorem map_trees_writeAll (g : A → V) (as : List A) (ys : List V) (l : List (Tree A))
    (h : ∀ a ∈ l.flatMap Tree.preorder, a ∉ as) : l.map (Tree.map g) = l.map (Tree.map (writeAll g as ys)) :=
  List.map_congr_left fun t ht => map_tree_writeAll _ _ _ _ fun a ha => h a (List.mem_flatMap.2 ⟨t, ht, ha⟩)

end Write

/-! ## Postorder, owned -/

namespace Postorder

/-- Apply a function to the nodes and one to the values of a state. -/
def OwnCtxState.map (h : N → N') (g : V → V') (s : OwnCtxState N V) : OwnCtxState N' V' :=
  ⟨s.root.map h, s.stack.map (List.map h), s.path, s.ancestors.map g⟩

theorem ownCtxLoop_map [TreeNode N V] [TreeNode N' V'] {h : N → N'} {g : V → V'} (hh : NodeHom h g) (st : List (List N))
    (path : List Nat) (anc : List V) :
    ownCtxLoop (st.map (List.map h)) path (anc.map g) = (ownCtxLoop st path anc).map (OwnCtxState.map h g) := by
  fun_induction ownCtxLoop st path anc with
  | case1 n ns rest p path anc ih =>
    rw [← ih, List.map_cons, List.map_cons, ownCtxLoop, hh.val, hh.kids]
    rfl
  | case2 => rw [List.map_cons, List.map_cons, ownCtxLoop]; rfl
  | case3 => rw [List.map_cons, List.map_nil, ownCtxLoop]; rfl
  | case4 => rw [List.map_nil, ownCtxLoop]; rfl

theorem ownCtxNext_map [TreeNode N V] [TreeNode N' V'] {h : N → N'} {g : V → V'} (hh : NodeHom h g) (s : OwnCtxState N V) :
    ownCtxNext (s.map h g) = (ownCtxNext s).map fun r => (r.1.map (Ctx.map g (List.map h)), r.2.map h g) := by
  refine streamNextE_map _ _ _ ?_ fun s => ?_
  · obtain ⟨root, st, path, anc⟩ := s
    cases root with
    | some r =>
      have := ownCtxLoop_map hh (kids r :: st) (usizeMax :: path) (val r :: anc)
      rw [List.map_cons, List.map_cons] at this
      simp only [ownCtxAdvance, OwnCtxState.map, Option.map_some, hh.val, hh.kids, this]
    | none =>
      have := ownCtxLoop_map hh st path anc.tail
      simp only [ownCtxAdvance, OwnCtxState.map, Option.map_none, ← List.map_tail, List.isEmpty_map]
      split
      · rfl
      · exact this
  · simp only [ownCtxGet, OwnCtxState.map, List.isEmpty_map]
    split <;> simp [Ctx.map]

/-- All values in the state and in the nodes to come. -/
def OwnCtxState.live (s : OwnCtxState (Tree V) V) : List V :=
  s.ancestors ++ s.root.toList.flatMap Tree.preorder ++ pend s.stack

theorem ownCtxLoop_count [BEq V] (st : List (List (Tree V))) (path : List Nat) (anc : List V) (s : OwnCtxState (Tree V) V)
    (h : ownCtxLoop st path anc = .ok s) (a : V) : s.live.count a ≤ anc.count a + (pend st).count a := by
  fun_induction ownCtxLoop st path anc with
  | case1 n ns rest p path anc ih =>
    have := ih h
    simp only [pend_cons, List.flatMap_cons, List.count_append, List.count_cons, preorder_kids n] at this ⊢
    omega
  | case2 => cases h
  | case3 => cases h; simp [OwnCtxState.live, pend_cons]
  | case4 => cases h; simp [OwnCtxState.live]

theorem ownCtxAdvance_count [BEq V] [LawfulBEq V] (s s' : OwnCtxState (Tree V) V) (a : V)
    (ha : ownCtxAdvance s = .ok s') :
    s'.live.count a ≤ s.live.count a := by
  obtain ⟨root, st, path, anc⟩ := s
  cases root with
  | some r =>
    have := ownCtxLoop_count _ _ _ _ ha a
    simp only [OwnCtxState.live, Option.toList_some, List.flatMap_cons, List.flatMap_nil, List.count_append, List.count_cons,
      List.count_nil, pend_cons, preorder_kids r] at this ⊢
    omega
  | none =>
    have h1 := count_tail_le a anc
    simp only [ownCtxAdvance] at ha
    split at ha
    · cases ha
      simp only [OwnCtxState.live, List.count_append]
      omega
    · have := ownCtxLoop_count _ _ _ _ ha a
      simp only [OwnCtxState.live, Option.toList_none, List.flatMap_nil, List.count_append, List.count_nil] at this ⊢
      omega

theorem ownCtxAdvance_live [BEq V] [LawfulBEq V] (s s' : OwnCtxState (Tree V) V) (h : s.live.Nodup)
    (ha : ownCtxAdvance s = .ok s') :
    s'.live.Nodup :=
  nodup_of_count_le (fun a => ownCtxAdvance_count s s' a ha) h

theorem ownCtxEdit_map {A : Type u} [DecidableEq A] (s : OwnCtxState (Tree A) A) (h : s.live.Nodup) (g : A → V) (ys : List V) :
    (s.map (Tree.map g) g).edit ys =
      s.map (Tree.map (writeAll g s.ancestors.reverse ys)) (writeAll g s.ancestors.reverse ys) := by
  simp only [OwnCtxState.live, List.append_assoc] at h
  obtain ⟨h1, -, h3⟩ := List.nodup_append.1 h
  simp only [OwnCtxState.map, OwnCtxState.edit, map_writeAll_reverse _ _ _ h1]
  rw [← map_pend_writeAll _ _ _ _ fun a ha hi => h3 a (List.mem_reverse.1 hi) a (by simp [ha]) rfl,
    ← map_root_writeAll _ _ _ _ fun a ha hi => h3 a (List.mem_reverse.1 hi) a (by rw [List.mem_append]; exact .inl ha) rfl]

theorem ownCtxGet_ancestors (s : OwnCtxState N V) (c : Ctx V (List N)) (h : ownCtxGet s = some c) :
    c.ancestors = s.ancestors.reverse := by
  simp only [ownCtxGet] at h
  split at h
  · cases h
  · obtain rfl := Option.some.inj h
    rfl

/-- Apply a function to the nodes and one to the values of a state. -/
def OwnBinCtxState.map (h : N → N') (g : V → V') (s : OwnBinCtxState N V) : OwnBinCtxState N' V' :=
  ⟨s.root.map h, s.stack.map (List.map (Option.map h)), s.path, s.ancestors.map g⟩

theorem ownBinCtxLoop_map [BinNode N V] [BinNode N' V'] {h : N → N'} {g : V → V'} (hh : BinNodeHom h g)
    (st : List (List (Option N))) (path : List Nat) (anc : List V) :
    ownBinCtxLoop (st.map (List.map (Option.map h))) path (anc.map g) =
      (ownBinCtxLoop st path anc).map (OwnBinCtxState.map h g) := by
  fun_induction ownBinCtxLoop st path anc with
  | case1 n ns rest p path anc ih =>
    rw [← ih, List.map_cons, List.map_cons, Option.map_some, ownBinCtxLoop, hh.val, slots_hom hh]
    rfl
  | case2 ss rest p path anc ih =>
    rw [← ih, List.map_cons, List.map_cons, Option.map_none, ownBinCtxLoop]
    rfl
  | case3 head tail rest anc =>
    rw [List.map_cons, List.map_cons, ownBinCtxLoop]; rfl
  | case4 => rw [List.map_cons, List.map_nil, ownBinCtxLoop]; rfl
  | case5 => rw [List.map_nil, ownBinCtxLoop]; rfl

theorem ownBinCtxNext_map [BinNode N V] [BinNode N' V'] {h : N → N'} {g : V → V'} (hh : BinNodeHom h g)
    (s : OwnBinCtxState N V) :
    ownBinCtxNext (s.map h g) =
      (ownBinCtxNext s).map fun r => (r.1.map (Ctx.map g (Prod.map (Option.map h) (Option.map h))), r.2.map h g) := by
  refine streamNextE_map _ _ _ ?_ fun s => ?_
  · obtain ⟨root, st, path, anc⟩ := s
    cases root with
    | some r =>
      have := ownBinCtxLoop_map hh (slots r :: st) (usizeMax :: path) (val2 r :: anc)
      rw [List.map_cons, List.map_cons] at this
      simp only [ownBinCtxAdvance, OwnBinCtxState.map, Option.map_some, hh.val, slots_hom hh, this]
    | none =>
      have := ownBinCtxLoop_map hh st path anc.tail
      simp only [ownBinCtxAdvance, OwnBinCtxState.map, Option.map_none, ← List.map_tail, List.isEmpty_map]
      split
      · rfl
      · exact this
  · simp only [ownBinCtxGet, OwnBinCtxState.map, List.isEmpty_map]
    split <;> simp [Ctx.map]

/-- All values in the state and in the nodes to come. -/
def OwnBinCtxState.live (s : OwnBinCtxState (BinTree V) V) : List V := s.ancestors ++ slotVals s.root ++ pend2 s.stack

theorem ownBinCtxLoop_count [BEq V] (st : List (List (Option (BinTree V)))) (path : List Nat) (anc : List V)
    (s : OwnBinCtxState (BinTree V) V) (h : ownBinCtxLoop st path anc = .ok s) (a : V) :
    s.live.count a ≤ anc.count a + (pend2 st).count a := by
  fun_induction ownBinCtxLoop st path anc with
  | case1 n ns rest p path anc ih =>
    have := ih h
    simp only [pend2_cons, List.flatMap_cons, List.count_append, List.count_cons, slotVals_some n, slots_count n] at this ⊢
    omega
  | case2 ss rest p path anc ih =>
    have := ih h
    simpa only [pend2_cons, List.flatMap_cons, slotVals_none, List.nil_append] using this
  | case3 => cases h
  | case4 => cases h; simp [OwnBinCtxState.live, pend2_cons, slotVals_none]
  | case5 => cases h; simp [OwnBinCtxState.live, slotVals_none]

theorem ownBinCtxAdvance_count [BEq V] [LawfulBEq V] (s s' : OwnBinCtxState (BinTree V) V) (a : V)
    (ha : ownBinCtxAdvance s = .ok s') :
    s'.live.count a ≤ s.live.count a := by
  obtain ⟨root, st, path, anc⟩ := s
  cases root with
  | some r =>
    have := ownBinCtxLoop_count _ _ _ _ ha a
    simp only [OwnBinCtxState.live, List.count_append, List.count_cons, pend2_cons, slotVals_some r, slots_count r] at this ⊢
    omega
  | none =>
    have h1 := count_tail_le a anc
    simp only [ownBinCtxAdvance] at ha
    split at ha
    · cases ha
      simp only [OwnBinCtxState.live, List.count_append]
      omega
    · have := ownBinCtxLoop_count _ _ _ _ ha a
      simp only [OwnBinCtxState.live, slotVals_none, List.count_append, List.count_nil] at this ⊢
      omega

theorem ownBinCtxAdvance_live [BEq V] [LawfulBEq V] (s s' : OwnBinCtxState (BinTree V) V) (h : s.live.Nodup)
    (ha : ownBinCtxAdvance s = .ok s') :
    s'.live.Nodup :=
  nodup_of_count_le (fun a => ownBinCtxAdvance_count s s' a ha) h

theorem ownBinCtxEdit_map {A : Type u} [DecidableEq A] (s : OwnBinCtxState (BinTree A) A) (h : s.live.Nodup) (g : A → V)
    (ys : List V) :
    (s.map (BinTree.map g) g).edit ys =
      s.map (BinTree.map (writeAll g s.ancestors.reverse ys)) (writeAll g s.ancestors.reverse ys) := by
  simp only [OwnBinCtxState.live, List.append_assoc] at h
  obtain ⟨h1, -, h3⟩ := List.nodup_append.1 h
  simp only [OwnBinCtxState.map, OwnBinCtxState.edit, map_writeAll_reverse _ _ _ h1]
  rw [← map_pend2_writeAll _ _ _ _ fun a ha hi => h3 a (List.mem_reverse.1 hi) a (by simp [ha]) rfl,
    ← map_slot_writeAll _ _ _ _ fun a ha hi => h3 a (List.mem_reverse.1 hi) a (by rw [List.mem_append]; exact .inl ha) rfl]

theorem ownBinCtxGet_ancestors (s : OwnBinCtxState N V) (c : Ctx V (Option N × Option N)) (h : ownBinCtxGet s = some c) :
    c.ancestors = s.ancestors.reverse := by
  simp only [ownBinCtxGet] at h
  split at h
  · cases h
  · obtain rfl := Option.some.inj h
    rfl

end Postorder

/-! ## In order, owned -/

namespace Inorder

/-- Apply a function to the nodes and one to the values of a state. -/
def OwnCtxState.map (h : N → N') (g : V → V') (s : OwnCtxState N V) : OwnCtxState N' V' :=
  ⟨s.right.map (Option.map h), s.path, s.ancestors.map g, s.status⟩

theorem ownFind_map (h : N → N') (g : V → V') (st : List Status) (anc : List V) (path : List Nat) (ri : List (Option N)) :
    ownFind st (anc.map g) path (ri.map (Option.map h)) =
      (ownFind st anc path ri).map (OwnCtxState.map h g) (fun r => (h r.1, r.2.map h g)) := by
  fun_induction ownFind st anc path ri with
  | case1 ss anc path right ih =>
    rw [ownFind, ← List.map_tail, ih]
  | case2 => rw [ownFind]; simp [OwnCtxState.map]
  | case3 => rw [List.map_nil, ownFind]; simp [OwnCtxState.map]
  | case4 => rw [List.map_cons, Option.map_some, ownFind]; simp [OwnCtxState.map]
  | case5 ss anc path right ih =>
    rw [← ih, List.map_cons, Option.map_none]
    conv => lhs; rw [ownFind]
  | case6 => rw [List.map_nil, ownFind]; simp [OwnCtxState.map]
  | case7 => rw [List.map_cons, Option.map_some, ownFind]; simp [OwnCtxState.map]
  | case8 anc path right ih => rw [List.map_cons, Option.map_none, ownFind, ih]

theorem ownDescend_map [BinNode N V] [BinNode N' V'] {h : N → N'} {g : V → V'} (hh : BinNodeHom h g) (o : Option N)
    (s : OwnCtxState N V) : ownDescend (o.map h) (s.map h g) = (ownDescend o s).map h g := by
  fun_induction ownDescend o s with
  | case1 => rw [Option.map_none, ownDescend]
  | case2 n s ih =>
    rw [← ih, Option.map_some, ownDescend, hh.left]
    congr 1
    simp [OwnCtxState.map, hh.right, hh.val]

theorem ownNext_map [BinNode N V] [BinNode N' V'] {h : N → N'} {g : V → V'} (hh : BinNodeHom h g) (s : OwnCtxState N V) :
    ownNext (s.map h g) =
      (ownNext s).map fun r => (r.1.map (Ctx.map g (Prod.map (Option.map h) (Option.map h))), r.2.map h g) := by
  refine streamNextE_map _ _ _ ?_ fun s => ?_
  · have h1 := ownFind_map h g s.status s.ancestors s.path s.right
    simp only [ownAdvance]
    simp only [OwnCtxState.map] at h1 ⊢
    rw [h1]
    rcases ownFind s.status s.ancestors s.path s.right with s' | ⟨n, s'⟩
    · rfl
    · have h2 := ownDescend_map hh (some n) s'
      simp only [Option.map_some] at h2
      simp only [Sum.map_inr, OwnCtxState.map] at h2 ⊢
      rw [h2]
      simp only
      rcases (ownDescend (some n) s').status with _ | ⟨_, ss⟩ <;> rfl
  · simp only [ownGet, OwnCtxState.map, List.isEmpty_map]
    split <;> simp [Ctx.map]

/-- All values in the state and in the nodes to come. -/
def OwnCtxState.live (s : OwnCtxState (BinTree V) V) : List V := s.ancestors ++ s.right.flatMap slotVals

theorem ownFind_count [BEq V] (st : List Status) (anc : List V) (path : List Nat) (ri : List (Option (BinTree V))) (a : V) :
    (match ownFind st anc path ri with
      | .inl s => s.live.count a
      | .inr (n, s) => (slotVals (some n) ++ s.live).count a) ≤ (anc ++ ri.flatMap slotVals).count a := by
  fun_induction ownFind st anc path ri with
  | case1 ss anc path right ih =>
    have := count_tail_le a anc
    rw [List.count_append] at ih ⊢
    omega
  | case2 => exact Nat.le_refl _
  | case3 => simp [OwnCtxState.live]
  | case4 => simp only [OwnCtxState.live, List.flatMap_cons, List.count_append]; omega
  | case5 ss anc path right ih => simpa [slotVals] using ih
  | case6 => simp [OwnCtxState.live]
  | case7 => simp only [OwnCtxState.live, List.flatMap_cons, List.count_append]; omega
  | case8 anc path right ih => simpa [slotVals] using ih

theorem ownDescend_count [BEq V] (o : Option (BinTree V)) (s : OwnCtxState (BinTree V) V) (a : V) :
    (ownDescend o s).live.count a = (slotVals o ++ s.live).count a := by
  fun_induction ownDescend o s with
  | case1 => simp [slotVals]
  | case2 n s ih =>
    rw [ih, slotVals_some]
    simp only [OwnCtxState.live, List.flatMap_cons, List.count_append, List.count_cons, List.cons_append]
    omega

theorem ownAdvance_count [BEq V] [LawfulBEq V] (s s' : OwnCtxState (BinTree V) V) (a : V)
    (ha : ownAdvance s = .ok s') :
    s'.live.count a ≤ s.live.count a := by
  have h1 := ownFind_count s.status s.ancestors s.path s.right a
  rw [ownAdvance] at ha
  generalize ownFind s.status s.ancestors s.path s.right = r at h1 ha
  rcases r with s1 | ⟨n, s1⟩
  · obtain rfl := Except.ok.inj ha
    exact h1
  · have h2 := ownDescend_count (some n) s1 a
    simp only at ha h1
    split at ha
    · cases ha
    · obtain rfl := Except.ok.inj ha
      simp only [OwnCtxState.live] at h1 h2 ⊢
      omega

theorem ownAdvance_live [BEq V] [LawfulBEq V] (s s' : OwnCtxState (BinTree V) V) (h : s.live.Nodup)
    (ha : ownAdvance s = .ok s') :
    s'.live.Nodup :=
  nodup_of_count_le (fun a => ownAdvance_count s s' a ha) h

theorem ownEdit_map {A : Type u} [DecidableEq A] (s : OwnCtxState (BinTree A) A) (h : s.live.Nodup) (g : A → V) (ys : List V) :
    (s.map (BinTree.map g) g).edit ys =
      s.map (BinTree.map (writeAll g s.ancestors.reverse ys)) (writeAll g s.ancestors.reverse ys) := by
  obtain ⟨h1, -, h3⟩ := List.nodup_append.1 h
  simp only [OwnCtxState.map, OwnCtxState.edit, map_writeAll_reverse _ _ _ h1]
  rw [← map_slots_writeAll _ _ _ _ fun a ha hi => h3 a (List.mem_reverse.1 hi) a ha rfl]

theorem ownGet_ancestors (s : OwnCtxState N V) (c : Ctx V (Option N × Option N)) (h : ownGet s = some c) :
    c.ancestors = s.ancestors.reverse := by
  simp only [ownGet] at h
  split at h
  · cases h
  · obtain rfl := Option.some.inj h
    rfl

end Inorder

/-! ## Preorder -/

namespace Preorder

/-- Apply a function to the nodes and one to the values of a state. -/
def CtxState.map (h : N → N') (g : V → V') (s : CtxState N V) : CtxState N' V' :=
  ⟨s.root.map h, s.stack.map (List.map h), s.path, s.ancestors.map g, s.children.map (List.map h)⟩

theorem ctxLoop_map (h : N → N') (g : V → V') (st : List (List N)) (path : List Nat) (anc : List V) :
    ctxLoop (st.map (List.map h)) path (anc.map g) =
      (ctxLoop st path anc).map fun r => (r.1.map h, r.2.1.map (List.map h), r.2.2.1, r.2.2.2.map g) := by
  fun_induction ctxLoop st path anc with
  | case1 => simp [ctxLoop, Except.map]
  | case2 rest path anc ih => rw [← ih, List.map_cons, List.map_nil, ctxLoop, List.map_tail]
  | case3 => simp [ctxLoop, Except.map]
  | case4 => simp [ctxLoop, Except.map]

theorem ctxNext_map [SplitNode N V] [SplitNode N' V'] {h : N → N'} {g : V → V'} (hh : NodeHom h g) (s : CtxState N V) :
    ctxNext (s.map h g) = (ctxNext s).map fun r => (r.1.map (Ctx.map g (List.map h)), r.2.map h g) := by
  have hf : ∀ r : Option N × List (List N) × List Nat × List V,
      ctxFinish (r.1.map h, r.2.1.map (List.map h), r.2.2.1, r.2.2.2.map g) = (ctxFinish r).map h g := by
    rintro ⟨_ | n, st, path, anc⟩ <;> simp [ctxFinish, CtxState.map, hh.val, hh.kids]
  refine streamNextE_map _ _ _ ?_ fun s => ?_
  · obtain ⟨root, st, path, anc, ch⟩ := s
    cases root with
    | some r => simp [ctxAdvance, CtxState.map, hh.val, hh.kids, Except.map]
    | none =>
      simp only [ctxAdvance, CtxState.map, Option.map_none, List.isEmpty_map]
      split
      · rfl
      · cases ch with
        | some cs =>
          have := ctxLoop_map h g (cs :: st) (usizeMax :: path) anc
          simp only [List.map_cons] at this
          simp only [Option.map_some, this]
          rcases ctxLoop (cs :: st) (usizeMax :: path) anc with e | r
          · rfl
          · simp only [Except.map, hf]
        | none =>
          have key : ∀ p, (match ctxLoop (st.map (List.map h)) p (anc.map g).tail with
              | .error e => .error e
              | .ok r => .ok (ctxFinish r)) =
              Except.map (CtxState.map h g) (match ctxLoop st p anc.tail with
              | .error e => .error e
              | .ok r => .ok (ctxFinish r)) := by
            intro p
            rw [← List.map_tail, ctxLoop_map]
            rcases ctxLoop st p anc.tail with e | r
            · rfl
            · simp only [Except.map, hf]
          exact key _
  · simp only [ctxGet, CtxState.map, List.isEmpty_map]
    split <;> simp [Ctx.map]

/-- All values in the state and in the nodes to come. -/
def CtxState.live (s : CtxState (Tree V) V) : List V :=
  s.ancestors ++ s.root.toList.flatMap Tree.preorder ++ pend s.stack ++ pend s.children.toList

theorem ctxLoop_count [BEq V] (st : List (List (Tree V))) (path : List Nat) (anc : List V)
    (r : Option (Tree V) × List (List (Tree V)) × List Nat × List V) (h : ctxLoop st path anc = .ok r) (a : V) :
    (r.1.toList.flatMap Tree.preorder).count a + (pend r.2.1).count a + r.2.2.2.count a ≤ anc.count a + (pend st).count a := by
  fun_induction ctxLoop st path anc with
  | case1 => cases h; simp; omega
  | case2 rest path anc ih =>
    have := ih h
    have := count_tail_le a anc
    simp only [pend_cons, List.flatMap_nil, List.nil_append]
    omega
  | case3 => cases h; simp only [pend_cons, List.flatMap_cons, Option.toList_some, List.flatMap_nil, List.count_append, List.count_nil]; omega
  | case4 => cases h

theorem ctxFinish_count [BEq V] (r : Option (Tree V) × List (List (Tree V)) × List Nat × List V) (a : V) :
    (ctxFinish r).live.count a ≤
      (r.1.toList.flatMap Tree.preorder).count a + (pend r.2.1).count a + r.2.2.2.count a := by
  obtain ⟨_ | n, st, path, anc⟩ := r
  · simp [ctxFinish, CtxState.live, pend]
  · simp only [ctxFinish, CtxState.live, Option.toList_some, Option.toList_none, List.flatMap_cons, List.flatMap_nil,
      List.count_append, List.count_cons, List.count_nil, pend_cons, preorder_kids n]
    simp only [pend, List.flatMap_nil, List.count_nil]
    omega

theorem ctxAdvance_count [BEq V] [LawfulBEq V] (s s' : CtxState (Tree V) V) (a : V)
    (ha : ctxAdvance s = .ok s') :
    s'.live.count a ≤ s.live.count a := by
  obtain ⟨root, st, path, anc, ch⟩ := s
  cases root with
  | some r =>
    cases ha
    simp only [CtxState.live, Option.toList_some, Option.toList_none, List.flatMap_cons, List.flatMap_nil,
      List.count_append, List.count_cons, List.count_nil, pend_cons, preorder_kids r]
    simp only [pend, List.flatMap_nil, List.count_nil]
    omega
  | none =>
    simp only [ctxAdvance] at ha
    split at ha
    · cases ha
      exact Nat.le_refl _
    · cases ch with
      | some cs =>
        simp only at ha
        split at ha
        · cases ha
        · rename_i r hr
          cases ha
          have h1 := ctxLoop_count _ _ _ _ hr a
          have h2 := ctxFinish_count r a
          simp only [CtxState.live, Option.toList_some, Option.toList_none, List.flatMap_nil, List.count_append, List.count_nil,
            pend_cons] at h1 h2 ⊢
          simp only [pend, List.flatMap_nil, List.count_nil] at h1 h2 ⊢
          omega
      | none =>
        simp only at ha
        split at ha
        · cases ha
        · rename_i r hr
          cases ha
          have h1 := ctxLoop_count _ _ _ _ hr a
          have h2 := ctxFinish_count r a
          have h3 := count_tail_le a anc
          simp only [CtxState.live, Option.toList_none, List.flatMap_nil, List.count_append, List.count_nil] at h1 h2 ⊢
          omega

theorem ctxAdvance_live [BEq V] [LawfulBEq V] (s s' : CtxState (Tree V) V) (h : s.live.Nodup)
    (ha : ctxAdvance s = .ok s') :
    s'.live.Nodup :=
  nodup_of_count_le (fun a => ctxAdvance_count s s' a ha) h

theorem ctxEdit_map {A : Type u} [DecidableEq A] (s : CtxState (Tree A) A) (h : s.live.Nodup) (g : A → V) (ys : List V) :
    (s.map (Tree.map g) g).edit ys =
      s.map (Tree.map (writeAll g s.ancestors.reverse ys)) (writeAll g s.ancestors.reverse ys) := by
  simp only [CtxState.live, List.append_assoc] at h
  obtain ⟨h1, -, h3⟩ := List.nodup_append.1 h
  simp only [CtxState.map, CtxState.edit, map_writeAll_reverse _ _ _ h1]
  have hc : s.children.map (List.map (Tree.map g)) =
      s.children.map (List.map (Tree.map (writeAll g s.ancestors.reverse ys))) := by
    cases hs : s.children with
    | none => rfl
    | some cs =>
      refine congrArg some (map_trees_writeAll _ _ _ _ fun a ha hi => h3 a (List.mem_reverse.1 hi) a ?_ rfl)
      simp only [hs, List.mem_append]
      exact .inr (.inr (by simpa [pend] using ha))
  rw [← map_pend_writeAll _ _ _ _ fun a ha hi => h3 a (List.mem_reverse.1 hi) a (by simp [ha]) rfl,
    ← map_root_writeAll _ _ _ _ fun a ha hi => h3 a (List.mem_reverse.1 hi) a (by rw [List.mem_append]; exact .inl ha) rfl, ← hc]

theorem ctxGet_ancestors (s : CtxState N V) (c : Ctx V (List N)) (h : ctxGet s = some c) :
    c.ancestors = s.ancestors.reverse := by
  simp only [ctxGet] at h
  split at h
  · cases h
  · obtain rfl := Option.some.inj h
    rfl

/-- Apply a function to the nodes and one to the values of a state. -/
def BinCtxState.map (h : N → N') (g : V → V') (s : BinCtxState N V) : BinCtxState N' V' :=
  ⟨s.root.map h, s.stack.map (List.map (Option.map h)), s.path, s.ancestors.map g,
    s.children.map (Prod.map (Option.map h) (Option.map h))⟩

theorem binCtxLoop_map (h : N → N') (g : V → V') (st : List (List (Option N))) (path : List Nat) (anc : List V) :
    binCtxLoop (st.map (List.map (Option.map h))) path (anc.map g) =
      (binCtxLoop st path anc).map fun r =>
        (r.1.map h, r.2.1.map (List.map (Option.map h)), r.2.2.1, r.2.2.2.map g) := by
  fun_induction binCtxLoop st path anc with
  | case1 => simp [binCtxLoop, Except.map]
  | case2 rest path anc ih => rw [← ih, List.map_cons, List.map_nil, binCtxLoop, List.map_tail]
  | case3 => simp [binCtxLoop, Except.map]
  | case4 ss rest p path anc ih =>
    rw [← ih, List.map_cons, List.map_cons, Option.map_none, binCtxLoop]
    rfl
  | case5 => simp [binCtxLoop, Except.map]

theorem binCtxNext_map [SplitNode2 N V] [SplitNode2 N' V'] {h : N → N'} {g : V → V'} (hh : BinNodeHom h g)
    (s : BinCtxState N V) :
    binCtxNext (s.map h g) =
      (binCtxNext s).map fun r => (r.1.map (Ctx.map g (Prod.map (Option.map h) (Option.map h))), r.2.map h g) := by
  have hs : ∀ n : N, (split2 (h n)).2 = Prod.map (Option.map h) (Option.map h) (split2 (V := V) n).2 := fun n =>
    Prod.ext (hh.left n) (hh.right n)
  have hf : ∀ r : Option N × List (List (Option N)) × List Nat × List V,
      binCtxFinish (r.1.map h, r.2.1.map (List.map (Option.map h)), r.2.2.1, r.2.2.2.map g) = (binCtxFinish r).map h g := by
    rintro ⟨_ | n, st, path, anc⟩ <;> simp [binCtxFinish, BinCtxState.map, hh.val, hs]
  refine streamNextE_map _ _ _ ?_ fun s => ?_
  · obtain ⟨root, st, path, anc, ch⟩ := s
    cases root with
    | some r => simp [binCtxAdvance, BinCtxState.map, hh.val, hs, Except.map]
    | none =>
      simp only [binCtxAdvance, BinCtxState.map, Option.map_none, List.isEmpty_map]
      split
      · rfl
      · cases ch with
        | some cs =>
          have := binCtxLoop_map h g ([cs.1, cs.2] :: st) (usizeMax :: path) anc
          simp only [List.map_cons, List.map_nil] at this
          simp only [Option.map_some, Prod.map_fst, Prod.map_snd, this]
          rcases binCtxLoop ([cs.1, cs.2] :: st) (usizeMax :: path) anc with e | r
          · rfl
          · simp only [Except.map, hf]
        | none =>
          have key : ∀ p, (match binCtxLoop (st.map (List.map (Option.map h))) p (anc.map g).tail with
              | .error e => .error e
              | .ok r => .ok (binCtxFinish r)) =
              Except.map (BinCtxState.map h g) (match binCtxLoop st p anc.tail with
              | .error e => .error e
              | .ok r => .ok (binCtxFinish r)) := by
            intro p
            rw [← List.map_tail, binCtxLoop_map]
            rcases binCtxLoop st p anc.tail with e | r
            · rfl
            · simp only [Except.map, hf]
          exact key _
  · simp only [binCtxGet, BinCtxState.map, List.isEmpty_map]
    split <;> simp [Ctx.map]

/-- The values in the two slots of a context. -/
def pairVals (o : Option (Option (BinTree V) × Option (BinTree V))) : List V :=
  o.toList.flatMap fun c => slotVals c.1 ++ slotVals c.2

/-- All values in the state and in the nodes to come. -/
def BinCtxState.live (s : BinCtxState (BinTree V) V) : List V :=
  s.ancestors ++ slotVals s.root ++ pend2 s.stack ++ pairVals s.children

theorem binCtxLoop_count [BEq V] (st : List (List (Option (BinTree V)))) (path : List Nat) (anc : List V)
    (r : Option (BinTree V) × List (List (Option (BinTree V))) × List Nat × List V) (h : binCtxLoop st path anc = .ok r)
    (a : V) : (slotVals r.1).count a + (pend2 r.2.1).count a + r.2.2.2.count a ≤ anc.count a + (pend2 st).count a := by
  fun_induction binCtxLoop st path anc with
  | case1 => cases h; simp [slotVals_none]; omega
  | case2 rest path anc ih =>
    have := ih h
    have := count_tail_le a anc
    simp only [pend2_cons, List.flatMap_nil, List.nil_append]
    omega
  | case3 => cases h; simp only [pend2_cons, List.flatMap_cons, List.count_append]; omega
  | case4 ss rest p path anc ih =>
    have := ih h
    simpa only [pend2_cons, List.flatMap_cons, slotVals_none, List.nil_append] using this
  | case5 => cases h

theorem binCtxFinish_count [BEq V] (r : Option (BinTree V) × List (List (Option (BinTree V))) × List Nat × List V) (a : V) :
    (binCtxFinish r).live.count a ≤ (slotVals r.1).count a + (pend2 r.2.1).count a + r.2.2.2.count a := by
  obtain ⟨_ | n, st, path, anc⟩ := r
  · simp [binCtxFinish, BinCtxState.live, pairVals, slotVals_none]
  · simp only [binCtxFinish, BinCtxState.live, pairVals, Option.toList_some, List.flatMap_cons, List.flatMap_nil,
      List.count_append, List.count_cons, List.count_nil, slotVals_some n, slotVals_none]
    omega

theorem binCtxAdvance_count [BEq V] [LawfulBEq V] (s s' : BinCtxState (BinTree V) V) (a : V)
    (ha : binCtxAdvance s = .ok s') :
    s'.live.count a ≤ s.live.count a := by
  obtain ⟨root, st, path, anc, ch⟩ := s
  cases root with
  | some r =>
    cases ha
    simp only [BinCtxState.live, pairVals, Option.toList_some, List.flatMap_cons, List.flatMap_nil,
      List.count_append, List.count_cons, List.count_nil, slotVals_some r, slotVals_none]
    omega
  | none =>
    simp only [binCtxAdvance] at ha
    split at ha
    · cases ha
      exact Nat.le_refl _
    · cases ch with
      | some cs =>
        simp only at ha
        split at ha
        · cases ha
        · rename_i r hr
          cases ha
          have h1 := binCtxLoop_count _ _ _ _ hr a
          have h2 := binCtxFinish_count r a
          simp only [BinCtxState.live, pairVals, Option.toList_some, List.flatMap_cons, List.flatMap_nil, List.count_append,
            List.count_nil, pend2_cons, slotVals_none] at h1 h2 ⊢
          omega
      | none =>
        simp only at ha
        split at ha
        · cases ha
        · rename_i r hr
          cases ha
          have h1 := binCtxLoop_count _ _ _ _ hr a
          have h2 := binCtxFinish_count r a
          have h3 := count_tail_le a anc
          simp only [BinCtxState.live, slotVals_none, List.count_append, List.count_nil] at h1 h2 ⊢
          omega

theorem binCtxAdvance_live [BEq V] [LawfulBEq V] (s s' : BinCtxState (BinTree V) V) (h : s.live.Nodup)
    (ha : binCtxAdvance s = .ok s') :
    s'.live.Nodup :=
  nodup_of_count_le (fun a => binCtxAdvance_count s s' a ha) h

theorem map_pair_writeAll {A : Type u} [DecidableEq A] (g : A → V) (as : List A) (ys : List V)
    (o : Option (Option (BinTree A) × Option (BinTree A))) (h : ∀ a ∈ pairVals o, a ∉ as) :
    o.map (Prod.map (Option.map (BinTree.map g)) (Option.map (BinTree.map g))) =
      o.map (Prod.map (Option.map (BinTree.map (writeAll g as ys))) (Option.map (BinTree.map (writeAll g as ys)))) := by
  cases o with
  | none => rfl
  | some c =>
    refine congrArg some (Prod.ext ?_ ?_)
    · exact map_slot_writeAll _ _ _ _ fun a ha => h a (by simp [pairVals, ha])
    · exact map_slot_writeAll _ _ _ _ fun a ha => h a (by simp [pairVals, ha])

theorem binCtxEdit_map {A : Type u} [DecidableEq A] (s : BinCtxState (BinTree A) A) (h : s.live.Nodup) (g : A → V) (ys : List V) :
    (s.map (BinTree.map g) g).edit ys =
      s.map (BinTree.map (writeAll g s.ancestors.reverse ys)) (writeAll g s.ancestors.reverse ys) := by
  simp only [BinCtxState.live, List.append_assoc] at h
  obtain ⟨h1, -, h3⟩ := List.nodup_append.1 h
  simp only [BinCtxState.map, BinCtxState.edit, map_writeAll_reverse _ _ _ h1]
  rw [← map_pend2_writeAll _ _ _ _ fun a ha hi => h3 a (List.mem_reverse.1 hi) a (by simp [ha]) rfl,
    ← map_slot_writeAll _ _ _ _ fun a ha hi => h3 a (List.mem_reverse.1 hi) a (by rw [List.mem_append]; exact .inl ha) rfl,
    ← map_pair_writeAll _ _ _ _ fun a ha hi => h3 a (List.mem_reverse.1 hi) a (by simp [ha]) rfl]

theorem binCtxGet_ancestors (s : BinCtxState N V) (c : Ctx V (Option N × Option N)) (h : binCtxGet s = some c) :
    c.ancestors = s.ancestors.reverse := by
  simp only [binCtxGet] at h
  split at h
  · cases h
  · obtain rfl := Option.some.inj h
    rfl

end Preorder

end TreeIter
