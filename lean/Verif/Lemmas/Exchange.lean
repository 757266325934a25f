import Verif.Lemmas.ExchangeBfs
import Verif.Model.Exchange
import Verif.Lemmas.PollLeaves

/-! # Accounting for the references in a traversal -/

universe u v w

namespace TreeIter

/-- A list `all` of the references in a state such that no step makes a reference appear more often than before, the
references in the item shown are among them, and exchanging an item accounts for the references in it; `Inv` is what that
may depend on. -/
structure Lending.Accounts {S : Type u} {O : Type v} {V : Type w} [DecidableEq V] (it : Lending S O V) (all : S → List V)
    (Inv : S → Prop) : Prop where
  next : ∀ s o s', Inv s → it.next s = .ok (o, s') → (∀ a, (all s').count a ≤ (all s).count a) ∧ Inv s'
  get : ∀ s o, it.get s = some o → ∀ a, (it.refs o).count a ≤ (all s).count a
  put : ∀ s o o', Inv s → it.get s = some o →
    (∀ a, (all (it.put s o')).count a + (it.refs o).count a ≤ (all s).count a + (it.refs o').count a) ∧ Inv (it.put s o')

/-- Then no reference appears more often in state and pocket together than at the start. -/
theorem Lending.Accounts.reach_count {S : Type u} {O : Type v} {V : Type w} [DecidableEq V] {it : Lending S O V}
    {all : S → List V} {Inv : S → Prop} (ha : it.Accounts all Inv) {s₀ : S} {p₀ : List V} (h0 : Inv s₀) {s : S} {p : List V}
    (hr : it.Reach s₀ p₀ s p) : (∀ a, (p ++ all s).count a ≤ (p₀ ++ all s₀).count a) ∧ Inv s := by
  induction hr with
  | start => exact ⟨fun _ => Nat.le_refl _, h0⟩
  | next _ h1 ih =>
    rename_i s s' p o _
    obtain ⟨h2, h3⟩ := ha.next s o s' ih.2 h1
    refine ⟨fun a => ?_, h3⟩
    have h4 := ih.1 a
    have h5 := h2 a
    rw [List.count_append] at h4 ⊢
    omega
  | exchange _ h1 h2 ih =>
    rename_i s p p' dropped o o' _
    obtain ⟨h3, h4⟩ := ha.put s o o' ih.2 h1
    refine ⟨fun a => ?_, h4⟩
    have h5 := ih.1 a
    have h6 := h3 a
    have h7 := h2.count_eq a
    simp only [List.count_append] at h5 h7 ⊢
    omega

/-- Then no reference is held twice. -/
theorem Lending.Accounts.exclusive {S : Type u} {O : Type v} {V : Type w} [DecidableEq V] {it : Lending S O V}
    {all : S → List V} {Inv : S → Prop} (ha : it.Accounts all Inv) {s₀ : S} {p₀ : List V} (h0 : Inv s₀)
    (h : (p₀ ++ all s₀).Nodup) : it.Exclusive s₀ p₀ := by
  intro s p hr o ho
  refine nodup_of_count_le (fun a => ?_) h
  have h1 := (ha.reach_count h0 hr).1 a
  have h2 := ha.get s o ho a
  rw [List.count_append] at h1 ⊢
  omega

/-! ## `attach_ancestors`: what a step does -/

section Anc

variable {N : Type u} {V : Type v} [DecidableEq V]

namespace Preorder

theorem lend_next [TreeNode N V] (s : AncState N V) (o : Option (List V)) (s' : AncState N V)
    (hs : lendAncestors.next s = .ok (o, s')) (a : V) : (s'.map treeOf id).live.count a ≤ (s.map treeOf id).live.count a := by
  have h1 := ancNext_map treeOf_hom s
  simp only [lendAncestors] at hs
  rw [hs] at h1
  have h2 := congrArg Prod.snd (Except.ok.inj h1)
  have h3 := ancAdvance_count (s.map treeOf id) a
  simp only [ancNext, streamNext] at h2
  rw [h2] at h3
  exact h3

end Preorder

namespace Postorder

theorem lend_next [TreeNode N V] (s : AncState N V) (o : Option (List V)) (s' : AncState N V)
    (hs : lendAncestors.next s = .ok (o, s')) (a : V) : (s'.map treeOf id).live.count a ≤ (s.map treeOf id).live.count a := by
  have h1 := ancNext_map treeOf_hom s
  simp only [lendAncestors] at hs
  rw [hs] at h1
  have h2 := congrArg Prod.snd (Except.ok.inj h1)
  have h3 := ancAdvance_count (s.map treeOf id) a
  simp only [ancNext, streamNext] at h2
  rw [h2] at h3
  exact h3

end Postorder

namespace Inorder

theorem lend_next [BinNode N V] (s : AncState N V) (o : Option (List V)) (s' : AncState N V)
    (hs : lendAncestors.next s = .ok (o, s')) (a : V) :
    (s'.map binTreeOf id).live.count a ≤ (s.map binTreeOf id).live.count a := by
  have h1 := ancAdvance_map binTreeOf_hom s
  rw [(streamNextE_ok hs).1] at h1
  exact ancAdvance_count _ _ a h1

end Inorder

namespace Bfs

mutual
theorem Cache.map_id {β : Type u} : ∀ c : Cache β, c.map id = c
  | .mk v cs => by rw [Cache.map, Cache.mapL_id cs, Option.map_id_fun, id]
theorem Cache.mapL_id {β : Type u} : ∀ cs : List (Option (Cache β)), Cache.mapL id cs = cs
  | [] => by simp [Cache.mapL]
  | c :: cs => by rw [Cache.mapL, Cache.mapO_id c, Cache.mapL_id cs]
theorem Cache.mapO_id {β : Type u} : ∀ c : Option (Cache β), Cache.mapO id c = c
  | none => by simp [Cache.mapO]
  | some c => by rw [Cache.mapO, Cache.map_id c]
end

theorem CacheState.map_id {β : Type u} (s : CacheState β) : s.map id = s := by
  obtain ⟨items, stack, cache⟩ := s
  simp only [CacheState.map, List.map_id, Cache.map_id, CacheState.mk.injEq, true_and, and_true]
  exact (List.map_congr_left fun c _ => Cache.map_id c).trans (List.map_id _)

theorem lend_next [TreeNode N V] (s : AncState N V) (o : Option (List V)) (s' : AncState N V)
    (hi : NoValue (s.map (treeOf (V := V)) id).cs) (hs : lendAncestors.next s = .ok (o, s')) :
    (∀ a, (s'.map treeOf id).allVals.count a ≤ (s.map treeOf id).allVals.count a) ∧
      NoValue (s'.map (treeOf (V := V)) id).cs := by
  have h1 := ancNext_map treeOf_hom s
  rw [show ancNext s = .ok (o, s') from hs] at h1
  have h2 := (streamNextE_ok h1).1
  obtain ⟨isRoot, cs, queue⟩ := s
  cases isRoot with
  | true =>
    rw [← Except.ok.inj h2]
    exact ⟨fun a => Nat.le_refl _, hi⟩
  | false => exact ancLoop_count _ _ _ hi h2

end Bfs

end Anc

/-! ## `attach_ancestors().leaves()` -/

section Leaves

variable {N : Type u} {V : Type v} [DecidableEq V]

/-- All references in a stack of nodes. -/
def stackRefs [TreeNode N V] (st : List (List N)) : List V := st.flatMap fun l => l.flatMap fun n => (treeOf n).preorder

omit [DecidableEq V] in
theorem stackRefs_eq [TreeNode N V] (st : List (List N)) : stackRefs st = pend (st.map (List.map (treeOf (V := V)))) := by
  simp [stackRefs, pend, List.flatMap_map]

omit [DecidableEq V] in
theorem preorder_treeOf [TreeNode N V] (n : N) :
    (treeOf n).preorder = (val n : V) :: (kids n).flatMap fun m => (treeOf (V := V) m).preorder := by
  rw [treeOf_eq, Tree.preorder_node, List.flatMap_map]

theorem stackRefs_tail [TreeNode N V] (st : List (List N)) (a : V) : (stackRefs st.tail).count a ≤ (stackRefs (V := V) st).count a := by
  cases st <;> simp [stackRefs]

namespace Leaves

/-- All references in the state and in the nodes to come. -/
def AncState.all [TreeNode N V] (s : AncState N V) : List V :=
  s.items ++ (s.root.toList.flatMap fun n => (treeOf n).preorder) ++ stackRefs s.old ++ stackRefs s.new

theorem ancLoop_count [TreeNode N V] (old new : List (List N)) (items : List V) (pushed : Bool) (a : V) :
    (ancLoop old new items pushed).all.count a ≤
      items.count a + (stackRefs (V := V) old).count a + (stackRefs (V := V) new).count a := by
  fun_induction ancLoop old new items pushed with
  | case1 old items pushed n ns new ih =>
    simp only [stackRefs, List.flatMap_cons, List.count_append, List.count_cons, preorder_treeOf n] at ih ⊢
    omega
  | case2 old items new h =>
    have := stackRefs_tail new a
    simp only [AncState.all, Option.toList_none, List.flatMap_nil, List.count_append, List.count_nil]
    omega
  | case3 items pushed new h hp n ns old ih =>
    have := stackRefs_tail new a
    simp only [stackRefs, List.flatMap_cons, List.count_append, List.count_cons, preorder_treeOf n] at this ih ⊢
    omega
  | case4 items pushed new _ _ old =>
    have := stackRefs_tail new a
    have := stackRefs_tail old a
    simp only [AncState.all, Option.toList_none, List.flatMap_nil, List.count_append, List.count_nil]
    omega
  | case5 items pushed new _ _ old _ i is hi ih =>
    have := stackRefs_tail new a
    have := stackRefs_tail old a
    have h3 := count_tail_le a items
    rw [hi] at h3
    omega

theorem ancAdvance_count [TreeNode N V] (s : AncState N V) (a : V) : (ancAdvance s).all.count a ≤ s.all.count a := by
  obtain ⟨root, items, old, new⟩ := s
  cases root with
  | some r =>
    have := ancLoop_count old (kids r :: new) (val r :: items) true a
    simp only [ancAdvance, AncState.all, stackRefs, Option.toList_some, List.flatMap_cons, List.flatMap_nil, List.append_nil,
      List.count_append, List.count_cons, preorder_treeOf r] at this ⊢
    omega
  | none =>
    have := ancLoop_count old new items.tail false a
    have := count_tail_le a items
    simp only [ancAdvance, AncState.all, Option.toList_none, List.flatMap_nil, List.count_append, List.count_nil] at *
    omega

theorem lend_exclusive [TreeNode N V] (s : AncState N V) (p : List V) (h : (p ++ s.all).Nodup) :
    lendAncestors.Exclusive s p := by
  have hg : ∀ (s : AncState N V) o, ancGet s = some o → o = s.items.reverse := by
    intro s o ho
    simp only [ancGet] at ho
    split at ho
    · cases ho
    · exact (Option.some.inj ho).symm
  refine Lending.Accounts.exclusive (all := AncState.all) (Inv := fun _ => True) ⟨?_, ?_, ?_⟩ trivial h
  · intro s o s' _ hs
    refine ⟨fun a => ?_, trivial⟩
    rw [← (Prod.mk.inj (Except.ok.inj hs)).2]
    exact ancAdvance_count s a
  · intro s o ho a
    rw [hg s o ho]
    simp [lendAncestors, AncState.all]
  · intro s o o' _ ho
    refine ⟨fun a => ?_, trivial⟩
    rw [hg s o ho]
    simp only [lendAncestors, AncState.all, List.count_append, List.count_reverse, id]
    omega

end Leaves

namespace Bfs

theorem stackRefs_snoc [TreeNode N V] (q : List (List N)) (l : List N) (a : V) :
    (stackRefs (V := V) (q ++ [l])).count a = (stackRefs (V := V) q).count a + (stackRefs (V := V) [l]).count a := by
  simp [stackRefs]

theorem lvLoop_count [TreeNode N V] (isRoot : Bool) (queue : List (List N)) (cs : CacheState V) (s : AncState N V)
    (hn : NoValue cs) (h : lvLoop isRoot queue cs = .ok s) :
    (∀ a, (s.cs.live ++ stackRefs s.queue).count a ≤ (cs.live ++ stackRefs queue).count a) ∧ NoValue s.cs := by
  fun_induction lvLoop isRoot queue cs with
  | case1 isRoot cs =>
    obtain rfl := Except.ok.inj h
    refine ⟨fun a => ?_, hn⟩
    simp [CacheState.live, CacheState.kept]
  | case2 => cases h
  | case3 isRoot cs q cs1 h1 n ns hk =>
    obtain rfl := Except.ok.inj h
    refine ⟨fun a => ?_, (settle_noValue _ _ hn h1 :)⟩
    have h2 := (settle_live _ _ h1).count_eq a
    simp only [CacheState.live, CacheState.kept, stackRefs, List.flatMap_cons, List.flatMap_nil, List.flatMap_append, List.append_nil,
      List.cons_append, List.count_append, List.count_cons, preorder_treeOf n] at h2 ⊢
    omega
  | case4 isRoot cs q cs1 h1 n ns hk ih =>
    obtain ⟨h3, h4⟩ := ih (settle_noValue _ _ hn h1 :) h
    refine ⟨fun a => ?_, h4⟩
    have h2 := (settle_live _ _ h1).count_eq a
    have h5 := h3 a
    simp only [CacheState.live, CacheState.kept, stackRefs, List.flatMap_cons, List.flatMap_nil, List.flatMap_append, List.append_nil,
      List.cons_append, List.count_append, List.count_cons, preorder_treeOf n] at h2 h5 ⊢
    omega
  | case5 cs q cs1 h1 =>
    obtain rfl := Except.ok.inj h
    refine ⟨fun a => ?_, settle_noValue _ _ hn h1⟩
    have h2 := (settle_live _ _ h1).count_eq a
    simp only [List.count_append]
    omega
  | case6 => cases h
  | case7 isRoot cs q cs1 h1 hr cs2 h2 ih =>
    obtain ⟨h3, h4⟩ := retire_count _ _ (settle_noValue _ _ hn h1) h2
    obtain ⟨h5, h6⟩ := ih h4 h
    refine ⟨fun a => ?_, h6⟩
    have h7 := (settle_live _ _ h1).count_eq a
    have h8 := h3 a
    have h9 := h5 a
    simp only [stackRefs, List.flatMap_cons, List.flatMap_nil, List.nil_append, List.count_append] at h9 ⊢
    omega

theorem lv_exclusive [TreeNode N V] (s : AncState N V) (p : List V) (hn : NoValue s.cs)
    (h : (p ++ (s.cs.live ++ stackRefs s.queue)).Nodup) : lendLeaves.Exclusive s p := by
  refine Lending.Accounts.exclusive (all := fun s => s.cs.live ++ stackRefs s.queue) (Inv := fun s => NoValue s.cs) ⟨?_, ?_, ?_⟩ hn h
  · intro s o s' hi hs
    exact lvLoop_count _ _ _ _ hi (streamNextE_ok hs).1
  · intro s o ho a
    rw [ancGet_items s o ho]
    simp [lendLeaves, CacheState.live]
  · intro s o o' hi ho
    refine ⟨fun a => ?_, hi⟩
    rw [ancGet_items s o ho]
    simp only [lendLeaves, CacheState.live, CacheState.kept, List.count_append, List.count_reverse, id]
    omega

end Bfs

end Leaves

end TreeIter
