import Verif.Lemmas.Leaves
import Verif.Lemmas.Preorder
import Verif.Lemmas.Postorder
import Verif.Lemmas.Inorder
import Verif.Lemmas.Positions

/-!
# `leaves()` in the middle of a depth-first traversal

Nodes are decorated with their paths; `Reach` describes the nodes entered and pending so far.
-/

universe u v w

namespace TreeIter

namespace Leaves

variable {N : Type u} {V : Type v}

section Reach
variable {M : Type u} {W : Type v} [TreeNode M W] (pth : M → List Nat)

/-- Paths of children extend the path of the node by distinct indexes. -/
def PathsOk : Prop :=
  ∀ n : M, ∃ is : List Nat, is.Nodup ∧ (kids n).map pth = is.map fun i => pth n ++ [i]

/-- `Reach root E L`: after entering the nodes with the paths `E`, the nodes `L` are pending, the next one first. -/
inductive Reach (root : M) : List (List Nat) → List M → Prop where
  | start : Reach root [] [root]
  | enter {E : List (List Nat)} {n : M} {L : List M} (h : Reach root E (n :: L)) :
    Reach root (pth n :: E) (kids n ++ L)

variable {pth}

theorem kid_path (hp : PathsOk pth) {n c : M} (hc : c ∈ kids n) : ∃ i, pth c = pth n ++ [i] := by
  obtain ⟨is, _, h⟩ := hp n
  have : pth c ∈ (kids n).map pth := List.mem_map_of_mem hc
  rw [h] at this
  obtain ⟨i, _, hi⟩ := List.mem_map.1 this
  exact ⟨i, hi.symm⟩

/-- Neither path is an initial segment of the other. -/
def Apart (a b : List Nat) : Prop := ¬ a <+: b ∧ ¬ b <+: a

theorem apart_snoc {a : List Nat} {i j : Nat} (h : i ≠ j) : Apart (a ++ [i]) (a ++ [j]) := by
  constructor
  · intro h'
    have := List.IsPrefix.eq_of_length h' (by simp)
    simp at this
    exact h this
  · intro h'
    have := List.IsPrefix.eq_of_length h' (by simp)
    simp at this
    exact h this.symm

theorem apart_of_apart {a b : List Nat} {i : Nat} (h : Apart a b) : Apart (a ++ [i]) b := by
  obtain ⟨h1, h2⟩ := h
  refine ⟨fun h => h1 ((List.prefix_append a [i]).trans h), fun h => ?_⟩
  rcases List.prefix_concat_iff.1 h with h | h
  · subst h
    exact h1 (List.prefix_append a [i])
  · exact h2 h

theorem kids_apart (hp : PathsOk pth) (n : M) : ((kids n).map pth).Pairwise Apart := by
  obtain ⟨is, h1, h2⟩ := hp n
  rw [h2, List.pairwise_map]
  exact h1.imp fun h => apart_snoc h

/-- The pending nodes are in different places. -/
theorem Reach.apart (hp : PathsOk pth) {root : M} {E : List (List Nat)} {L : List M} (h : Reach pth root E L) :
    (L.map pth).Pairwise Apart := by
  induction h with
  | start => simp
  | @enter E n L h ih =>
    rw [List.map_append, List.pairwise_append]
    rw [List.map_cons, List.pairwise_cons] at ih
    refine ⟨kids_apart hp n, ih.2, ?_⟩
    intro a ha b hb
    obtain ⟨c, hc, rfl⟩ := List.mem_map.1 ha
    obtain ⟨i, hi⟩ := kid_path hp hc
    rw [hi]
    exact apart_of_apart (ih.1 b hb)

/-- The nodes above a pending node have been entered; initial segments of entered paths have been entered. -/
theorem Reach.closed (hp : PathsOk pth) {root : M} {E : List (List Nat)} {L : List M} (h : Reach pth root E L)
    (hr : pth root = []) :
    (∀ m ∈ L, ∀ q, q <+: pth m → q = pth m ∨ q ∈ E) ∧ ∀ e ∈ E, ∀ q, q <+: e → q ∈ E := by
  induction h with
  | start =>
    refine ⟨?_, by simp⟩
    intro m hm q hq
    obtain rfl : m = root := by simpa using hm
    rw [hr] at hq ⊢
    exact .inl (List.prefix_nil.1 hq)
  | @enter E n L h ih =>
    obtain ⟨i1, i2⟩ := ih
    have hn : ∀ q, q <+: pth n → q ∈ pth n :: E := fun q hq => by
      rcases i1 n (by simp) q hq with h | h <;> simp [h]
    refine ⟨?_, ?_⟩
    · intro m hm q hq
      rcases List.mem_append.1 hm with hm | hm
      · obtain ⟨i, hi⟩ := kid_path hp hm
        rw [hi] at hq ⊢
        rcases List.prefix_concat_iff.1 hq with h | h
        · exact .inl h
        · exact .inr (hn q h)
      · rcases i1 m (by simp [hm]) q hq with h | h
        · exact .inl h
        · exact .inr (by simp [h])
    · intro e he q hq
      rcases List.mem_cons.1 he with rfl | he
      · exact hn q hq
      · simp [i2 e he q hq]

variable {X : Type v} {M : Type u} [TreeNode M (List Nat × X)] {pth : M → List Nat}

/-- What the leaves iterator makes of pending nodes. -/
def bot (L : List M) : List (List Nat × X) := L.flatMap fun n => if kids n = [] then [] else (treeOf n).leaves

theorem bot_append (a b : List M) : bot (a ++ b) = bot a ++ bot b := by simp [bot]

theorem bot_flatten (st : List (List M)) : botRem st = bot st.flatten := by
  induction st with
  | nil => rfl
  | cons ns st ih =>
    rw [List.flatten_cons, bot_append, ← ih]
    simp [botRem, bot]

/-- A leaf is in the subtree of the node. -/
theorem leaf_path (hp : PathsOk pth) (hv : ∀ m : M, (val m).1 = pth m) (n : M) :
    ∀ x ∈ (treeOf n).leaves, pth n <+: x.1 := by
  induction n using node_ind with
  | h n ih =>
    intro x hx
    rw [leaves_treeOf] at hx
    split at hx
    · obtain rfl : x = val n := by simpa using hx
      rw [hv]
      exact List.prefix_refl _
    · obtain ⟨c, hc, hx⟩ := List.mem_flatMap.1 hx
      obtain ⟨i, hi⟩ := kid_path hp hc
      have := ih c hc x hx
      rw [hi] at this
      exact (List.prefix_append _ _).trans this

/-- A leaf is either the node itself or its parent is in the subtree of the node. -/
theorem leaf_parent (hp : PathsOk pth) (hv : ∀ m : M, (val m).1 = pth m) (n : M) (hk : kids n ≠ []) :
    ∀ x ∈ (treeOf n).leaves, pth n <+: x.1.dropLast := by
  intro x hx
  rw [leaves_treeOf, if_neg hk] at hx
  obtain ⟨c, hc, hx⟩ := List.mem_flatMap.1 hx
  obtain ⟨i, hi⟩ := kid_path hp hc
  have := leaf_path hp hv c x hx
  rw [hi] at this
  obtain ⟨t, ht⟩ := this
  rw [← ht, List.append_assoc, List.dropLast_append_of_ne_nil (by simp)]
  exact List.prefix_append _ _

theorem bot_parent (hp : PathsOk pth) (hv : ∀ m : M, (val m).1 = pth m) (L : List M) :
    ∀ x ∈ bot L, ∃ m ∈ L, pth m <+: x.1.dropLast := by
  intro x hx
  obtain ⟨m, hm, hx⟩ := List.mem_flatMap.1 hx
  split at hx
  · simp at hx
  · next h => exact ⟨m, hm, leaf_parent hp hv m h x hx⟩

theorem filter_eq_nil_of {α : Type w} (p : α → Bool) (l : List α) (h : ∀ x ∈ l, p x = false) : l.filter p = [] := by
  rw [List.filter_eq_nil_iff]
  intro x hx
  simp [h x hx]

/-- Entering a node loses its childless children. -/
theorem bot_kids (hp : PathsOk pth) (hv : ∀ m : M, (val m).1 = pth m) (n : M) :
    bot (kids n) = (bot [n]).filter fun x => x.1.dropLast ≠ pth n := by
  have e : bot [n] = (kids n).flatMap fun c => (treeOf c).leaves := by
    simp only [bot, List.flatMap_cons, List.flatMap_nil, List.append_nil]
    rw [leaves_treeOf]
    split
    · next h => simp [h]
    · rfl
  rw [e, List.filter_flatMap, bot]
  have hc : ∀ c ∈ kids n, (if kids c = [] then [] else (treeOf c).leaves) =
      (treeOf c).leaves.filter fun x => x.1.dropLast ≠ pth n := by
    intro c hc
    obtain ⟨i, hi⟩ := kid_path hp hc
    split
    · next h =>
      symm
      apply filter_eq_nil_of
      intro x hx
      rw [leaves_treeOf, if_pos h] at hx
      obtain rfl : x = val c := by simpa using hx
      simp [hv, hi]
    · next h =>
      symm
      rw [List.filter_eq_self]
      intro x hx
      have := (leaf_parent hp hv c h x hx).length_le
      simp only [ne_eq, decide_not, Bool.not_eq_eq_eq_not, Bool.not_true, decide_eq_false_iff_not]
      intro h'
      rw [h', hi] at this
      simp at this
      omega
  generalize kids n = cs at hc
  clear e
  induction cs with
  | nil => rfl
  | cons c cs ih =>
    rw [List.flatMap_cons, List.flatMap_cons, hc c (by simp), ih fun c h => hc c (by simp [h])]

/-- Of the leaves below the pending nodes those are left whose parent has not been entered. -/
theorem Reach.bot (hp : PathsOk pth) (hv : ∀ m : M, (val m).1 = pth m) {root : M} {E : List (List Nat)} {L : List M}
    (h : Reach pth root E L) : bot L = (bot [root]).filter fun x => x.1.dropLast ∉ E := by
  induction h with
  | start => exact (List.filter_eq_self.2 (by simp)).symm
  | @enter E n L h ih =>
    have ha := h.apart hp
    rw [List.map_cons, List.pairwise_cons] at ha
    have e : Leaves.bot L = (Leaves.bot L).filter fun x => x.1.dropLast ≠ pth n := by
      symm
      rw [List.filter_eq_self]
      intro x hx
      obtain ⟨m, hm, hx⟩ := bot_parent hp hv L x hx
      simp only [ne_eq, decide_not, Bool.not_eq_eq_eq_not, Bool.not_true, decide_eq_false_iff_not]
      intro h'
      rw [h'] at hx
      exact (ha.1 (pth m) (List.mem_map_of_mem hm)).2 hx
    rw [bot_append, bot_kids hp hv, e, ← List.filter_append, ← bot_append, List.singleton_append, ih, List.filter_filter]
    apply List.filter_congr
    intro x _
    simp

/-- As `Reach.bot`, in terms of the leaves of the tree. -/
theorem Reach.bot_leaves (hp : PathsOk pth) (hv : ∀ m : M, (val m).1 = pth m) {root : M} {E : List (List Nat)}
    {L : List M} (h : Reach pth root E L) (hr : pth root ∈ E) (hr' : pth root = []) :
    Leaves.bot L = (treeOf root).leaves.filter fun x => x.1.dropLast ∉ E := by
  rw [h.bot hp hv]
  simp only [Leaves.bot, List.flatMap_cons, List.flatMap_nil, List.append_nil]
  split
  · next hk =>
    rw [leaves_treeOf, if_pos hk]
    have : (val root).1.dropLast ∈ E := by
      rw [hr'] at hr
      rw [hv, hr']
      exact hr
    simp [this]
  · rfl

end Reach

/-! ## What has been handed out -/

section Outs
variable {S : Type u} {O : Type v}

/-- What the first `k` calls hand out. -/
def outs (next : S → Option O × S) : Nat → S → List O
  | 0, _ => []
  | k + 1, s => (next s).1.toList ++ outs next k (next s).2

theorem outs_spec {next : S → Option O × S} (Inv : S → Prop) (rem : S → List O)
    (hnext : ∀ s, Inv s → (next s).1 = (rem s).head? ∧ rem (next s).2 = (rem s).tail ∧ Inv (next s).2)
    {s : S} (hs : Inv s) (k : Nat) : outs next k s = (rem s).take k := by
  induction k generalizing s with
  | zero => simp [outs]
  | succ k ih =>
    obtain ⟨h1, h2, h3⟩ := hnext s hs
    rw [outs, ih h3, h1, h2]
    cases rem s <;> simp

/-- A relation between what has been handed out and the state that every call preserves. -/
theorem outs_rel {next : S → Option O × S} {R : List O → S → Prop}
    (hnext : ∀ vis s, R vis s → R (vis ++ (next s).1.toList) (next s).2) {vis : List O} {s : S} (h : R vis s)
    (k : Nat) : R (vis ++ outs next k s) (stateAfter next k s) := by
  induction k generalizing vis s with
  | zero => simpa [outs, stateAfter] using h
  | succ k ih =>
    have := ih (hnext vis s h)
    rw [outs, stateAfter, ← List.append_assoc]
    exact this

end Outs

section Machines
variable {X : Type v} {M : Type u} {pth : M → List Nat}

/-- The paths in `E` are the paths of the nodes in `vis` and of the nodes above them. -/
def Above (E : List (List Nat)) (vis : List (List Nat × X)) : Prop :=
  [] ∈ E ∧ (∀ q ∈ E, ∃ y ∈ vis, q <+: y.1) ∧ ∀ y ∈ vis, y.1 ∈ E

theorem Above.iff [TreeNode M (List Nat × X)] (hp : PathsOk pth) {root : M} {E : List (List Nat)} {L : List M}
    (h : Reach pth root E L) (hr : pth root = []) {vis : List (List Nat × X)} (ha : Above E vis) (q : List Nat) :
    q ∈ E ↔ ∃ y ∈ vis, q <+: y.1 :=
  ⟨ha.2.1 q, fun ⟨y, hy, hq⟩ => (h.closed hp hr).2 y.1 (ha.2.2 y hy) q hq⟩

theorem Above.bot [TreeNode M (List Nat × X)] (hp : PathsOk pth) (hv : ∀ m : M, (val m).1 = pth m) {root : M}
    {E : List (List Nat)} {L : List M} (h : Reach pth root E L) (hr : pth root = []) {vis : List (List Nat × X)}
    (ha : Above E vis) :
    Leaves.bot L = (treeOf root).leaves.filter fun x => !vis.any fun y => x.1.dropLast.isPrefixOf y.1 := by
  rw [h.bot_leaves hp hv (hr ▸ ha.1) hr]
  apply List.filter_congr
  intro x _
  have := ha.iff hp h hr x.1.dropLast
  rw [Bool.eq_iff_iff]
  simp only [Bool.not_eq_eq_eq_not, Bool.not_true, this, List.any_eq_false,
    List.isPrefixOf_iff_prefix, not_exists, not_and, decide_eq_true_eq]

/-! ### Preorder -/

/-- Between the calls of a preorder iterator. -/
def PreRel [TreeNode M (List Nat × X)] (pth : M → List Nat) (root : M) (vis : List (List Nat × X))
    (s : Preorder.State M) : Prop :=
  (s = Preorder.new root ∧ vis = []) ∨
    (s.root = none ∧ ∃ E, Reach pth root E s.stack.flatten ∧ Above E vis)

theorem preLoop_flatten (st : List (List M)) :
    (∀ n st', Preorder.loop st = (some n, st') → st.flatten = n :: st'.flatten) ∧
      (∀ st', Preorder.loop st = (none, st') → st.flatten = st'.flatten) := by
  fun_induction Preorder.loop st with
  | case1 => simp
  | case2 rest ih => simpa using ih
  | case3 n ns rest => simp +contextual

theorem preRel_next [TreeNode M (List Nat × X)] (hv : ∀ m : M, (val m).1 = pth m)
    (root : M) (hr : pth root = []) (vis : List (List Nat × X)) (s : Preorder.State M) (h : PreRel pth root vis s) :
    PreRel pth root (vis ++ (Preorder.next s).1.toList) (Preorder.next s).2 := by
  rcases h with ⟨rfl, rfl⟩ | ⟨h1, E, h2, h3⟩
  · refine .inr ⟨rfl, _, by simpa [Preorder.next, Preorder.new] using Reach.enter .start, ?_⟩
    simp [Above, Preorder.next, Preorder.new, hr, hv]
  · obtain ⟨root', st⟩ := s
    simp only at h1 h2
    subst h1
    right
    have hl := preLoop_flatten st
    rcases he : Preorder.loop st with ⟨_ | n, st'⟩
    · refine ⟨by simp [Preorder.next, he], E, ?_, by simpa [Preorder.next, he] using h3⟩
      simpa [Preorder.next, he, ← hl.2 _ he] using h2
    · rw [hl.1 _ _ he] at h2
      refine ⟨by simp [Preorder.next, he], _, by simpa [Preorder.next, he] using h2.enter, ?_⟩
      simp only [Preorder.next, he]
      refine ⟨by simp [h3.1], ?_, ?_⟩
      · intro q hq
        rcases List.mem_cons.1 hq with rfl | hq
        · exact ⟨val n, by simp, by rw [hv]; exact List.prefix_refl _⟩
        · obtain ⟨y, hy, hq⟩ := h3.2.1 q hq
          exact ⟨y, by simp [hy], hq⟩
      · intro y hy
        rcases List.mem_append.1 hy with hy | hy
        · simp [h3.2.2 y hy]
        · obtain rfl : y = val n := by simpa using hy
          simp [hv]

/-! ### Postorder -/

/-- Every open iterator yields children of its item, which has been entered. -/
def Frames (pth : M → List Nat) (E : List (List Nat)) : List (List Nat × X) → List (List M) → Prop
  | [], [] => True
  | v :: items, ns :: st => (∀ m ∈ ns, ∃ i, pth m = v.1 ++ [i]) ∧ v.1 ∈ E ∧ Frames pth E items st
  | _, _ => False

theorem Frames.mono {E E' : List (List Nat)} (h : ∀ q ∈ E, q ∈ E') {items : List (List Nat × X)} {st : List (List M)}
    (hf : Frames pth E items st) : Frames pth E' items st := by
  induction items generalizing st with
  | nil => cases st <;> simp_all [Frames]
  | cons v items ih =>
    cases st with
    | nil => simp [Frames] at hf
    | cons ns st => exact ⟨hf.1, h _ hf.2.1, ih hf.2.2⟩

theorem postLoop_rel [TreeNode M (List Nat × X)] (hv : ∀ m : M, (val m).1 = pth m) (hp : PathsOk pth)
    (root : M) (vis : List (List Nat × X)) (st : List (List M)) (items : List (List Nat × X)) (E : List (List Nat))
    (h1 : Reach pth root E st.flatten) (h2 : Frames pth E items st)
    (h3 : ∀ q ∈ E, (∃ y ∈ vis, q <+: y.1) ∨ ∃ v ∈ items.head?, q <+: v.1)
    (h4 : ∀ y ∈ vis, y.1 ∈ E) (h5 : [] ∈ E) :
    ∃ E', Reach pth root E' (Postorder.loop st items).2.2.flatten ∧
      Frames pth E' (Postorder.loop st items).2.1 (Postorder.loop st items).2.2 ∧
      Above E' (vis ++ (Postorder.loop st items).1.toList) := by
  fun_induction Postorder.loop st items generalizing E with
  | case1 items =>
    cases items with
    | cons v items => simp [Frames] at h2
    | nil =>
      refine ⟨E, h1, h2, h5, ?_, by simpa using h4⟩
      intro q hq
      have := h3 q hq
      simpa using this
  | case2 rest items =>
    cases items with
    | nil => simp [Frames] at h2
    | cons v items =>
      refine ⟨E, by simpa using h1, h2.2.2, h5, ?_, ?_⟩
      · intro q hq
        rcases h3 q hq with ⟨y, hy, hq⟩ | ⟨y, hy, hq⟩
        · exact ⟨y, by simp [hy], hq⟩
        · exact ⟨y, by simp_all, hq⟩
      · intro y hy
        rcases List.mem_append.1 hy with hy | hy
        · exact h4 y hy
        · obtain rfl : y = v := by simpa using hy
          exact h2.2.1
  | case3 n ns rest items ih =>
    cases items with
    | nil => simp [Frames] at h2
    | cons v items =>
      obtain ⟨f1, f2, f3⟩ := h2
      apply ih (pth n :: E)
      · simpa using Reach.enter (L := ns ++ rest.flatten) (by simpa using h1)
      · refine ⟨fun m hm => ?_, by simp [hv], fun m hm => f1 m (by simp [hm]), by simp [f2],
          f3.mono fun q hq => by simp [hq]⟩
        rw [hv]
        exact kid_path hp hm
      · intro q hq
        rcases List.mem_cons.1 hq with rfl | hq
        · exact .inr ⟨val n, by simp, by rw [hv]; exact List.prefix_refl _⟩
        · rcases h3 q hq with h | ⟨y, hy, hq⟩
          · exact .inl h
          · obtain rfl : v = y := by simpa using hy
            obtain ⟨i, hi⟩ := f1 n (by simp)
            refine .inr ⟨val n, by simp, ?_⟩
            rw [hv, hi]
            exact hq.trans (List.prefix_append _ _)
      · intro y hy
        simp [h4 y hy]
      · simp [h5]

/-- Between the calls of a postorder iterator. -/
def PostRel [TreeNode M (List Nat × X)] (pth : M → List Nat) (root : M) (vis : List (List Nat × X))
    (s : Postorder.State M (List Nat × X)) : Prop :=
  (s = Postorder.new root ∧ vis = []) ∨
    (s.root = none ∧ ∃ E, Reach pth root E s.stack.flatten ∧ Frames pth E s.items s.stack ∧ Above E vis)

theorem postRel_next [TreeNode M (List Nat × X)] (hv : ∀ m : M, (val m).1 = pth m) (hp : PathsOk pth)
    (root : M) (hr : pth root = []) (vis : List (List Nat × X)) (s : Postorder.State M (List Nat × X))
    (h : PostRel pth root vis s) :
    PostRel pth root (vis ++ (Postorder.next s).1.toList) (Postorder.next s).2 := by
  rcases h with ⟨rfl, rfl⟩ | ⟨h1, E, h2, h3, h4⟩
  · right
    refine ⟨rfl, ?_⟩
    apply postLoop_rel hv hp root [] [kids root] [val root] [pth root]
    · simpa using Reach.enter (pth := pth) (root := root) .start
    · refine ⟨fun m hm => ?_, by simp [hv], trivial⟩
      rw [hv]
      exact kid_path hp hm
    · intro q hq
      obtain rfl : q = pth root := by simpa using hq
      exact .inr ⟨val root, by simp, by rw [hv]; exact List.prefix_refl _⟩
    · simp
    · simp [hr]
  · obtain ⟨root', items, st⟩ := s
    simp only at h1
    subst h1
    right
    refine ⟨rfl, ?_⟩
    exact postLoop_rel hv hp root vis st items E h2 h3 (fun q hq => .inl (h4.2.1 q hq)) h4.2.2 h4.1

/-! ### In order -/

theorem kids_bin {V : Type v} [BinNode M V] (n : M) :
    kids n = (split2 n).2.1.toList ++ (split2 n).2.2.toList := by
  simp only [kids, split, slots]
  cases (split2 n).2.1 <;> cases (split2 n).2.2 <;> rfl

/-- The nodes in a stack of slots. -/
def slotNodes (right : List (Option M)) : List M := (right.map Option.toList).flatten

theorem descend_rel [BinNode M (List Nat × X)] (hv : ∀ m : M, (val2 m).1 = pth m) (hp : PathsOk pth)
    (root : M) (cur : Option M) (right : List (Option M)) (items : List (List Nat × X)) (E : List (List Nat))
    (h1 : Reach pth root E (cur.toList ++ slotNodes right)) (h2 : ∀ v ∈ items, v.1 ∈ E) :
    ∃ E', Reach pth root E' (slotNodes (Inorder.descend cur right items).1) ∧
      (∀ v ∈ (Inorder.descend cur right items).2, v.1 ∈ E') ∧ (∀ q ∈ E, q ∈ E') ∧
      (∀ q ∈ E', q ∈ E ∨ ∃ v ∈ (Inorder.descend cur right items).2.head?, q <+: v.1) ∧
      (∀ n ∈ cur, ∃ v ∈ (Inorder.descend cur right items).2.head?, pth n <+: v.1) := by
  fun_induction Inorder.descend cur right items generalizing E with
  | case1 right items => exact ⟨E, by simpa using h1, h2, by simp, fun q hq => .inl hq, by simp⟩
  | case2 n right items ih =>
    have hk := kids_bin n
    obtain ⟨E', i1, i2, i3, i4, i5⟩ := ih (pth n :: E)
      (by
        have := Reach.enter (L := slotNodes right) (by simpa using h1)
        rw [hk] at this
        simpa [slotNodes] using this)
      (by
        intro v hm
        rcases List.mem_cons.1 hm with rfl | hm
        · simp [hv]
        · simp [h2 v hm])
    have hn : ∃ v ∈ (Inorder.descend (split2 n).2.1 ((split2 n).2.2 :: right) (val2 n :: items)).2.head?,
        pth n <+: v.1 := by
      cases hl : (split2 n).2.1 with
      | none =>
        refine ⟨val2 n, by simp [Inorder.descend], ?_⟩
        rw [hv]
        exact List.prefix_refl _
      | some l =>
        obtain ⟨v, hv', hp'⟩ := i5 l hl
        rw [hl] at hv'
        refine ⟨v, hv', ?_⟩
        obtain ⟨i, hi⟩ := kid_path hp (n := n) (c := l) (by rw [hk]; simp [hl])
        rw [hi] at hp'
        exact (List.prefix_append _ _).trans hp'
    refine ⟨E', i1, i2, fun q hq => i3 q (by simp [hq]), ?_, ?_⟩
    · intro q hq
      rcases i4 q hq with h | h
      · rcases List.mem_cons.1 h with rfl | h
        · exact .inr hn
        · exact .inl h
      · exact .inr h
    · intro m hm
      obtain rfl : n = m := by simpa using hm
      exact hn

theorem find_slotNodes {V : Type v} (items : List V) (right : List (Option M)) :
    (∀ right', Inorder.find items right = (.ret, right') → slotNodes right' = slotNodes right) ∧
      ∀ cur right', Inorder.find items right = (.cur cur, right') →
        slotNodes right = cur.toList ++ slotNodes right' := by
  fun_induction Inorder.find items right <;> simp_all [slotNodes]
  next ih => exact ih.2

/-- Between the calls of an in-order iterator. -/
def InRel [BinNode M (List Nat × X)] (pth : M → List Nat) (root : M) (vis : List (List Nat × X))
    (s : Inorder.State M (List Nat × X)) : Prop :=
  (s = Inorder.new root ∧ vis = []) ∨
    (s.moved = true ∧ ∃ E, Reach pth root E (slotNodes s.right) ∧ (∀ v ∈ s.items, v.1 ∈ E) ∧ Above E vis)

theorem above_pop {E E' : List (List Nat)} {vis items : List (List Nat × X)} (h : Above E vis)
    (h1 : ∀ v ∈ items, v.1 ∈ E') (h2 : ∀ q ∈ E, q ∈ E')
    (h3 : ∀ q ∈ E', q ∈ E ∨ ∃ v ∈ items.head?, q <+: v.1) : Above E' (vis ++ items.head?.toList) := by
  refine ⟨h2 _ h.1, ?_, ?_⟩
  · intro q hq
    rcases h3 q hq with hq | ⟨v, hm, hq⟩
    · obtain ⟨y, hy, hq⟩ := h.2.1 q hq
      exact ⟨y, by simp [hy], hq⟩
    · exact ⟨v, by simp [Option.mem_def.1 hm], hq⟩
  · intro y hy
    rcases List.mem_append.1 hy with hy | hy
    · exact h2 _ (h.2.2 y hy)
    · exact h1 y (List.mem_of_mem_head? (by simpa using hy))

theorem inRel_next [BinNode M (List Nat × X)] (hv : ∀ m : M, (val2 m).1 = pth m) (hp : PathsOk pth)
    (root : M) (hr : pth root = []) (vis : List (List Nat × X)) (s : Inorder.State M (List Nat × X))
    (h : InRel pth root vis s) : InRel pth root (vis ++ (Inorder.next s).1.toList) (Inorder.next s).2 := by
  rcases h with ⟨rfl, rfl⟩ | ⟨_, E, h2, h3, h4⟩
  · right
    obtain ⟨E, i1, i2, i3, i4, i5⟩ := descend_rel hv hp root (some root) [] [] []
      (by simpa [slotNodes] using Reach.start) (by simp)
    have e : Inorder.next (Inorder.new root) =
        ((Inorder.descend (some root) [] []).2.head?,
          ⟨(Inorder.descend (some root) [] []).1, (Inorder.descend (some root) [] []).2.tail, true⟩) := by
      simp [Inorder.next, Inorder.new, Inorder.find]
    rw [e]
    refine ⟨rfl, E, i1, fun v hm => i2 v (List.mem_of_mem_tail hm), ?_⟩
    have hnil : [] ∈ E := by
      obtain ⟨v, hm, _⟩ := i5 root rfl
      have := i1.closed hp hr
      exact this.2 v.1 (i2 v (List.mem_of_mem_head? hm)) [] (List.nil_prefix)
    refine ⟨hnil, ?_, ?_⟩
    · intro q hq
      rcases i4 q hq with h | ⟨v, hm, hq⟩
      · simp at h
      · exact ⟨v, by simpa using hm, hq⟩
    · intro y hy
      exact i2 y (List.mem_of_mem_head? (by simpa using hy))
  · obtain ⟨right, items, moved⟩ := s
    right
    have hf := find_slotNodes items right
    simp only at h2 h3
    rcases he : Inorder.find items right with ⟨_ | cur, right'⟩
    · simp only [Inorder.next, he]
      refine ⟨trivial, E, ?_, fun v hm => h3 v (List.mem_of_mem_tail hm), ?_⟩
      · rw [hf.1 _ he]
        exact h2
      · exact above_pop h4 h3 (fun q hq => hq) fun q hq => .inl hq
    · simp only [Inorder.next, he]
      rw [hf.2 _ _ he] at h2
      obtain ⟨E', i1, i2, i3, i4, _⟩ := descend_rel hv hp root cur right' items E h2 h3
      exact ⟨trivial, E', i1, fun v hm => i2 v (List.mem_of_mem_tail hm), above_pop h4 i2 i3 i4⟩

end Machines

/-! ## Nodes decorated with paths -/

/-- A node and its path. -/
structure At (N : Type u) where
  path : List Nat
  node : N

/-- A binary node and its path. -/
structure At2 (N : Type u) where
  path : List Nat
  node : N

instance [TreeNode N V] : TreeNode (At N) (List Nat × V) where
  split m := ((m.path, val m.node), (kids m.node).mapIdx fun i c => ⟨m.path ++ [i], c⟩)
  size m := TreeNode.size m.node
  size_lt := by
    intro n c h
    simp only [List.mem_mapIdx] at h
    obtain ⟨i, hi, rfl⟩ := h
    exact TreeNode.size_lt (List.getElem_mem hi)

instance [BinNode N V] : BinNode (At2 N) (List Nat × V) where
  split2 m := ((m.path, val2 m.node), (split2 m.node).2.1.map (⟨m.path ++ [0], ·⟩),
    (split2 m.node).2.2.map (⟨m.path ++ [1], ·⟩))
  size2 m := BinNode.size2 m.node
  size2_left := by
    intro n c h
    simp only [Option.map_eq_some_iff] at h
    obtain ⟨d, hd, rfl⟩ := h
    exact BinNode.size2_left hd
  size2_right := by
    intro n c h
    simp only [Option.map_eq_some_iff] at h
    obtain ⟨d, hd, rfl⟩ := h
    exact BinNode.size2_right hd

theorem at_kids [TreeNode N V] (m : At N) : kids m = (kids m.node).mapIdx fun i c => ⟨m.path ++ [i], c⟩ := rfl

theorem at_val [TreeNode N V] (m : At N) : val m = (m.path, val m.node) := rfl

theorem at_pathsOk [TreeNode N V] : PathsOk (M := At N) At.path := by
  intro m
  refine ⟨List.range (kids m.node).length, List.nodup_range, ?_⟩
  rw [at_kids]
  apply List.ext_getElem
  · simp
  · intro i h1 h2
    simp

theorem at2_pathsOk [BinNode N V] : PathsOk (M := At2 N) At2.path := by
  intro m
  rw [kids_bin]
  simp only [split2]
  refine ⟨(split2 m.node).2.1.toList.map (fun _ => 0) ++ (split2 m.node).2.2.toList.map (fun _ => 1), ?_, ?_⟩
  · cases (split2 m.node).2.1 <;> cases (split2 m.node).2.2 <;> simp
  · cases (split2 m.node).2.1 <;> cases (split2 m.node).2.2 <;> simp

/-! ## Forgetting decoration -/

section Sim
variable {M : Type u} {W : Type v}

theorem pre_sim [TreeNode M W] [TreeNode N V] (f : M → N)
    (hk : ∀ m, kids (f m) = (kids m).map f) (k : Nat) (s : Preorder.State M) :
    stateAfter Preorder.next k (⟨s.root.map f, s.stack.map (List.map f)⟩ : Preorder.State N) =
      ⟨(stateAfter Preorder.next k s).root.map f, (stateAfter Preorder.next k s).stack.map (List.map f)⟩ := by
  induction k generalizing s with
  | zero => rfl
  | succ k ih =>
    rw [stateAfter, stateAfter, ← ih]
    congr 1
    have hl : ∀ st : List (List M), Preorder.loop (st.map (List.map f)) =
        ((Preorder.loop st).1.map f, (Preorder.loop st).2.map (List.map f)) := by
      intro st
      fun_induction Preorder.loop st <;> simp_all [Preorder.loop]
    obtain ⟨_ | r, st⟩ := s
    · simp only [Preorder.next, Option.map_none, hl]
      rcases Preorder.loop st with ⟨_ | n, st'⟩ <;> simp [hk]
    · simp [Preorder.next, hk]

theorem post_sim [TreeNode M W] [TreeNode N V] (f : M → N) (g : W → V) (hv : ∀ m, val (f m) = g (val m))
    (hk : ∀ m, kids (f m) = (kids m).map f) (k : Nat) (s : Postorder.State M W) :
    stateAfter Postorder.next k (⟨s.root.map f, s.items.map g, s.stack.map (List.map f)⟩ : Postorder.State N V) =
      ⟨(stateAfter Postorder.next k s).root.map f, (stateAfter Postorder.next k s).items.map g,
        (stateAfter Postorder.next k s).stack.map (List.map f)⟩ := by
  induction k generalizing s with
  | zero => rfl
  | succ k ih =>
    rw [stateAfter, stateAfter, ← ih]
    congr 1
    have hl : ∀ (st : List (List M)) (items : List W), Postorder.loop (st.map (List.map f)) (items.map g) =
        ((Postorder.loop st items).1.map g, (Postorder.loop st items).2.1.map g,
          (Postorder.loop st items).2.2.map (List.map f)) := by
      intro st items
      fun_induction Postorder.loop st items <;> simp_all [Postorder.loop]
    obtain ⟨_ | r, items, st⟩ := s
    · simp only [Postorder.next, Option.map_none, hl]
    · have := hl (kids r :: st) (val r :: items)
      simp only [List.map_cons, ← hk, ← hv] at this
      simp only [Postorder.next, Option.map_some, this]
      rfl

theorem in_sim [BinNode M W] [BinNode N V] (f : M → N) (g : W → V)
    (h : ∀ m, split2 (f m) = (g (split2 m).1, (split2 m).2.1.map f, (split2 m).2.2.map f))
    (k : Nat) (s : Inorder.State M W) :
    stateAfter Inorder.next k (⟨s.right.map (Option.map f), s.items.map g, s.moved⟩ : Inorder.State N V) =
      ⟨(stateAfter Inorder.next k s).right.map (Option.map f), (stateAfter Inorder.next k s).items.map g,
        (stateAfter Inorder.next k s).moved⟩ := by
  induction k generalizing s with
  | zero => rfl
  | succ k ih =>
    rw [stateAfter, stateAfter, ← ih]
    congr 1
    have hd : ∀ (cur : Option M) (right : List (Option M)) (items : List W),
        Inorder.descend (cur.map f) (right.map (Option.map f)) (items.map g) =
          ((Inorder.descend cur right items).1.map (Option.map f), (Inorder.descend cur right items).2.map g) := by
      intro cur right items
      fun_induction Inorder.descend cur right items <;> simp_all [Inorder.descend, val2]
    have hf : ∀ (items : List W) (right : List (Option M)),
        Inorder.find (items.map g) (right.map (Option.map f)) =
          (match (Inorder.find items right).1 with | .ret => .ret | .cur c => .cur (c.map f),
            (Inorder.find items right).2.map (Option.map f)) := by
      intro items right
      fun_induction Inorder.find items right <;> simp_all [Inorder.find]
    obtain ⟨right, items, moved⟩ := s
    simp only [Inorder.next, hf]
    rcases Inorder.find items right with ⟨_ | c, right'⟩
    · simp
    · simp [hd]

theorem leaves_sim [TreeNode M W] [TreeNode N V] (f : M → N) (g : W → V) (hv : ∀ m, val (f m) = g (val m))
    (hk : ∀ m, kids (f m) = (kids m).map f) (m : M) : treeOf (f m) = (treeOf m).map g := by
  induction m using node_ind with
  | h m ih =>
    rw [treeOf_eq, treeOf_eq, Tree.map_node, hv, hk, List.map_map, List.map_map]
    congr 1
    exact List.map_congr_left fun c hc => ih c hc

theorem botRem_sim [TreeNode M W] [TreeNode N V] (f : M → N) (g : W → V) (hv : ∀ m, val (f m) = g (val m))
    (hk : ∀ m, kids (f m) = (kids m).map f) (st : List (List M)) :
    botRem (st.map (List.map f)) = (botRem st).map g := by
  have h : ∀ m : M, (if kids (f m) = [] then [] else (treeOf (f m)).leaves) =
      (if kids m = [] then [] else (treeOf m).leaves).map g := by
    intro m
    rw [leaves_sim f g hv hk, Tree.leaves_map, hk]
    cases kids m <;> simp
  simp [botRem, List.map_flatMap, List.flatMap_map, h]

end Sim

/-- What the decoration keeps of a position. -/
def Pos.pathItem {α : Type u} (p : Pos α) : List Nat × α := (p.path, p.item)

theorem at_treeOf [TreeNode N V] (n : N) (path : List Nat) (anc : List V) :
    treeOf (⟨path, n⟩ : At N) = ((treeOf n).withPos path anc).map Pos.pathItem := by
  induction n using node_ind generalizing path anc with
  | h n ih =>
    rw [treeOf_eq, treeOf_eq n, Tree.withPos, Tree.map_node, at_kids, at_val]
    congr 1
    have : ∀ (cs : List N) (i : Nat), (∀ c ∈ cs, c ∈ kids n) →
        (cs.mapIdx fun j c => treeOf (⟨path ++ [i + j], c⟩ : At N)) =
          (Tree.withPosL path (anc ++ [val n]) i (cs.map treeOf)).map (Tree.map Pos.pathItem) := by
      intro cs
      induction cs with
      | nil => intros; rfl
      | cons c cs ihc =>
        intro i hc
        rw [List.mapIdx_cons, List.map_cons, Tree.withPosL, List.map_cons,
          ← ih c (hc c (by simp)) (path ++ [i]) (anc ++ [val n]),
          ← ihc (i + 1) fun c h => hc c (by simp [h])]
        simp [Nat.add_assoc, Nat.add_comm 1]
    have := this (kids n) 0 fun c h => h
    rw [← this]
    apply List.ext_getElem <;> simp

theorem at2_binTreeOf [BinNode N V] (n : N) (path : List Nat) (anc : List V) :
    binTreeOf (⟨path, n⟩ : At2 N) = ((binTreeOf n).withPos path anc).map Pos.pathItem := by
  induction n using binNode_ind generalizing path anc with
  | h n ihl ihr =>
    rw [binTreeOf, unfold2_eq, binTreeOf, unfold2_eq n, BinTree.map, BinTree.map, BinTree.withPos, BinTree.map]
    congr 1
    · cases hl : (split2 n).2.1 with
      | none => simp [split2, hl, BinTree.mapO, BinTree.withPosO]
      | some c =>
        simpa [split2, hl, BinTree.mapO, BinTree.withPosO, binTreeOf] using ihl c hl (path ++ [0]) (anc ++ [val2 n])
    · cases hl : (split2 n).2.2 with
      | none => simp [split2, hl, BinTree.mapO, BinTree.withPosO]
      | some c =>
        simpa [split2, hl, BinTree.mapO, BinTree.withPosO, binTreeOf] using ihr c hl (path ++ [1]) (anc ++ [val2 n])

theorem at_hk [TreeNode N V] (m : At N) : kids m.node = (kids m).map At.node := by
  rw [at_kids]
  apply List.ext_getElem <;> simp

theorem at2_hk [BinNode N V] (m : At2 N) : kids m.node = (kids m).map At2.node := by
  rw [kids_bin, kids_bin]
  simp only [split2]
  cases (split2 m.node).2.1 <;> cases (split2 m.node).2.2 <;> rfl

/-! ## The leaves not yet visited -/

section Left
variable {X : Type v} {M : Type u} {pth : M → List Nat}

theorem topRem_flatten [TreeNode N V] (st : List (List N)) :
    topRem st = st.flatten.flatMap fun n => (treeOf n).leaves := by
  induction st with
  | nil => rfl
  | cons ns st ih =>
    rw [List.flatten_cons, List.flatMap_append, ← ih]
    simp [topRem]

/-- No node lies below a leaf. -/
theorem leaf_prefix [TreeNode M (List Nat × X)] (hp : PathsOk pth) (hv : ∀ m : M, (val m).1 = pth m) (n : M) :
    ∀ x ∈ (treeOf n).leaves, ∀ y ∈ (treeOf n).preorder, x.1 <+: y.1 → x.1 = y.1 := by
  induction n using node_ind with
  | h n ih =>
    have hpre : ∀ n : M, ∀ y ∈ (treeOf n).preorder, pth n <+: y.1 := by
      intro n
      induction n using node_ind with
      | h n ih =>
        intro y hy
        rw [Preorder.preorder_treeOf] at hy
        rcases List.mem_cons.1 hy with rfl | hy
        · rw [hv]
          exact List.prefix_refl _
        · obtain ⟨c, hc, hy⟩ := List.mem_flatMap.1 hy
          obtain ⟨i, hi⟩ := kid_path hp hc
          have := ih c hc y hy
          rw [hi] at this
          exact (List.prefix_append _ _).trans this
    intro x hx y hy hxy
    rw [Preorder.preorder_treeOf] at hy
    by_cases hk : kids n = []
    · rw [leaves_treeOf, if_pos hk] at hx
      rw [hk] at hy
      simp at hx hy
      rw [hx, hy]
    · have hx' := leaf_parent hp hv n hk x hx
      rw [leaves_treeOf, if_neg hk] at hx
      rcases List.mem_cons.1 hy with rfl | hy
      · rw [hv] at hxy
        have h1 := hx'.length_le
        have h2 := hxy.length_le
        obtain ⟨c, hc, hx⟩ := List.mem_flatMap.1 hx
        obtain ⟨i, hi⟩ := kid_path hp hc
        have h3 := (leaf_path hp hv c x hx).length_le
        rw [hi] at h3
        simp at h3
        omega
      · obtain ⟨c, hc, hx⟩ := List.mem_flatMap.1 hx
        obtain ⟨d, hd, hy⟩ := List.mem_flatMap.1 hy
        by_cases hcd : pth c = pth d
        · have : c = d := by
            obtain ⟨i, hi, rfl⟩ := List.getElem_of_mem hc
            obtain ⟨j, hj, rfl⟩ := List.getElem_of_mem hd
            by_cases hij : i = j
            · subst hij; rfl
            · have hpw := kids_apart hp n
              rw [List.pairwise_iff_getElem] at hpw
              exfalso
              rcases Nat.lt_or_gt_of_ne hij with h | h
              · have := hpw i j (by simpa using hi) (by simpa using hj) h
                simp only [List.getElem_map, hcd] at this
                exact this.1 (List.prefix_refl _)
              · have := hpw j i (by simpa using hj) (by simpa using hi) h
                simp only [List.getElem_map, hcd] at this
                exact this.1 (List.prefix_refl _)
          subst this
          exact ih c hc x hx y hy hxy
        · exfalso
          obtain ⟨i, hi⟩ := kid_path hp hc
          obtain ⟨j, hj⟩ := kid_path hp hd
          have h1 := (leaf_path hp hv c x hx).trans hxy
          have h2 := hpre d y hy
          have := List.prefix_of_prefix_length_le h1 h2 (by rw [hi, hj]; simp)
          exact hcd (List.IsPrefix.eq_of_length this (by rw [hi, hj]; simp))

/-- The leaves below the pending nodes are those not entered. -/
theorem Reach.left [TreeNode M (List Nat × X)] (hp : PathsOk pth) (hv : ∀ m : M, (val m).1 = pth m) {root : M}
    {E : List (List Nat)} {L : List M} (h : Reach pth root E L) :
    (L.flatMap fun n => (treeOf n).leaves) = (treeOf root).leaves.filter fun x => x.1 ∉ E := by
  induction h with
  | start => simp [List.filter_eq_self.2]
  | @enter E n L h ih =>
    have ha := h.apart hp
    rw [List.map_cons, List.pairwise_cons] at ha
    have e1 : (L.flatMap fun n => (treeOf n).leaves) =
        (L.flatMap fun n => (treeOf n).leaves).filter fun x => x.1 ≠ pth n := by
      symm
      rw [List.filter_eq_self]
      intro x hx
      obtain ⟨m, hm, hx⟩ := List.mem_flatMap.1 hx
      have := leaf_path hp hv m x hx
      simp only [ne_eq, decide_not, Bool.not_eq_eq_eq_not, Bool.not_true, decide_eq_false_iff_not]
      intro h'
      rw [h'] at this
      exact (ha.1 (pth m) (List.mem_map_of_mem hm)).2 this
    have e2 : ((kids n).flatMap fun n => (treeOf n).leaves) = (treeOf n).leaves.filter fun x => x.1 ≠ pth n := by
      by_cases hk : kids n = []
      · rw [leaves_treeOf, if_pos hk, hk]
        simp [hv]
      · rw [leaves_treeOf n, if_neg hk]
        symm
        rw [List.filter_eq_self]
        intro x hx
        obtain ⟨c, hc, hx⟩ := List.mem_flatMap.1 hx
        have := (leaf_path hp hv c x hx).length_le
        obtain ⟨i, hi⟩ := kid_path hp hc
        simp only [ne_eq, decide_not, Bool.not_eq_eq_eq_not, Bool.not_true, decide_eq_false_iff_not]
        intro h'
        rw [h', hi] at this
        simp at this
        omega
    rw [List.flatMap_cons] at ih
    rw [List.flatMap_append, e1, e2, ← List.filter_append, ih, List.filter_filter]
    apply List.filter_congr
    intro x _
    simp

theorem Above.left [TreeNode M (List Nat × X)] (hp : PathsOk pth) (hv : ∀ m : M, (val m).1 = pth m) {root : M}
    {E : List (List Nat)} {L : List M} (h : Reach pth root E L) (hr : pth root = []) {vis : List (List Nat × X)}
    (ha : Above E vis) (hvis : ∀ y ∈ vis, y ∈ (treeOf root).preorder) :
    (L.flatMap fun n => (treeOf n).leaves) =
      (treeOf root).leaves.filter fun x => !vis.any fun y => x.1 == y.1 := by
  rw [h.left hp hv]
  apply List.filter_congr
  intro x hx
  have := ha.iff hp h hr x.1
  rw [Bool.eq_iff_iff]
  simp only [Bool.not_eq_eq_eq_not, Bool.not_true, this, List.any_eq_false, beq_iff_eq,
    not_exists, not_and, decide_eq_true_eq]
  constructor
  · intro h y hy e
    exact h y hy (e ▸ List.prefix_refl _)
  · intro h' y hy e
    exact h' y hy (leaf_prefix hp hv root x hx y (hvis y hy) e)

end Left

theorem topRem_sim {M : Type u} {W : Type v} [TreeNode M W] [TreeNode N V] (f : M → N) (g : W → V)
    (hv : ∀ m, val (f m) = g (val m)) (hk : ∀ m, kids (f m) = (kids m).map f) (st : List (List M)) :
    topRem (st.map (List.map f)) = (topRem st).map g := by
  have h : ∀ m : M, (treeOf (f m)).leaves = ((treeOf m).leaves).map g := by
    intro m
    rw [leaves_sim f g hv hk, Tree.leaves_map]
  simp [topRem, List.map_flatMap, List.flatMap_map, h]

/-- The pending leaves of an interrupted preorder traversal. -/
theorem preBottom [TreeNode N V] (n : N) (k : Nat) :
    (stateAfter Preorder.next (k + 1) (Preorder.new n)).root = none ∧
    botRem (stateAfter Preorder.next (k + 1) (Preorder.new n)).stack =
      ((treeOf (⟨[], n⟩ : At N)).leaves.filter fun x =>
        !((treeOf (⟨[], n⟩ : At N)).preorder.take (k + 1)).any fun y => x.1.dropLast.isPrefixOf y.1).map Prod.snd ∧
    topRem (stateAfter Preorder.next (k + 1) (Preorder.new n)).stack =
      ((treeOf (⟨[], n⟩ : At N)).leaves.filter fun x =>
        !((treeOf (⟨[], n⟩ : At N)).preorder.take (k + 1)).any fun y => x.1 == y.1).map Prod.snd := by
  have hs := pre_sim (N := N) (M := At N) At.node at_hk (k + 1) (Preorder.new ⟨[], n⟩)
  have hr := outs_rel (preRel_next (M := At N) (X := V) (pth := At.path) (fun m => rfl) ⟨[], n⟩ rfl) (.inl ⟨rfl, rfl⟩)
    (k + 1)
  have ho := outs_spec (next := Preorder.next (N := At N)) (fun _ => True) Preorder.rem
    (fun s _ => ⟨(Preorder.next_spec s).1, (Preorder.next_spec s).2, trivial⟩) (s := Preorder.new ⟨[], n⟩) trivial
    (k + 1)
  have e0 : Preorder.rem (Preorder.new (⟨[], n⟩ : At N)) = (treeOf (⟨[], n⟩ : At N)).preorder := by
    simp [Preorder.rem, Preorder.new]
  rw [e0] at ho
  rw [List.nil_append, ho] at hr
  have hs' : stateAfter Preorder.next (k + 1) (Preorder.new n) = _ := hs
  rw [hs']
  rcases hr with ⟨_, hr⟩ | ⟨h1, E, h2, h3⟩
  · rw [Preorder.preorder_treeOf] at hr
    simp at hr
  · refine ⟨by simp [h1], ?_, ?_⟩
    · rw [botRem_sim At.node Prod.snd (fun m => rfl) at_hk, bot_flatten,
        h3.bot at_pathsOk (fun m => rfl) h2 rfl]
    · rw [topRem_sim At.node Prod.snd (fun m => rfl) at_hk, topRem_flatten,
        h3.left at_pathsOk (fun m => rfl) h2 rfl fun y hy => List.mem_of_mem_take hy]

/-- The pending leaves of an interrupted postorder traversal. -/
theorem postBottom [TreeNode N V] (n : N) (k : Nat) :
    (stateAfter Postorder.next (k + 1) (Postorder.new n)).root = none ∧
    botRem (stateAfter Postorder.next (k + 1) (Postorder.new n)).stack =
      ((treeOf (⟨[], n⟩ : At N)).leaves.filter fun x =>
        !((treeOf (⟨[], n⟩ : At N)).postorder.take (k + 1)).any fun y => x.1.dropLast.isPrefixOf y.1).map Prod.snd ∧
    topRem (stateAfter Postorder.next (k + 1) (Postorder.new n)).stack =
      ((treeOf (⟨[], n⟩ : At N)).leaves.filter fun x =>
        !((treeOf (⟨[], n⟩ : At N)).postorder.take (k + 1)).any fun y => x.1 == y.1).map Prod.snd := by
  have hs := post_sim (N := N) (M := At N) At.node Prod.snd (fun m => rfl) at_hk (k + 1) (Postorder.new ⟨[], n⟩)
  have hr := outs_rel (postRel_next (M := At N) (X := V) (pth := At.path) (fun m => rfl) at_pathsOk ⟨[], n⟩ rfl)
    (.inl ⟨rfl, rfl⟩) (k + 1)
  have ho := outs_spec (next := Postorder.next (N := At N)) Postorder.Inv Postorder.rem Postorder.next_spec
    (s := Postorder.new ⟨[], n⟩) (by simp [Postorder.Inv, Postorder.new]) (k + 1)
  have e0 : Postorder.rem (Postorder.new (⟨[], n⟩ : At N)) = (treeOf (⟨[], n⟩ : At N)).postorder := by
    simp [Postorder.rem, Postorder.new]
  rw [e0] at ho
  rw [List.nil_append, ho] at hr
  have hs' : stateAfter Postorder.next (k + 1) (Postorder.new n) = _ := hs
  rw [hs']
  rcases hr with ⟨_, hr⟩ | ⟨h1, E, h2, _, h3⟩
  · rw [Postorder.postorder_treeOf] at hr
    simp at hr
  · refine ⟨by simp [h1], ?_, ?_⟩
    · simp only
      rw [botRem_sim At.node Prod.snd (fun m => rfl) at_hk, bot_flatten,
        h3.bot at_pathsOk (fun m => rfl) h2 rfl]
    · simp only
      rw [topRem_sim At.node Prod.snd (fun m => rfl) at_hk, topRem_flatten,
        h3.left at_pathsOk (fun m => rfl) h2 rfl fun y hy =>
          (postorder_perm_preorder _).mem_iff.1 (List.mem_of_mem_take hy)]

/-- The pending leaves of an interrupted in-order traversal. -/
theorem inBottom [BinNode N V] (n : N) (k : Nat) :
    (stateAfter Inorder.next (k + 1) (Inorder.new n)).moved = true ∧
    botRem ((stateAfter Inorder.next (k + 1) (Inorder.new n)).right.map Option.toList) =
      ((treeOf (⟨[], n⟩ : At2 N)).leaves.filter fun x =>
        !((binTreeOf (⟨[], n⟩ : At2 N)).inorder.take (k + 1)).any fun y => x.1.dropLast.isPrefixOf y.1).map Prod.snd ∧
    topRem ((stateAfter Inorder.next (k + 1) (Inorder.new n)).right.map Option.toList) =
      ((treeOf (⟨[], n⟩ : At2 N)).leaves.filter fun x =>
        !((binTreeOf (⟨[], n⟩ : At2 N)).inorder.take (k + 1)).any fun y => x.1 == y.1).map Prod.snd := by
  have hs := in_sim (N := N) (M := At2 N) At2.node Prod.snd
    (fun m => by simp [split2, Option.map_map, Function.comp_def]; rfl) (k + 1) (Inorder.new ⟨[], n⟩)
  have hr := outs_rel (inRel_next (M := At2 N) (X := V) (pth := At2.path) (fun m => rfl) at2_pathsOk ⟨[], n⟩ rfl)
    (.inl ⟨rfl, rfl⟩) (k + 1)
  have ho := outs_spec (next := Inorder.next (N := At2 N)) Inorder.Inv Inorder.rem Inorder.next_spec
    (s := Inorder.new ⟨[], n⟩) (by simp [Inorder.Inv, Inorder.new]) (k + 1)
  have e0 : Inorder.rem (Inorder.new (⟨[], n⟩ : At2 N)) = (binTreeOf (⟨[], n⟩ : At2 N)).inorder := by
    simp [Inorder.rem, Inorder.new, Inorder.inO, Inorder.remZ]
  rw [e0] at ho
  rw [List.nil_append, ho] at hr
  have hs' : stateAfter Inorder.next (k + 1) (Inorder.new n) = _ := hs
  rw [hs']
  rcases hr with ⟨_, hr⟩ | ⟨h1, E, h2, _, h3⟩
  · rw [Inorder.inorder_binTreeOf] at hr
    simp at hr
  · refine ⟨by simp [h1], ?_⟩
    have e : ∀ right : List (Option (At2 N)), (right.map (Option.map At2.node)).map Option.toList =
        (right.map Option.toList).map (List.map At2.node) := by
      intro right
      simp only [List.map_map]
      apply List.map_congr_left
      intro o _
      cases o <;> rfl
    refine ⟨?_, ?_⟩
    · simp only
      rw [e, botRem_sim At2.node Prod.snd (fun m => rfl) at2_hk, bot_flatten, ← slotNodes,
        h3.bot at2_pathsOk (fun m => rfl) h2 rfl]
    · simp only
      rw [e, topRem_sim At2.node Prod.snd (fun m => rfl) at2_hk, topRem_flatten, ← slotNodes,
        h3.left at2_pathsOk (fun m => rfl) h2 rfl fun y hy => by
          rw [treeOf_eq_toTree]
          exact (inorder_perm_preorder _).mem_iff.1 (List.mem_of_mem_take hy)]

end Leaves

end TreeIter
