import Verif.Lemmas.FailGet
import Verif.Lemmas.FailTrees

/-! # What iterators with ancestors show after panics of the user's code -/

universe u v w x

namespace TreeIter

namespace Fail

variable {N : Type u} {V : Type v}

/-! ## What is shown, as trees -/

/-- The slice `get` hands out for a list of items, the last first. -/
def sliceOf (anc : List V) : Option (List V) := if anc = [] then none else some anc

/-- What is shown after the call that reaches the node at the position. -/
def shownPos [TreeNode N V] (bad : N → Bool) (p : Pos N) : Option (List V) :=
  if bad p.item then p.parentSlice else some (p.ancestors.map val)

mutual
/-- What is shown at the nodes below `anc`. -/
def showA [TreeNode N V] (bad : N → Bool) (anc : List V) : Tree N → Tree (Option (List V))
  | .node n cs =>
    if bad n then .node (sliceOf anc) [] else .node (some (anc ++ [val n])) (showAL bad (anc ++ [val n]) cs)
/-- Forest version. -/
def showAL [TreeNode N V] (bad : N → Bool) (anc : List V) : List (Tree N) → List (Tree (Option (List V)))
  | [] => []
  | t :: ts => showA bad anc t :: showAL bad anc ts
end

theorem showAL_eq [TreeNode N V] (bad : N → Bool) (anc : List V) (ts : List (Tree N)) :
    showAL bad anc ts = ts.map (showA bad anc) := by
  induction ts with
  | nil => rfl
  | cons t ts ih => rw [showAL, ih, List.map_cons]

/-- What is shown at the subtree of a node below `anc`. -/
def shwA [TreeNode N V] (bad : N → Bool) (anc : List V) (n : N) : Tree (Option (List V)) := showA bad anc (unfold n)

theorem shwA_eq [TreeNode N V] (bad : N → Bool) (anc : List V) (n : N) :
    shwA bad anc n =
      if bad n then .node (sliceOf anc) [] else .node (some (anc ++ [val n])) ((kids n).map (shwA bad (anc ++ [val n]))) := by
  rw [shwA, unfold_eq, showA, showAL_eq, List.map_map]
  rfl

theorem shownPos_withPos [TreeNode N V] (bad : N → Bool) (t : Tree N) (path : List Nat) (anc : List N)
    (hp : path = [] ↔ anc = []) :
    ((t.crop bad).withPos path anc).map (shownPos bad) = showA bad (anc.map val) t := by
  induction t using Tree.ind generalizing path anc with
  | h n cs ih =>
    rw [Tree.crop, Tree.withPos, showA, Tree.map_node, shownPos]
    by_cases hb : bad n
    · simp only [hb, if_true, Tree.withPosL, List.map_nil, Pos.parentSlice, List.dropLast_concat, sliceOf, hp,
        List.map_eq_nil_iff]
    · simp only [hb, Bool.false_eq_true, if_false, Tree.cropL_eq, showAL_eq]
      congr 1
      · simp
      · suffices h : ∀ (i : Nat) (anc : List N), anc ≠ [] → (Tree.withPosL path anc i (cs.map (Tree.crop bad))).map
            (Tree.map (shownPos bad)) = cs.map (showA bad (anc.map val)) by
          rw [h 0 (anc ++ [n]) (by simp)]
          simp
        intro i anc ha
        induction cs generalizing i with
        | nil => rfl
        | cons c cs ih' =>
          rw [List.map_cons, Tree.withPosL, List.map_cons, List.map_cons, ih c (by simp) _ _ (by simp [ha]),
            ih' fun c hc => ih c (by simp [hc])]

theorem located_shwA [TreeNode N V] (bad : N → Bool) (n : N) :
    (((unfold n).crop bad).located).map (shownPos bad) = shwA (V := V) bad [] n := by
  rw [Tree.located, shownPos_withPos _ _ _ _ (by simp)]
  rfl

/-! ## Preorder -/

/-- `next` followed by `get`, while there are nodes. -/
def preShowNext [TreeNode N V] (bad : N → Bool) (s : Preorder.AncState N V) :
    Option (Option (List V)) × Preorder.AncState N V :=
  ((preAncNext bad s).1.map fun _ => Preorder.ancGet (preAncNext bad s).2, (preAncNext bad s).2)

theorem stateAfter_congr {S : Type u} {O : Type v} {P : Type w} (f : S → Option O × S) (g : S → Option P × S)
    (h : ∀ s, (f s).2 = (g s).2) (k : Nat) (s : S) : stateAfter f k s = stateAfter g k s := by
  induction k generalizing s with
  | zero => rfl
  | succ k ih => rw [stateAfter, stateAfter, h, ih]

theorem stateAfter_succ_last {S : Type u} {O : Type v} (f : S → Option O × S) (k : Nat) (s : S) :
    stateAfter f (k + 1) s = (f (stateAfter f k s)).2 := by
  induction k generalizing s with
  | zero => rfl
  | succ k ih => rw [stateAfter, ih]; rfl

/-- Slices still to be shown from the stack. -/
def preShwRemS [TreeNode N V] (bad : N → Bool) : List (List N) → List V → List (Option (List V))
  | [], _ => []
  | ns :: rest, it => (ns.flatMap fun n => (shwA bad it.reverse n).preorder) ++ preShwRemS bad rest it.tail

/-- Slices still to be shown. -/
def preShwRem [TreeNode N V] (bad : N → Bool) (s : Preorder.AncState N V) : List (Option (List V)) :=
  (match s.root with | some r => (shwA bad s.items.reverse r).preorder | none => []) ++
    preShwRemS bad s.stack s.items

theorem preorder_shwA [TreeNode N V] (bad : N → Bool) (anc : List V) (n : N) :
    (shwA bad anc n).preorder =
      if bad n then [sliceOf anc]
      else some (anc ++ [val n]) :: (kids n).flatMap fun c => (shwA bad (anc ++ [val n]) c).preorder := by
  rw [shwA_eq]
  split
  · simp [Tree.preorder_node]
  · rw [Tree.preorder_node, List.flatMap_map]

theorem preShowNext_spec [TreeNode N V] (bad : N → Bool) (s : Preorder.AncState N V) (h : Preorder.AncInv s) :
    (preShowNext bad s).1 = (preShwRem bad s).head? ∧
      preShwRem bad (preShowNext bad s).2 = (preShwRem bad s).tail ∧ Preorder.AncInv (preShowNext bad s).2 := by
  obtain ⟨root, stack, items⟩ := s
  obtain ⟨h1, h2⟩ := h
  simp only at h1 h2
  cases root with
  | some r =>
    obtain rfl := h2 (by simp)
    obtain rfl : items = [] := by simpa using h1
    by_cases hb : bad r <;> simp [preShowNext, preAncNext, streamNext, preAncAdvance, Preorder.ancGet, preShwRem,
      preShwRemS, preorder_shwA bad [] r, Preorder.AncInv, hb, sliceOf]
  | none =>
    induction stack generalizing items with
    | nil =>
      obtain rfl : items = [] := by simpa using h1
      simp [preShowNext, preAncNext, streamNext, preAncAdvance, Preorder.ancGet, preShwRem, preShwRemS, Preorder.ancLoop,
        Preorder.AncInv]
    | cons ns rest ih =>
      cases items with
      | nil => simp at h1
      | cons a items =>
      cases ns with
      | nil =>
        have := ih items (by simpa using h1) (by simp)
        simpa [preShowNext, preAncNext, streamNext, preAncAdvance, Preorder.ancGet, preShwRem, preShwRemS,
          Preorder.ancLoop] using this
      | cons n ns =>
        have h1' : items.length = rest.length := by simpa using h1
        by_cases hb : bad n <;> simp [preShowNext, preAncNext, streamNext, preAncAdvance, Preorder.ancGet, preShwRem,
          preShwRemS, Preorder.ancLoop, preorder_shwA bad _ n, Preorder.AncInv, hb, h1', sliceOf]

/-! ## Breadth-first -/

/-- `next` followed by `get`, while there are nodes. -/
def bfsShowNext [TreeNode N V] (bad : N → Bool) (s : Bfs.AncState N V) :
    Except Panic (Option (Option (List V)) × Bfs.AncState N V) :=
  match bfsAncNext bad s with
  | .error e => .error e
  | .ok (o, s') => .ok (o.map fun _ => Bfs.ancGet s', s')

theorem stateAfterE_congr {S : Type u} {O : Type v} {P : Type w} (f : S → Except Panic (Option O × S))
    (g : S → Except Panic (Option P × S)) (h : ∀ s, (f s).map Prod.snd = (g s).map Prod.snd) (k : Nat) (s : S) :
    stateAfterE f k s = stateAfterE g k s := by
  induction k generalizing s with
  | zero => rfl
  | succ k ih =>
    have := h s
    rw [stateAfterE, stateAfterE]
    cases hf : f s with
    | error e =>
      cases hg : g s with
      | error e' => rw [hf, hg] at this; simpa [Except.map] using this
      | ok r => rw [hf, hg] at this; simp [Except.map] at this
    | ok r =>
      cases hg : g s with
      | error e' => rw [hf, hg] at this; simp [Except.map] at this
      | ok r' =>
        rw [hf, hg] at this
        obtain ⟨o, s1⟩ := r
        obtain ⟨o', s2⟩ := r'
        simp only [Except.map, Except.ok.injEq] at this
        subst this
        exact ih _

/-- The trees still to be shown. -/
def pendS [TreeNode N V] (bad : N → Bool) : List (List V) → List (List N) → List (Tree (Option (List V)))
  | p :: ps, ns :: q => ns.map (shwA bad p.reverse) ++ pendS bad ps q
  | _, _ => []

theorem pendS_append [TreeNode N V] (bad : N → Bool) (ps : List (List V)) (q : List (List N)) (p : List V) (ns : List N)
    (h : ps.length = q.length) :
    pendS bad (ps ++ [p]) (q ++ [ns]) = pendS bad ps q ++ ns.map (shwA bad p.reverse) := by
  induction ps generalizing q with
  | nil =>
    cases q with
    | nil => simp [pendS]
    | cons a q => simp at h
  | cons a ps ih =>
    cases q with
    | nil => simp at h
    | cons b q => simp [pendS, ih q (by simpa using h)]

/-- Between two calls, after the root was handed out. -/
def RunS [TreeNode N V] (bad : N → Bool) (cs : Bfs.CacheState V) (queue : List (List N))
    (ts : List (Tree (Option (List V)))) : Prop :=
  ∃ z : Bfs.Zip V, Bfs.settle cs = .ok z.enc ∧ queue.length = (z.cur :: z.others).length ∧
    Bfs.Levels (z.cur :: z.others) ∧ ts = pendS bad (z.cur :: z.others) queue

theorem bfsAncLoop_show [TreeNode N V] (bad : N → Bool) (queue : List (List N)) (cs : Bfs.CacheState V)
    (ts : List (Tree (Option (List V)))) (h : RunS bad cs queue ts) :
    ∃ b s', bfsAncLoop bad queue cs = .ok (b, s') ∧ s'.isRoot = false ∧
      (ts = [] → b = false ∧ s'.cs.items = []) ∧
      ∀ o us rest, ts = .node o us :: rest →
        o = Bfs.ancGet s' ∧ (b = false → o ≠ none) ∧ RunS bad s'.cs s'.queue (rest ++ us) := by
  induction queue generalizing cs with
  | nil =>
    obtain ⟨z, _, h2, _⟩ := h
    simp at h2
  | cons it q ih =>
    obtain ⟨z, h1, h2, h3, h4⟩ := h
    cases it with
    | cons n ns =>
      by_cases hb : bad n
      · refine ⟨true, ⟨false, z.enc, ns :: q⟩, ?_, rfl, ?_, ?_⟩
        · rw [bfsAncLoop, h1]
          simp [hb]
        · intro h
          simp [h4, pendS] at h
        · intro o us rest h
          rw [h4, pendS, List.map_cons, shwA_eq, if_pos hb, List.cons_append] at h
          obtain ⟨⟨rfl, rfl⟩, rfl⟩ : (_ ∧ _) ∧ _ := by simpa only [List.cons.injEq, Tree.node.injEq] using h
          refine ⟨?_, by simp, z, Bfs.settle_enc z, by simpa using h2, h3, ?_⟩
          · rw [Bfs.ancGet, Bfs.Zip.items_enc, sliceOf]
            cases z.cur <;> simp
          · simp [pendS]
      · refine ⟨false, ⟨false, { z.enc with items := val n :: z.enc.items }, (ns :: q) ++ [kids n]⟩, ?_, rfl, ?_, ?_⟩
        · rw [bfsAncLoop, h1]
          simp [hb]
        · intro h
          simp [h4, pendS] at h
        · intro o us rest h
          rw [h4, pendS, List.map_cons, shwA_eq, if_neg hb, List.cons_append] at h
          obtain ⟨⟨rfl, rfl⟩, rfl⟩ : (_ ∧ _) ∧ _ := by simpa only [List.cons.injEq, Tree.node.injEq] using h
          refine ⟨by simp [Bfs.ancGet, Bfs.Zip.items_enc], by simp, z.push (val n), Bfs.settle_push z (val n), ?_, ?_, ?_⟩
          · simp only [Bfs.Zip.cur_push, Bfs.Zip.others_push, List.length_append, List.length_cons,
              List.length_nil] at h2 ⊢
            omega
          · rw [Bfs.Zip.cur_push, Bfs.Zip.others_push]
            exact h3.push _
          · rw [Bfs.Zip.cur_push, Bfs.Zip.others_push, ← List.cons_append,
              pendS_append _ _ _ _ _ (by simpa using h2.symm)]
            simp [pendS]
    | nil =>
      obtain ⟨r1, r2⟩ := Bfs.retire_spec z h3.le
      by_cases hq : q = []
      · have ho : z.others = [] := by simpa [hq] using h2.symm
        obtain ⟨s, hs⟩ := r1 ho
        refine ⟨false, ⟨false, { s with items := [] }, []⟩, ?_, rfl, fun _ => ⟨rfl, rfl⟩, ?_⟩
        · rw [bfsAncLoop, h1]
          simp [hs, hq]
        · intro o us rest h
          rw [h4, ho, hq] at h
          simp [pendS] at h
      · obtain ⟨z', e1, e2⟩ := r2 (by
          intro h'
          simp [h', hq] at h2)
        have e3 : bfsAncLoop bad ([] :: q) cs = bfsAncLoop bad q z'.enc := by
          rw [bfsAncLoop, h1]
          simp [e1, hq]
        rw [e3]
        refine ih z'.enc ⟨z', Bfs.settle_enc z', ?_, ?_, ?_⟩
        · rw [e2]; simpa using h2
        · rw [e2]; exact h3.tail
        · rw [e2, h4]; simp [pendS]

/-- States and the slices they have yet to show. -/
def BfsShowRel [TreeNode N V] (bad : N → Bool) (s : Bfs.AncState N V) (l : List (Option (List V))) : Prop :=
  match s.isRoot with
  | true => ∃ v q, s.cs = (Bfs.Zip.root v []).enc ∧ s.queue = [q] ∧ l = some [v] :: bfsF (q.map (shwA bad [v]))
  | false => ∃ ts, RunS bad s.cs s.queue ts ∧ l = bfsF ts

theorem bfsShowNext_spec [TreeNode N V] (bad : N → Bool) (s : Bfs.AncState N V) (l : List (Option (List V)))
    (h : BfsShowRel bad s l) : ∃ s', bfsShowNext bad s = .ok (l.head?, s') ∧ (l ≠ [] → BfsShowRel bad s' l.tail) := by
  obtain ⟨isRoot, cs, queue⟩ := s
  cases isRoot with
  | true =>
    obtain ⟨v, q, h1, h2, h3⟩ := h
    simp only at h1 h2
    subst h1 h2 h3
    refine ⟨⟨false, (Bfs.Zip.root v []).enc, [q]⟩, ?_, fun _ => ⟨_, ?_, rfl⟩⟩
    · simp [bfsShowNext, bfsAncNext, streamNextE, bfsAncAdvance, Bfs.ancGet, Bfs.Zip.items_enc, Bfs.Zip.cur]
    · exact ⟨.root v [], Bfs.settle_enc _, rfl, ⟨by simp [Bfs.Zip.cur, Bfs.Zip.others], by simp [Bfs.Zip.others]⟩,
        by simp [Bfs.Zip.cur, Bfs.Zip.others, pendS]⟩
  | false =>
    obtain ⟨ts, h, rfl⟩ := h
    obtain ⟨b, s', e1, e2, e3, e4⟩ := bfsAncLoop_show bad queue cs ts h
    cases ts with
    | nil =>
      obtain ⟨rfl, e5⟩ := e3 rfl
      exact ⟨s', by simp [bfsShowNext, bfsAncNext, streamNextE, bfsAncAdvance, e1, Bfs.ancGet, e5], by simp⟩
    | cons t ts =>
      obtain ⟨o, us⟩ := t
      obtain ⟨f1, f2, f3⟩ := e4 o us ts rfl
      refine ⟨s', ?_, fun _ => ?_⟩
      · cases b with
        | true => simp [bfsShowNext, bfsAncNext, streamNextE, bfsAncAdvance, e1, bfsF_cons, f1]
        | false =>
          have f2' := f2 rfl
          rw [f1] at f2'
          obtain ⟨x, hx⟩ := Option.ne_none_iff_exists'.1 f2'
          simp [bfsShowNext, bfsAncNext, streamNextE, bfsAncAdvance, e1, bfsF_cons, f1, hx]
      · rw [BfsShowRel, e2]
        exact ⟨_, f3, by rw [bfsF_cons, List.tail_cons]⟩

/-! ## Postorder and leaves, up to the first panic -/

/-- What is left of a slice over the cropped tree. -/
def leftL [TreeNode N V] (x : List N) : Option (List V) := if x.length ≤ 1 then none else some (x.dropLast.map val)

theorem streamNext_failed {S : Type u} {O : Type v} {advance : S → Bool × S} {get : S → Option O}
    {s : S} (hs : (streamNext advance get s).1 = some none) : (advance s).1 = true := by
  rw [streamNext] at hs
  rcases h : advance s with ⟨_ | _, s1⟩
  · rw [h] at hs
    simp only at hs
    cases hg : get s1 <;> rw [hg] at hs <;> simp at hs
  · rfl

theorem streamNext_snd {S : Type u} {O : Type v} (advance : S → Bool × S) (get : S → Option O) (s : S) :
    (streamNext advance get s).2 = (advance s).2 := by
  rw [streamNext]
  rcases advance s with ⟨_ | _, s1⟩ <;> rfl

theorem postAncLoop_left [TreeNode N V] (bad : N → Bool) (stack : List (List (Crop bad))) (items : List N)
    (hs : (postAncLoop bad (nodes stack) (items.map (val : N → V))).1 = true) :
    (postAncLoop bad (nodes stack) (items.map (val : N → V))).2.1 = (Postorder.ancLoop stack items).1.tail.map val := by
  fun_induction Postorder.ancLoop stack items with
  | case1 items => simp [postAncLoop] at hs
  | case2 rest items => simp [postAncLoop] at hs
  | case3 n ns rest items ih =>
    rw [val_crop] at ih ⊢
    by_cases hb : bad n.node = true
    · rw [kids_bad n hb, Postorder.ancLoop]
      simp [postAncLoop, hb]
    · have hb' : bad n.node = false := by simpa using hb
      have e : postAncLoop bad (nodes ((n :: ns) :: rest)) (items.map (val : N → V)) =
          postAncLoop bad (nodes (kids n :: ns :: rest)) ((n.node :: items).map val) := by
        simp only [List.map_cons]
        rw [postAncLoop, if_neg hb, kids_good n hb']
      rw [e] at hs ⊢
      exact ih hs

/-- States before any panic; nothing has been handed out while the root is there. -/
def PostAncR' [TreeNode N V] (bad : N → Bool) (c : Postorder.AncState (Crop bad) N) (s : Postorder.AncState N V) : Prop :=
  PostAncR bad c s ∧ (c.root ≠ none → c.items = [])

theorem postAnc_step' [TreeNode N V] (bad : N → Bool) (c : Postorder.AncState (Crop bad) N) (s : Postorder.AncState N V)
    (h : PostAncR' bad c s) : (postAncNext bad s).1 = (Postorder.ancNext c).1.map (repL bad) ∧
      ((postAncNext bad s).1 ≠ some none → PostAncR' bad (Postorder.ancNext c).2 (postAncNext bad s).2) := by
  obtain ⟨h1, h2⟩ := postAnc_step bad c s h.1
  refine ⟨h1, fun h3 => ⟨h2 h3, fun h4 => absurd ?_ h4⟩⟩
  rw [Postorder.ancNext, TreeIter.streamNext]
  simp only [Postorder.ancAdvance]

/-- What a panic leaves to be seen. -/
theorem postAnc_left [TreeNode N V] (bad : N → Bool) (c : Postorder.AncState (Crop bad) N) (s : Postorder.AncState N V)
    (x : List N) (h : PostAncR' bad c s) (hc : (Postorder.ancNext c).1 = some x)
    (hs : (postAncNext bad s).1 = some none) : Postorder.ancGet (postAncNext bad s).2 = leftL x := by
  have hs' := streamNext_failed hs
  rw [postAncNext, streamNext_snd]
  rw [Postorder.ancNext, TreeIter.streamNext] at hc
  simp only at hc
  obtain ⟨⟨rfl, hg⟩, hr⟩ := h
  obtain ⟨root, items, stack⟩ := c
  have fin : ∀ (l : List N) (r : Postorder.AncState N V), Postorder.ancGet (⟨none, l, []⟩ : Postorder.AncState (Crop bad) N) =
      some x → r.items = l.tail.map val → Postorder.ancGet r = leftL x := by
    intro l r h1 h2
    rw [Postorder.ancGet] at h1 ⊢
    rw [h2]
    rcases l with _ | ⟨a, _ | ⟨b, l⟩⟩
    · simp at h1
    · simp at h1
      subst h1
      simp [leftL]
    · simp at h1
      subst h1
      rw [leftL]
      simp
  simp only at hg hr
  cases root with
  | none =>
    simp only [postAncAdvance, Option.map_none, ← List.map_tail] at hs' ⊢
    exact fin (Postorder.ancLoop stack items.tail).1 _ hc (postAncLoop_left bad _ _ hs')
  | some r =>
    obtain rfl := hr (by simp)
    by_cases hb : bad r.node = true
    · simp only [Postorder.ancAdvance, kids_bad r hb, Postorder.ancLoop] at hc
      exact fin [r.node] _ hc (by simp [postAncAdvance, hb])
    · have hb' : bad r.node = false := by simpa using hb
      have e : postAncAdvance bad (⟨some r.node, [], nodes stack⟩ : Postorder.AncState N V) =
          ((postAncLoop bad (nodes (kids r :: stack)) ([r.node].map val)).1,
            ⟨none, (postAncLoop bad (nodes (kids r :: stack)) ([r.node].map val)).2.1,
              (postAncLoop bad (nodes (kids r :: stack)) ([r.node].map val)).2.2⟩) := by
        rw [postAncAdvance]
        simp [hb', kids_good r hb']
      simp only [Option.map_some, List.map_nil] at hs' ⊢
      rw [e] at hs' ⊢
      exact fin (Postorder.ancLoop (kids r :: stack) [r.node]).1 _ hc (postAncLoop_left bad _ _ hs')

/-- The states before and after the first panic. -/
theorem states_until_fail {S : Type u} {C : Type v} {P : Type w} {O : Type x} {next : S → Option (Option O) × S}
    {nextC : C → Option P × C} (f : P → Option O) (R : C → S → Prop)
    (step : ∀ c s, R c s → (next s).1 = (nextC c).1.map f ∧ ((next s).1 ≠ some none → R (nextC c).2 (next s).2))
    (k : Nat) (c : C) (s : S) (h : R c s) (l : List P) (hl : ∀ j, nthCall nextC j c = l[j]?)
    (hg : ∀ j < k, (l.map f)[j]? ≠ some none) :
    ∃ c' s', R c' s' ∧ (nextC c').1 = l[k]? ∧ stateAfter next (k + 1) s = (next s').2 ∧ (next s').1 = (l.map f)[k]? := by
  induction k generalizing c s l with
  | zero =>
    have h0 := hl 0
    rw [nthCall, stateAfter] at h0
    exact ⟨c, s, h, h0, rfl, by rw [(step c s h).1, h0, List.getElem?_map]⟩
  | succ k ih =>
    have h0 := hl 0
    rw [nthCall, stateAfter] at h0
    obtain ⟨h1, h2⟩ := step c s h
    have h3 : (next s).1 ≠ some none := by
      rw [h1, h0, ← List.getElem?_map]
      exact hg 0 (by omega)
    obtain ⟨c', s', e1, e2, e3, e4⟩ := ih _ _ (h2 h3) l.tail (fun j => by rw [List.getElem?_tail]; exact hl (j + 1))
      (fun j hj => by rw [List.map_tail, List.getElem?_tail]; exact hg (j + 1) (by omega))
    rw [List.getElem?_tail] at e2
    rw [List.map_tail, List.getElem?_tail] at e4
    exact ⟨c', s', e1, e2, e3, e4⟩

/-! ## Leaves with ancestors -/

theorem leavesAncLoop_left [TreeNode N V] (bad : N → Bool) (old new : List (List (Crop bad))) (items : List N)
    (pushed : Bool) (h : ∀ x ∈ items, bad x = false)
    (hs : (leavesAncLoop bad (nodes old) (nodes new) (items.map (val : N → V)) pushed).1 = true) :
    (leavesAncLoop bad (nodes old) (nodes new) (items.map (val : N → V)) pushed).2.items =
      (Leaves.ancLoop old new items pushed).items.tail.map val := by
  have hp : ∀ (o nw : List (List (Crop bad))) (its : List N), Leaves.ancLoop o ([] :: nw) its true =
      ⟨none, its, o, nw⟩ := by
    intro o nw its
    rw [Leaves.ancLoop.eq_def]
    simp
  fun_induction Leaves.ancLoop old new items pushed with
  | case1 old items pushed n ns new ih =>
    rw [val_crop] at ih ⊢
    by_cases hb : bad n.node = true
    · rw [kids_bad n hb, hp, leavesAncLoop.eq_def]
      simp [hb]
    · have hb' : bad n.node = false := by simpa using hb
      have e : leavesAncLoop bad (nodes old) (nodes ((n :: ns) :: new)) (items.map (val : N → V)) pushed =
          leavesAncLoop bad (nodes old) (nodes (kids n :: ns :: new)) ((n.node :: items).map val) true := by
        conv_lhs => rw [leavesAncLoop.eq_def]
        simp [hb', kids_good n hb']
      rw [e] at hs ⊢
      exact ih (by simpa [hb'] using h) hs
  | case2 old items new hn =>
    exfalso
    rw [leavesAncLoop.eq_def] at hs
    rcases new with _ | ⟨_ | ⟨n, ns⟩, new⟩
    · simp at hs
    · simp at hs
    · exact absurd rfl (hn n ns new)
  | case3 items pushed new hn hpu n ns old ih =>
    rw [val_crop] at ih ⊢
    have hpu' : pushed = false := by simpa using hpu
    subst hpu'
    have hnew : nodes new = [] ∨ ∃ nw, nodes new = [] :: nw := by
      rcases new with _ | ⟨_ | ⟨m, ms⟩, new⟩
      · simp
      · simp
      · exact absurd rfl (hn m ms new)
    by_cases hb : bad n.node = true
    · rw [kids_bad n hb, hp, leavesAncLoop.eq_def]
      rcases hnew with e | ⟨nw, e⟩ <;> simp [e, hb]
    · have hb' : bad n.node = false := by simpa using hb
      have e : leavesAncLoop bad (nodes ((n :: ns) :: old)) (nodes new) (items.map (val : N → V)) false =
          leavesAncLoop bad (nodes (ns :: old)) (nodes (kids n :: new.tail)) ((n.node :: items).map val) true := by
        have hk : nodes (kids n :: new.tail) = kids n.node :: (nodes new).tail := by
          rw [nodes, List.map_cons, kids_good n hb', List.map_tail]
        rw [hk]
        conv_lhs => rw [leavesAncLoop.eq_def]
        rcases hnew with e | ⟨nw, e⟩ <;> simp [e, hb']
      rw [e] at hs ⊢
      exact ih (by simpa [hb'] using h) hs
  | case4 items pushed new hn hpu old ho hi =>
    exfalso
    have hpu' : pushed = false := by simpa using hpu
    subst hpu'
    have hi' : (items.map (val : N → V)).tail = [] := by rw [val_map_tail, hi]; rfl
    have e : leavesAncLoop bad (nodes old) (nodes new) (items.map (val : N → V)) false =
        (false, ⟨none, [], nodes old.tail, nodes new.tail⟩) := by
      rw [leavesAncLoop.eq_def]
      rcases new with _ | ⟨_ | ⟨n, ns⟩, new⟩
      · rcases old with _ | ⟨_ | ⟨m, ms⟩, old⟩
        · simp only [List.map_nil, Bool.false_eq_true, if_false]; split <;> simp_all
        · simp only [List.map_cons, List.map_nil, Bool.false_eq_true, if_false]; split <;> simp_all
        · exact absurd rfl (ho m ms old)
      · rcases old with _ | ⟨_ | ⟨m, ms⟩, old⟩
        · simp only [List.map_cons, List.map_nil, Bool.false_eq_true, if_false]; split <;> simp_all
        · simp only [List.map_cons, List.map_nil, Bool.false_eq_true, if_false]; split <;> simp_all
        · exact absurd rfl (ho m ms old)
      · exact absurd rfl (hn n ns new)
    rw [e] at hs
    cases hs
  | case5 items pushed new hn hpu old ho i is hi ih =>
    have hpu' : pushed = false := by simpa using hpu
    subst hpu'
    have hi' : (items.map (val : N → V)).tail = val i :: is.map val := by rw [val_map_tail, hi]; rfl
    have e : leavesAncLoop bad (nodes old) (nodes new) (items.map (val : N → V)) false =
        leavesAncLoop bad (nodes old.tail) (nodes new.tail) ((i :: is).map val) false := by
      rw [leavesAncLoop.eq_def]
      rcases new with _ | ⟨_ | ⟨n, ns⟩, new⟩
      · rcases old with _ | ⟨_ | ⟨m, ms⟩, old⟩
        · simp only [List.map_nil, Bool.false_eq_true, if_false]; split <;> simp_all
        · simp only [List.map_cons, List.map_nil, Bool.false_eq_true, if_false]; split <;> simp_all
        · exact absurd rfl (ho m ms old)
      · rcases old with _ | ⟨_ | ⟨m, ms⟩, old⟩
        · simp only [List.map_cons, List.map_nil, Bool.false_eq_true, if_false]; split <;> simp_all
        · simp only [List.map_cons, List.map_nil, Bool.false_eq_true, if_false]; split <;> simp_all
        · exact absurd rfl (ho m ms old)
      · exact absurd rfl (hn n ns new)
    rw [e] at hs ⊢
    exact ih (fun x hx => h x (List.mem_of_mem_tail (hi ▸ hx))) hs

/-- States before any panic; nothing has been handed out while the root is there. -/
def LvAncR' [TreeNode N V] (bad : N → Bool) (c : Leaves.AncState (Crop bad) N) (s : Leaves.AncState N V) : Prop :=
  LvAncR bad c s ∧ (c.root ≠ none → c.items = [])

theorem lvAncLoop_root [TreeNode N V] (old new : List (List N)) (items : List V) (pushed : Bool) :
    (Leaves.ancLoop old new items pushed).root = none := by
  fun_induction Leaves.ancLoop old new items pushed <;> simp_all

theorem leavesAnc_step' [TreeNode N V] (bad : N → Bool) (c : Leaves.AncState (Crop bad) N) (s : Leaves.AncState N V)
    (h : LvAncR' bad c s) : (leavesAncNext bad s).1 = (Leaves.ancNext c).1.map (repL bad) ∧
      ((leavesAncNext bad s).1 ≠ some none → LvAncR' bad (Leaves.ancNext c).2 (leavesAncNext bad s).2) := by
  obtain ⟨h1, h2⟩ := leavesAnc_step bad c s h.1
  refine ⟨h1, fun h3 => ⟨h2 h3, fun h4 => absurd ?_ h4⟩⟩
  rw [Leaves.ancNext, TreeIter.streamNext]
  simp only [Leaves.ancAdvance]
  cases c.root <;> exact lvAncLoop_root _ _ _ _

/-- What a panic leaves to be seen. -/
theorem leavesAnc_left [TreeNode N V] (bad : N → Bool) (c : Leaves.AncState (Crop bad) N) (s : Leaves.AncState N V)
    (x : List N) (h : LvAncR' bad c s) (hc : (Leaves.ancNext c).1 = some x)
    (hs : (leavesAncNext bad s).1 = some none) : Leaves.ancGet (leavesAncNext bad s).2 = leftL x := by
  have hs' := streamNext_failed hs
  rw [leavesAncNext, streamNext_snd]
  rw [Leaves.ancNext, TreeIter.streamNext] at hc
  simp only at hc
  obtain ⟨⟨rfl, hg⟩, hr⟩ := h
  obtain ⟨root, items, old, new⟩ := c
  have fin : ∀ (l : Leaves.AncState (Crop bad) N) (r : Leaves.AncState N V), Leaves.ancGet l = some x →
      r.items = l.items.tail.map val → Leaves.ancGet r = leftL x := by
    intro l r h1 h2
    rw [Leaves.ancGet] at h1 ⊢
    rw [h2]
    generalize l.items = its at h1 h2 ⊢
    rcases its with _ | ⟨a, _ | ⟨b, l⟩⟩
    · simp at h1
    · simp at h1
      subst h1
      simp [leftL]
    · simp at h1
      subst h1
      rw [leftL]
      simp
  simp only at hg hr
  cases root with
  | none =>
    simp only [leavesAncAdvance, Option.map_none, ← List.map_tail] at hs' ⊢
    exact fin _ _ hc (leavesAncLoop_left bad _ _ _ _ (fun x hx => hg x (List.mem_of_mem_tail hx)) hs')
  | some r =>
    obtain rfl := hr (by simp)
    by_cases hb : bad r.node = true
    · rw [Leaves.ancAdvance] at hc
      simp only [kids_bad r hb] at hc
      rw [Leaves.ancLoop.eq_def] at hc
      exact fin _ _ hc (by simp [leavesAncAdvance, hb])
    · have hb' : bad r.node = false := by simpa using hb
      have e : leavesAncAdvance bad (⟨some r.node, [], nodes old, nodes new⟩ : Leaves.AncState N V) =
          leavesAncLoop bad (nodes old) (nodes (kids r :: new)) ([r.node].map val) true := by
        rw [leavesAncAdvance]
        simp [hb', kids_good r hb']
      simp only [Option.map_some, List.map_nil] at hs' ⊢
      rw [e] at hs' ⊢
      exact fin _ _ hc (leavesAncLoop_left bad _ _ _ _ (by simpa using hb') hs')

/-- What is left of the slice of a position. -/
theorem leftL_pos [TreeNode N V] (p : Pos N) (h : p.ancestors.length = p.path.length + 1) :
    leftL p.ancestors = (p.parentSlice : Option (List V)) := by
  rw [leftL, Pos.parentSlice, h]
  simp [List.length_eq_zero_iff]

/-- What a slice over the cropped tree is answered as. -/
theorem repL_at [TreeNode N V] {bad : N → Bool} (l : List (Pos N)) (hl : ∀ p ∈ l, p.ancestors.getLast? = some p.item)
    (k : Nat) :
    ((l.map Pos.ancestors).map (repL (V := V) bad))[k]? = l[k]?.map (replyPos bad fun p => p.ancestors.map val) := by
  rw [List.getElem?_map, List.getElem?_map]
  cases h : l[k]? with
  | none => rfl
  | some p =>
    simp only [Option.map_some]
    rw [← repL_pos bad p (hl p (List.mem_of_getElem? h))]
    simp only [Pos.map, List.map_map]
    rw [show ((val : Crop bad → N) ∘ Crop.mk) = id from rfl, List.map_id]

/-- The slice after the first panic, from a lemma about one call. -/
theorem leftL_of [TreeNode N V] {S C : Type*} {bad : N → Bool} {next : S → Option (Option (List V)) × S}
    {nextC : C → Option (List N) × C} {R : C → S → Prop} {get : S → Option (List V)}
    (step : ∀ c s, R c s → (next s).1 = (nextC c).1.map (repL bad) ∧ ((next s).1 ≠ some none → R (nextC c).2 (next s).2))
    (left : ∀ c s x, R c s → (nextC c).1 = some x → (next s).1 = some none → get (next s).2 = leftL x)
    (l : List (Pos N)) (hl : ∀ p ∈ l, p.ancestors.length = p.path.length + 1 ∧ p.ancestors.getLast? = some p.item)
    (k : Nat) (c : C) (s : S) (h : R c s) (hc : ∀ j, nthCall nextC j c = (l.map Pos.ancestors)[j]?)
    (hk : ∀ j < k, ∀ q, l[j]? = some q → bad q.item = false) (p : Pos N) (hp : l[k]? = some p)
    (hb : bad p.item = true) : get (stateAfter next (k + 1) s) = p.parentSlice := by
  obtain ⟨c1, s1, e1, e2, e3, e4⟩ := states_until_fail (repL bad) R step k c s h _ hc (by
    intro j hj
    rw [repL_at l (fun p hp => (hl p hp).2) j]
    cases hq : l[j]? with
    | none => simp
    | some q => simp [replyPos, hk j hj q hq])
  rw [repL_at l (fun p hp => (hl p hp).2) k, hp] at e4
  rw [List.getElem?_map, hp] at e2
  simp only [Option.map_some, replyPos, hb, if_true] at e4
  rw [e3, left _ _ _ e1 e2 e4, leftL_pos _ (hl p (List.mem_of_getElem? hp)).1]

end Fail

end TreeIter
