import Verif.Model.Flaky
import Verif.Spec.Fail
import Verif.Lemmas.FailCrop
import Verif.Lemmas.FailCropCtx

/-!
# Lemmas about child iterators that panic

A call of `next` that panics leaves the iterators without paths in the same state as a bad node (`Model/Fail`) would that
the call had given.  `ghost d` makes nodes of the calls; `d` is the value of the bad ones, which is never seen.
-/

universe u v w x

namespace TreeIter

namespace Flaky

variable {N : Type u} {V : Type v}

/-- The calls of `next` as nodes. -/
@[reducible] def ghost [FlakyNode N V] (d : V) : TreeNode (Option N) V where
  split o := match o with | none => (d, []) | some n => (valF n, callsF n)
  size := pollSize
  size_lt := by
    intro o c h
    cases o with
    | none => cases h
    | some n => exact pollSize_lt h

section Sim
variable {S : Type u} {T : Type v} {O : Type w}

theorem nthCall_enc {f : S → Option O × S} {g : T → Option O × T} (enc : S → T)
    (h : ∀ s, g (enc s) = ((f s).1, enc (f s).2)) (k : Nat) (s : S) : nthCall f k s = nthCall g k (enc s) := by
  induction k generalizing s with
  | zero => simp [nthCall, stateAfter, h]
  | succ k ih =>
    have := ih (f s).2
    simpa [nthCall, stateAfter, h] using this

theorem nthCallE_enc {f : S → Except Panic (Option O × S)} {g : T → Except Panic (Option O × T)} (enc : S → T)
    (h : ∀ s, g (enc s) = (f s).map fun r => (r.1, enc r.2)) (k : Nat) (s : S) :
    nthCallE f k s = nthCallE g k (enc s) := by
  induction k generalizing s with
  | zero =>
    simp only [nthCallE, stateAfterE, h]
    cases f s <;> rfl
  | succ k ih =>
    simp only [nthCallE, stateAfterE, h]
    cases hf : f s with
    | error e => rfl
    | ok r =>
      have := ih r.2
      simpa only [nthCallE, Except.map] using this

/-- An iterator `f` that follows `g` up to the first panic of the user's code. -/
theorem until_panic {f : S → Except Panic (Option (Option O) × S)} {g : T → Except Panic (Option (Option O) × T)}
    (R Q : S → T → Prop)
    (h : ∀ s t o t', R s t → g t = .ok (o, t') →
      ∃ s', f s = .ok (o, s') ∧ (o ≠ some none → R s' t') ∧ (o = some none → Q s' t'))
    (k : Nat) (s : S) (t : T) (hr : R s t) (hk : ∀ j < k, nthCallE g j t ≠ .ok (some none)) (o : Option (Option O))
    (ho : nthCallE g k t = .ok o) :
    ∃ s' t', nthCallE f k s = .ok o ∧ stateAfterE f (k + 1) s = .ok s' ∧ stateAfterE g (k + 1) t = .ok t' ∧
      (o = some none → Q s' t') := by
  induction k generalizing s t with
  | zero =>
    simp only [nthCallE, stateAfterE] at ho ⊢
    cases hg : g t with
    | error e => rw [hg] at ho; cases ho
    | ok r =>
      obtain ⟨o1, t1⟩ := r
      rw [hg] at ho
      obtain rfl : o1 = o := by simpa using ho
      obtain ⟨s', h1, -, h3⟩ := h s t o1 t1 hr hg
      exact ⟨s', t1, by simp [h1], by simp [h1], by simp, h3⟩
  | succ k ih =>
    cases hg : g t with
    | error e => rw [nthCallE, stateAfterE, hg] at ho; cases ho
    | ok r =>
      obtain ⟨o1, t1⟩ := r
      obtain ⟨s1, h1, h2, -⟩ := h s t o1 t1 hr hg
      have h4 : o1 ≠ some none := by
        intro ho1
        apply hk 0 (Nat.succ_pos k)
        simp [nthCallE, stateAfterE, hg, ho1]
      obtain ⟨s', t', i1, i2, i3, i4⟩ := ih s1 t1 (h2 h4) (fun j hj => by
        have := hk (j + 1) (Nat.succ_lt_succ hj)
        simpa [nthCallE, stateAfterE, hg] using this) (by simpa [nthCallE, stateAfterE, hg] using ho)
      refine ⟨s', t', ?_, ?_, ?_, i4⟩
      · simpa [nthCallE, stateAfterE, h1] using i1
      · rw [stateAfterE, h1]; exact i2
      · rw [stateAfterE, hg]; exact i3

end Sim

variable [FlakyNode N V]

/-! ## The tree of the calls -/

theorem pollTree_none : pollTree (none : Option N) = .node none [] := by rw [pollTree]

theorem pollTree_some (n : N) : pollTree (some n) = .node (some n) ((callsF n).map pollTree) := by
  rw [pollTree]
  congr 1
  exact List.attach_map_val ..

/-- Induction on the tree of the calls. -/
theorem poll_ind {P : Option N → Prop} (h0 : P none) (h : ∀ n, (∀ o ∈ callsF n, P o) → P (some n)) (o : Option N) :
    P o := by
  induction hm : pollSize o using Nat.strongRecOn generalizing o with
  | ind m ih =>
    cases o with
    | none => exact h0
    | some n => exact h n fun o ho => ih _ (hm ▸ pollSize_lt ho) o rfl

theorem unfold_ghost (d : V) (o : Option N) : @unfold _ _ (ghost d) o = pollTree o := by
  let _ := ghost (N := N) d
  induction o using poll_ind with
  | h0 => rw [unfold_eq, pollTree_none]; rfl
  | h n ih =>
    rw [unfold_eq, pollTree_some]
    congr 1
    exact List.map_congr_left ih

theorem crop_pollTree (bad : Option N → Bool) (hb : ∀ n : N, bad (some n) = false) (o : Option N) :
    (pollTree o).crop bad = pollTree o := by
  induction o using poll_ind with
  | h0 => rw [pollTree_none]; simp [Tree.crop, Tree.cropL]
  | h n ih =>
    rw [pollTree_some, Tree.crop, hb n, Tree.cropL_eq]
    simp only [Bool.false_eq_true, if_false, List.map_map]
    congr 1
    exact List.map_congr_left ih

theorem isNone_some (n : N) : (some n).isNone = false := rfl

theorem replyAt_ghost (d : V) : (replyAt Option.isNone (@val _ _ (ghost (N := N) d).toSplitNode)) = Option.map valF := by
  funext o
  cases o <;> rfl

/-- Two ways to decorate the tree of the calls agree if they agree where all ancestors of a node are nodes. -/
theorem located_congr {β : Type w} (f g : Pos (Option N) → β)
    (h0 : ∀ p, p.item = none → f p = g p)
    (h : ∀ p, (∀ a ∈ p.ancestors, a.isSome) → f p = g p) (o : Option N) :
    ∀ (path : List Nat) (anc : List (Option N)), (∀ a ∈ anc, a.isSome) →
      ((pollTree o).withPos path anc).map f = ((pollTree o).withPos path anc).map g := by
  induction o using poll_ind with
  | h0 =>
    intro path anc _
    rw [pollTree_none, Tree.withPos, Tree.map_node, Tree.map_node, h0 _ rfl]
    rfl
  | h n ih =>
    intro path anc ha
    have ha' : ∀ a ∈ anc ++ [some n], a.isSome := by
      intro a h1
      rcases List.mem_append.1 h1 with h1 | h1
      · exact ha a h1
      · rw [List.mem_singleton.1 h1]; rfl
    rw [pollTree_some, Tree.withPos, Tree.map_node, Tree.map_node, h _ ha']
    congr 1
    generalize hl : callsF n = l at ih
    clear hl
    generalize 0 = i
    induction l generalizing i with
    | nil => rfl
    | cons c l ihl =>
      rw [List.map_cons, Tree.withPosL, List.map_cons, List.map_cons, ih c (by simp) _ _ ha',
        ihl (fun o ho => ih o (by simp [ho]))]

theorem values_all_some (d : V) (p : Pos (Option N)) (h : ∀ a ∈ p.ancestors, a.isSome) :
    p.ancestors.map (@val _ _ (ghost (N := N) d).toSplitNode) = p.values := by
  rw [Pos.values]
  generalize p.ancestors = l at h
  induction l with
  | nil => rfl
  | cons a l ih =>
    cases a with
    | none => exact absurd (h none (by simp)) (by simp)
    | some n =>
      rw [List.map_cons, ih fun b hb => h b (by simp [hb])]
      rfl

theorem slice_ghost (d : V) (o : Option N) :
    (pollTree o).located.map (replyPos Option.isNone fun p => p.ancestors.map (@val _ _ (ghost (N := N) d).toSplitNode)) =
      (pollTree o).located.map Pos.sliceF := by
  refine located_congr _ _ (fun p hp => ?_) (fun p hp => ?_) o [] [] (by simp)
  · simp [replyPos, Pos.sliceF, hp]
  · rw [replyPos, Pos.sliceF, values_all_some d p hp]
    cases p.item <;> rfl

theorem ctx_ghost (d : V) (o : Option N) :
    (pollTree o).located.map (replyPos Option.isNone (@Pos.ctx _ _ (ghost (N := N) d).toSplitNode)) =
      (pollTree o).located.map Pos.ctxF := by
  refine located_congr _ _ (fun p hp => ?_) (fun p hp => ?_) o [] [] (by simp)
  · simp [replyPos, Pos.ctxF, hp]
  · have := values_all_some d p hp
    rw [replyPos, Pos.ctxF, ← this]
    obtain ⟨path, anc, _ | n⟩ := p <;> rfl

/-! ## The iterators without paths -/

section
variable (d : V)

theorem preLoop_eq (st : List (List (Option N))) : Preorder.loop st = preLoop st := by
  fun_induction preLoop st <;> simp_all [Preorder.loop]

/-- The state in which the calls are nodes. -/
def Pre.enc (s : Pre N) : Preorder.State (Option N) := ⟨s.root.map some, s.stack⟩

theorem preNext_enc (s : Pre N) :
    @Fail.preNext _ _ (ghost d).toSplitNode Option.isNone s.enc = ((preNext s).1, (preNext s).2.enc) := by
  obtain ⟨root, stack⟩ := s
  cases root with
  | some r => rfl
  | none =>
    simp only [Fail.preNext, preNext, Pre.enc, Option.map_none, preLoop_eq]
    rcases preLoop stack with ⟨_ | _ | n, st⟩ <;> rfl

omit [FlakyNode N V] in
theorem preAncLoop_eq (st : List (List (Option N))) (it : List V) : Preorder.ancLoop st it = preAncLoop st it := by
  fun_induction preAncLoop st it <;> simp_all [Preorder.ancLoop]

/-- The state in which the calls are nodes. -/
def PreAnc.enc (s : PreAnc N V) : Preorder.AncState (Option N) V := ⟨s.root.map some, s.stack, s.items⟩

theorem preAncNext_enc (s : PreAnc N V) :
    @Fail.preAncNext _ _ (ghost d).toSplitNode Option.isNone s.enc = ((preAncNext s).1, (preAncNext s).2.enc) := by
  obtain ⟨root, stack, items⟩ := s
  cases root with
  | some r => rfl
  | none =>
    simp only [Fail.preAncNext, preAncNext, Fail.streamNext, Fail.preAncAdvance, preAncAdvance, PreAnc.enc,
      Option.map_none, preAncLoop_eq]
    rcases preAncLoop stack items with ⟨_ | _ | n, st, it⟩ <;> rfl

theorem postLoop_enc (st : List (List (Option N))) (items : List V) :
    @Fail.postLoop _ _ (ghost d) Option.isNone st items = postLoop st items := by
  let _ := ghost (N := N) d
  fun_induction postLoop st items <;> rw [Fail.postLoop] <;> simp_all
  assumption

/-- The state in which the calls are nodes. -/
def Post.enc (s : Post N V) : Postorder.State (Option N) V := ⟨s.root.map some, s.items, s.stack⟩

theorem postNext_enc (s : Post N V) :
    @Fail.postNext _ _ (ghost d) Option.isNone s.enc = ((postNext s).1, (postNext s).2.enc) := by
  obtain ⟨root, items, stack⟩ := s
  cases root with
  | some r =>
    have := postLoop_enc d (callsF r :: stack) (valF r :: items)
    simp only [Fail.postNext, postNext, Post.enc, Option.map_some, Option.isNone_some, Bool.false_eq_true, if_false]
    have e : @kids _ _ (ghost d).toSplitNode (some r) = callsF r := rfl
    have e' : @val _ _ (ghost d).toSplitNode (some r) = valF r := rfl
    rw [e, e', this]
    rfl
  | none =>
    simp only [Fail.postNext, postNext, Post.enc, Option.map_none, postLoop_enc]

theorem postAncLoop_enc (st : List (List (Option N))) (items : List V) :
    @Fail.postAncLoop _ _ (ghost d) Option.isNone st items = postAncLoop st items := by
  let _ := ghost (N := N) d
  fun_induction postAncLoop st items <;> rw [Fail.postAncLoop] <;> simp_all
  assumption

/-- The state in which the calls are nodes. -/
def Post.encA (s : Post N V) : Postorder.AncState (Option N) V := ⟨s.root.map some, s.items, s.stack⟩

theorem postAncNext_enc (s : Post N V) :
    @Fail.postAncNext _ _ (ghost d) Option.isNone s.encA = ((postAncNext s).1, (postAncNext s).2.encA) := by
  obtain ⟨root, items, stack⟩ := s
  cases root with
  | some r =>
    have := postAncLoop_enc d (callsF r :: stack) (valF r :: items)
    simp only [Fail.postAncNext, postAncNext, Fail.streamNext, Fail.postAncAdvance, postAncAdvance, Post.encA,
      Option.map_some, Option.isNone_some, Bool.false_eq_true, if_false]
    have e : @kids _ _ (ghost d).toSplitNode (some r) = callsF r := rfl
    have e' : @val _ _ (ghost d).toSplitNode (some r) = valF r := rfl
    rw [e, e', this]
    rcases postAncLoop (callsF r :: stack) (valF r :: items) with ⟨_ | _, it, st⟩ <;> rfl
  | none =>
    simp only [Fail.postAncNext, postAncNext, Fail.streamNext, Fail.postAncAdvance, postAncAdvance, Post.encA,
      Option.map_none, postAncLoop_enc]
    rcases postAncLoop stack items.tail with ⟨_ | _, it, st⟩ <;> rfl

/-- The state in which the calls are nodes. -/
def Wide.enc (s : Wide N) : Bfs.State (Option N) := ⟨s.root.map some, s.queue⟩

theorem bfsLoop_enc (q : List (List (Option N))) :
    @Fail.bfsLoop _ _ (ghost d).toSplitNode Option.isNone q = ((bfsLoop q).1, (bfsLoop q).2.enc) := by
  let _ := ghost (N := N) d
  fun_induction bfsLoop q <;> rw [Fail.bfsLoop] <;> first | assumption | rfl

theorem bfsNext_enc (s : Wide N) :
    @Fail.bfsNext _ _ (ghost d).toSplitNode Option.isNone s.enc = ((bfsNext s).1, (bfsNext s).2.enc) := by
  obtain ⟨root, queue⟩ := s
  cases root with
  | some r => rfl
  | none => exact bfsLoop_enc d queue

theorem bfsAncLoop_enc (q : List (List (Option N))) (cs : Bfs.CacheState V) :
    @Fail.bfsAncLoop _ _ (ghost d).toSplitNode Option.isNone q cs = bfsAncLoop q cs := by
  let _ := ghost (N := N) d
  fun_induction bfsAncLoop q cs <;> rw [Fail.bfsAncLoop] <;> simp_all; exact ⟨rfl, rfl⟩

theorem bfsAncNext_enc (s : Bfs.AncState (Option N) V) :
    @Fail.bfsAncNext _ _ (ghost d).toSplitNode Option.isNone s = bfsAncNext s := by
  simp only [Fail.bfsAncNext, bfsAncNext, Fail.streamNextE, Fail.bfsAncAdvance, bfsAncAdvance, bfsAncLoop_enc]

/-- The state in which the calls are nodes. -/
def Lv.enc (s : Lv N V) : Leaves.State (Option N) V := ⟨s.root.map some, s.bottom, s.top, s.items⟩

theorem leavesLoop_enc (bottom top : List (List (Option N))) (items : List V) (just : Bool) :
    @Fail.leavesLoop _ _ (ghost d) Option.isNone bottom top items just =
      ((leavesLoop bottom top items just).1, (leavesLoop bottom top items just).2.enc) := by
  let _ := ghost (N := N) d
  fun_induction leavesLoop bottom top items just <;> rw [Fail.leavesLoop] <;> first | assumption | rfl

theorem leavesNext_enc (s : Lv N V) :
    @Fail.leavesNext _ _ (ghost d) Option.isNone s.enc = ((leavesNext s).1, (leavesNext s).2.enc) := by
  obtain ⟨root, bottom, top, items⟩ := s
  cases root with
  | some r => exact leavesLoop_enc d bottom (callsF r :: top) (valF r :: items) true
  | none => exact leavesLoop_enc d bottom top items false

/-! ## Leaves of a breadth-first traversal: a panic in `peek` -/

/-- The state in which the calls are nodes. -/
def WideLv.enc (s : WideLv N) : Bfs.LeavesState (Option N) := ⟨s.root.map some, s.old, s.new⟩

theorem opened_eq (n : N) :
    opened n = if lostF (some n) then none else some (!(callsF n).isEmpty, valF n) := by
  rw [opened, lostF, firstPanics]
  rcases callsF n with _ | ⟨_ | c, os⟩ <;> rfl

theorem bfsLeavesLoopNew_enc (q : List (List (Option N))) :
    @Fail.bfsLeavesLoopNew _ _ (ghost d).toSplitNode lostF q =
      ((bfsLeavesLoopNew q).1, (bfsLeavesLoopNew q).2.enc) := by
  let _ := ghost (N := N) d
  fun_induction bfsLeavesLoopNew q with
  | case1 => rfl
  | case2 rest ih => rw [Fail.bfsLeavesLoopNew, ih]
  | case3 os rest => rfl
  | case4 n os rest h =>
    rw [opened_eq] at h
    rw [Fail.bfsLeavesLoopNew]
    split <;> simp_all
    rfl
  | case5 n os rest a h =>
    rw [opened_eq] at h
    rw [Fail.bfsLeavesLoopNew]
    split <;> simp_all
    exact ⟨h, rfl⟩

theorem bfsLeavesLoop_enc (new q : List (List (Option N))) :
    @Fail.bfsLeavesLoop _ _ (ghost d).toSplitNode lostF new q =
      ((bfsLeavesLoop new q).1, (bfsLeavesLoop new q).2.enc) := by
  let _ := ghost (N := N) d
  fun_induction bfsLeavesLoop new q with
  | case1 => exact bfsLeavesLoopNew_enc d new
  | case2 rest ih => rw [Fail.bfsLeavesLoop, ih]
  | case3 os rest => rfl
  | case4 n os rest h =>
    rw [opened_eq] at h
    rw [Fail.bfsLeavesLoop]
    split <;> simp_all
    rfl
  | case5 n os rest a h =>
    rw [opened_eq] at h
    rw [Fail.bfsLeavesLoop]
    split <;> simp_all
    exact ⟨h, rfl⟩

theorem bfsLeavesStep_enc (s : WideLv N) :
    @Fail.bfsLeavesStep _ _ (ghost d).toSplitNode lostF s.enc = ((bfsLeavesStep s).1, (bfsLeavesStep s).2.enc) := by
  obtain ⟨root, old, new⟩ := s
  cases root with
  | none => exact bfsLeavesLoop_enc d new old
  | some r =>
    simp only [Fail.bfsLeavesStep, bfsLeavesStep, WideLv.enc, Option.map_some, opened_eq]
    by_cases h : lostF (some r) = true
    · simp [h]
    · simp only [h, Bool.false_eq_true, if_false]; rfl

theorem bfsLeavesNext_enc (s : WideLv N) :
    @Fail.bfsLeavesNext _ _ (ghost d) lostF s.enc = ((bfsLeavesNext s).1, (bfsLeavesNext s).2.enc) := by
  let _ := ghost (N := N) d
  fun_induction bfsLeavesNext s with
  | case1 s s' h =>
    have := bfsLeavesStep_enc d s
    rw [h] at this
    rw [Fail.bfsLeavesNext]
    split <;> simp_all
  | case2 s s' h =>
    have := bfsLeavesStep_enc d s
    rw [h] at this
    rw [Fail.bfsLeavesNext]
    split <;> simp_all
  | case3 s v s' h ih =>
    have := bfsLeavesStep_enc d s
    rw [h] at this
    rw [Fail.bfsLeavesNext]
    split <;> simp_all
  | case4 s v s' h =>
    have := bfsLeavesStep_enc d s
    rw [h] at this
    rw [Fail.bfsLeavesNext]
    split <;> simp_all

omit [FlakyNode N V] in
theorem tailNil {β : Type w} (items : List V) (a : β) (b : V → List V → β) (h : items.tail = []) :
    (match _hi : items.tail with
      | [] => a
      | i :: is => b i is) = a := by
  split <;> simp_all

omit [FlakyNode N V] in
theorem tailCons {β : Type w} (items : List V) (a : β) (b : V → List V → β) (i : V) (is : List V)
    (h : items.tail = i :: is) :
    (match _hi : items.tail with
      | [] => a
      | i :: is => b i is) = b i is := by
  split <;> simp_all

/-- The state in which the calls are nodes. -/
def LvAnc.enc (s : LvAnc N V) : Leaves.AncState (Option N) V := ⟨s.root.map some, s.items, s.old, s.new⟩

theorem leavesAncLoop_enc (old new : List (List (Option N))) (items : List V) (pushed : Bool) :
    @Fail.leavesAncLoop _ _ (ghost d) Option.isNone old new items pushed =
      ((leavesAncLoop old new items pushed).1, (leavesAncLoop old new items pushed).2.enc) := by
  let _ := ghost (N := N) d
  fun_induction leavesAncLoop old new items pushed with
  | case1 old items pushed os new => rw [Fail.leavesAncLoop]; rfl
  | case2 old items pushed n os new ih => rw [Fail.leavesAncLoop]; exact ih
  | case3 old items new h1 h2 =>
    rcases new with _ | ⟨_ | ⟨_ | n, os⟩, new⟩
    · rw [Fail.leavesAncLoop.eq_def]; rfl
    · rw [Fail.leavesAncLoop.eq_def]; rfl
    · exact absurd rfl (h1 _ _)
    · exact absurd rfl (h2 _ _ _)
  | case4 items pushed new h1 h2 hp os old =>
    rcases new with _ | ⟨_ | ⟨_ | n, os'⟩, new⟩
    · rw [Fail.leavesAncLoop.eq_def]; simp [hp]; rfl
    · rw [Fail.leavesAncLoop.eq_def]; simp [hp]; rfl
    · exact absurd rfl (h1 _ _)
    · exact absurd rfl (h2 _ _ _)
  | case5 items pushed new h1 h2 hp n os old ih =>
    rcases new with _ | ⟨_ | ⟨_ | n, os'⟩, new⟩
    · rw [Fail.leavesAncLoop.eq_def]; simp only [hp]; exact ih
    · rw [Fail.leavesAncLoop.eq_def]; simp only [hp]; exact ih
    · exact absurd rfl (h1 _ _)
    · exact absurd rfl (h2 _ _ _)
  | case6 items pushed new h1 h2 hp old h3 h4 hi =>
    rcases new with _ | ⟨_ | ⟨_ | n, os'⟩, new⟩
    · rcases old with _ | ⟨_ | ⟨_ | n, os'⟩, old⟩
      · rw [Fail.leavesAncLoop.eq_def]; simp only [hp]; exact tailNil items _ _ hi
      · rw [Fail.leavesAncLoop.eq_def]; simp only [hp]; exact tailNil items _ _ hi
      · exact absurd rfl (h3 _ _)
      · exact absurd rfl (h4 _ _ _)
    · rcases old with _ | ⟨_ | ⟨_ | n, os'⟩, old⟩
      · rw [Fail.leavesAncLoop.eq_def]; simp only [hp]; exact tailNil items _ _ hi
      · rw [Fail.leavesAncLoop.eq_def]; simp only [hp]; exact tailNil items _ _ hi
      · exact absurd rfl (h3 _ _)
      · exact absurd rfl (h4 _ _ _)
    · exact absurd rfl (h1 _ _)
    · exact absurd rfl (h2 _ _ _)
  | case7 items pushed new h1 h2 hp old h3 h4 i is hi ih =>
    rcases new with _ | ⟨_ | ⟨_ | n, os'⟩, new⟩
    · rcases old with _ | ⟨_ | ⟨_ | n, os'⟩, old⟩
      · rw [Fail.leavesAncLoop.eq_def]; simp only [hp]; exact (tailCons items _ _ i is hi).trans ih
      · rw [Fail.leavesAncLoop.eq_def]; simp only [hp]; exact (tailCons items _ _ i is hi).trans ih
      · exact absurd rfl (h3 _ _)
      · exact absurd rfl (h4 _ _ _)
    · rcases old with _ | ⟨_ | ⟨_ | n, os'⟩, old⟩
      · rw [Fail.leavesAncLoop.eq_def]; simp only [hp]; exact (tailCons items _ _ i is hi).trans ih
      · rw [Fail.leavesAncLoop.eq_def]; simp only [hp]; exact (tailCons items _ _ i is hi).trans ih
      · exact absurd rfl (h3 _ _)
      · exact absurd rfl (h4 _ _ _)
    · exact absurd rfl (h1 _ _)
    · exact absurd rfl (h2 _ _ _)

theorem leavesAncNext_enc (s : LvAnc N V) :
    @Fail.leavesAncNext _ _ (ghost d) Option.isNone s.enc = ((leavesAncNext s).1, (leavesAncNext s).2.enc) := by
  let _ := ghost (N := N) d
  have key : @Fail.leavesAncAdvance _ _ (ghost d) Option.isNone s.enc =
      ((leavesAncAdvance s).1, (leavesAncAdvance s).2.enc) := by
    obtain ⟨root, items, old, new⟩ := s
    cases root with
    | some r => exact leavesAncLoop_enc d old (callsF r :: new) (valF r :: items) true
    | none => exact leavesAncLoop_enc d old new items.tail false
  rw [Fail.leavesAncNext, leavesAncNext, Fail.streamNext, Fail.streamNext, key]
  rcases leavesAncAdvance s with ⟨_ | _, s'⟩ <;> rfl

/-! ## Contexts, up to the first panic -/

/-- The state in which the calls are nodes. -/
def PreCtx.enc (s : PreCtx N V) : Preorder.CtxState (Option N) V :=
  ⟨s.root.map some, s.stack, s.path, s.ancestors, s.children⟩

omit [FlakyNode N V] in
theorem preCtxLoop_enc (st : List (List (Option N))) (path : List Nat) (anc : List V)
    (r : Option (Option N) × List (List (Option N)) × List Nat × List V) (h : Preorder.ctxLoop st path anc = .ok r) :
    preCtxLoop st path anc = .ok r ∨
      ∃ st' p path' anc', r = (some none, st', wrapSucc p :: path', anc') ∧
        preCtxLoop st path anc = .ok (some none, st', p :: path', anc') := by
  fun_induction Preorder.ctxLoop st path anc with
  | case1 path anc => left; rw [← h, preCtxLoop]
  | case2 rest path anc ih =>
    rw [preCtxLoop]
    exact ih h
  | case3 n ns rest p path anc =>
    cases n with
    | some n => left; rw [← h, preCtxLoop]
    | none => exact .inr ⟨_, _, _, _, (Except.ok.inj h).symm, by rw [preCtxLoop]⟩
  | case4 => cases h

theorem preCtx_until (s : PreCtx N V) (t : Preorder.CtxState (Option N) V)
    (o : Option (Option (Ctx V (List (Option N))))) (t' : Preorder.CtxState (Option N) V) (hr : t = s.enc)
    (h : @Fail.preCtxNext _ _ (ghost d).toSplitNode Option.isNone t = .ok (o, t')) :
    ∃ s', preCtxNext s = .ok (o, s') ∧ (o ≠ some none → t' = s'.enc) ∧ (o = some none → True) := by
  subst hr
  obtain ⟨root, stack, path, anc, ch⟩ := s
  cases root with
  | some r =>
    simp only [Fail.preCtxNext, Fail.streamNextE, Fail.preCtxAdvance, PreCtx.enc, Option.map_some, Option.isNone_some,
      Bool.false_eq_true, if_false, Except.ok.injEq, Prod.mk.injEq] at h
    obtain ⟨rfl, rfl⟩ := h
    exact ⟨_, rfl, fun _ => rfl, fun _ => trivial⟩
  | none =>
    simp only [Fail.preCtxNext, Fail.streamNextE, Fail.preCtxAdvance, PreCtx.enc, Option.map_none] at h
    simp only [preCtxNext, Fail.streamNextE, preCtxAdvance]
    by_cases ha : anc.isEmpty = true
    · simp only [ha, if_true, Except.ok.injEq, Prod.mk.injEq] at h ⊢
      obtain ⟨rfl, rfl⟩ := h
      exact ⟨_, ⟨rfl, rfl⟩, fun _ => rfl, fun _ => trivial⟩
    · simp only [ha, if_false, Bool.false_eq_true] at h ⊢
      cases ch with
      | some cs =>
        simp only at h ⊢
        cases hl : Preorder.ctxLoop (cs :: stack) (usizeMax :: path) anc with
        | error e => rw [hl] at h; cases h
        | ok r =>
          rw [hl] at h
          rcases preCtxLoop_enc (cs :: stack) (usizeMax :: path) anc r hl with h1 | ⟨st', p, path', anc', rfl, h1⟩
          · rw [h1]
            obtain ⟨_ | _ | n, st', path', anc'⟩ := r
            all_goals
              simp only [Option.isNone_none, Option.isNone_some, Bool.false_eq_true, if_true, if_false, Except.ok.injEq,
                Prod.mk.injEq] at h
              obtain ⟨rfl, rfl⟩ := h
              exact ⟨_, rfl, fun _ => rfl, fun _ => trivial⟩
          · rw [h1]
            simp only [Option.isNone_none, if_true, Except.ok.injEq, Prod.mk.injEq] at h
            obtain ⟨rfl, rfl⟩ := h
            exact ⟨_, rfl, fun h => absurd rfl h, fun _ => trivial⟩
      | none =>
        simp only at h ⊢
        obtain ⟨pa, hpa⟩ : ∃ pa, pa = (if path.head? = some usizeMax then path.tail else path) := ⟨_, rfl⟩
        have hpa' : (if (PreCtx.enc (⟨none, stack, path, anc, none⟩ : PreCtx N V)).path.head? = some usizeMax then
          path.tail else path) = pa := hpa.symm
        erw [hpa'] at h
        rw [← hpa]
        cases hl : Preorder.ctxLoop stack pa anc.tail with
        | error e => rw [hl] at h; cases h
        | ok r =>
          rw [hl] at h
          rcases preCtxLoop_enc stack pa anc.tail r hl with h1 | ⟨st', p, path', anc', rfl, h1⟩
          · rw [h1]
            obtain ⟨_ | _ | n, st', path', anc'⟩ := r
            all_goals
              simp only [Option.isNone_none, Option.isNone_some, Bool.false_eq_true, if_true, if_false, Except.ok.injEq,
                Prod.mk.injEq] at h
              obtain ⟨rfl, rfl⟩ := h
              exact ⟨_, rfl, fun _ => rfl, fun _ => trivial⟩
          · rw [h1]
            simp only [Option.isNone_none, if_true, Except.ok.injEq, Prod.mk.injEq] at h
            obtain ⟨rfl, rfl⟩ := h
            exact ⟨_, rfl, fun h => absurd rfl h, fun _ => trivial⟩

/-- The state in which the calls are nodes. -/
def PostCtx.enc (s : PostCtx N V) : Postorder.CtxState (Option N) V :=
  ⟨s.root.map some, s.stack, s.into, s.path, s.ancestors, s.children⟩

theorem postCtxLoop_enc (ch : Option (List (Option N))) (st into : List (List (Option N))) (path : List Nat) (anc : List V)
    (b : Bool) (t : Postorder.CtxState (Option N) V)
    (h : @Fail.postCtxLoop _ _ (ghost d) Option.isNone ch st into path anc = .ok (b, t)) :
    ∃ s, postCtxLoop ch st into path anc = .ok (b, s) ∧ (b = false → t = s.enc) := by
  let _ := ghost (N := N) d
  fun_induction postCtxLoop ch st into path anc with
  | case1 os rest into path anc =>
    cases path with
    | nil => rw [Fail.postCtxLoop] at h; cases h
    | cons p path =>
      rw [Fail.postCtxLoop] at h
      simp only [Option.isNone_none, if_true, Except.ok.injEq, Prod.mk.injEq] at h
      obtain ⟨rfl, rfl⟩ := h
      exact ⟨_, rfl, fun h => absurd h (by simp)⟩
  | case2 n os rest into p path anc ih =>
    rw [Fail.postCtxLoop] at h
    exact ih h
  | case3 => rw [Fail.postCtxLoop] at h; cases h
  | case4 | case5 =>
    rw [Fail.postCtxLoop] at h
    simp only [Except.ok.injEq, Prod.mk.injEq] at h
    obtain ⟨rfl, rfl⟩ := h
    exact ⟨_, rfl, fun _ => rfl⟩
  | case6 | case7 => rw [Fail.postCtxLoop] at h; cases h

theorem postCtx_until (s : PostCtx N V) (t : Postorder.CtxState (Option N) V)
    (o : Option (Option (Ctx V (List (Option N))))) (t' : Postorder.CtxState (Option N) V) (hr : t = s.enc)
    (h : @Fail.postCtxNext _ _ (ghost d) Option.isNone t = .ok (o, t')) :
    ∃ s', postCtxNext s = .ok (o, s') ∧ (o ≠ some none → t' = s'.enc) ∧ (o = some none → True) := by
  subst hr
  let _ := ghost (N := N) d
  have key : ∀ b t', @Fail.postCtxAdvance _ _ (ghost d) Option.isNone s.enc = .ok (b, t') →
      ∃ s', postCtxAdvance s = .ok (b, s') ∧ (b = false → t' = s'.enc) := by
    intro b t' h
    obtain ⟨root, stack, into, path, anc, ch⟩ := s
    cases root with
    | some r => exact postCtxLoop_enc d ch (callsF r :: stack) (callsF r :: into) (usizeMax :: path) (valF r :: anc) b t' h
    | none =>
      simp only [Fail.postCtxAdvance, PostCtx.enc, Option.map_none] at h
      simp only [postCtxAdvance]
      by_cases ha : anc.tail.isEmpty = true
      · simp only [ha, if_true, Except.ok.injEq, Prod.mk.injEq] at h ⊢
        obtain ⟨rfl, rfl⟩ := h
        exact ⟨_, ⟨rfl, rfl⟩, fun _ => rfl⟩
      · simp only [ha, if_false, Bool.false_eq_true] at h ⊢
        exact postCtxLoop_enc d ch stack into path anc.tail b t' h
  rw [Fail.postCtxNext, Fail.streamNextE] at h
  rw [postCtxNext, Fail.streamNextE]
  cases ha : @Fail.postCtxAdvance _ _ (ghost d) Option.isNone s.enc with
  | error e => rw [ha] at h; cases h
  | ok r =>
    obtain ⟨b, t1⟩ := r
    rw [ha] at h
    obtain ⟨s1, h1, h2⟩ := key b t1 ha
    rw [h1]
    cases b with
    | true =>
      simp only [Except.ok.injEq, Prod.mk.injEq] at h
      obtain ⟨rfl, rfl⟩ := h
      exact ⟨_, rfl, fun h => absurd rfl h, fun _ => trivial⟩
    | false =>
      obtain rfl := h2 rfl
      simp only [Except.ok.injEq, Prod.mk.injEq] at h
      obtain ⟨rfl, rfl⟩ := h
      exact ⟨_, rfl, fun _ => rfl, fun _ => trivial⟩

/-- What is left of a breadth-first iterator with contexts after a panic. -/
def Spent (s t : Bfs.CtxState V (List (Option N)) (Option N)) : Prop :=
  s.children = none ∧ s.isRoot = false ∧ t.isRoot = false ∧ s.cc.ancestors = t.cc.ancestors

theorem bfsCtxLoop_enc (q : List (List (Option N))) (cc : Bfs.CtxCache V) (counter : Nat)
    (b : Bool) (t : Bfs.CtxState V (List (Option N)) (Option N))
    (h : @Fail.bfsCtxLoop _ _ (ghost d).toSplitNode Option.isNone q cc counter = .ok (b, t)) :
    ∃ s, bfsCtxLoop q cc counter = .ok (b, s) ∧ (b = false → t = s) ∧ (b = true → Spent s t) := by
  let _ := ghost (N := N) d
  fun_induction bfsCtxLoop q cc counter with
  | case1 queue cc counter e he => rw [Fail.bfsCtxLoop, he] at h; cases h
  | case2 cc counter cc' he => rw [Fail.bfsCtxLoop, he] at h; cases h
  | case3 cc counter cc' he os q =>
    rw [Fail.bfsCtxLoop, he] at h
    cases hc : Bfs.checkedSucc counter with
    | error e => simp [hc] at h
    | ok c =>
      simp only [hc, Option.isNone_none, if_true, Except.ok.injEq, Prod.mk.injEq] at h
      obtain ⟨rfl, rfl⟩ := h
      exact ⟨_, rfl, fun h => absurd h (by simp), fun _ => ⟨rfl, rfl, rfl, rfl⟩⟩
  | case4 cc counter cc' he n os q e hc => rw [Fail.bfsCtxLoop, he] at h; simp [hc] at h
  | case5 cc counter cc' he n os q c hc =>
    rw [Fail.bfsCtxLoop, he] at h
    simp only [hc, Option.isNone_some, Bool.false_eq_true, if_false, Except.ok.injEq, Prod.mk.injEq] at h
    obtain ⟨rfl, rfl⟩ := h
    exact ⟨_, rfl, fun _ => rfl, fun h => absurd h (by simp)⟩
  | case6 cc counter cc' he q e hc => rw [Fail.bfsCtxLoop, he] at h; simp [hc] at h
  | case7 cc counter cc' he q c hc hq =>
    rw [Fail.bfsCtxLoop, he] at h
    simp only [hc, hq, if_true, Except.ok.injEq, Prod.mk.injEq] at h
    obtain ⟨rfl, rfl⟩ := h
    exact ⟨_, rfl, fun _ => rfl, fun h => absurd h (by simp)⟩
  | case8 cc counter cc' he q c hc hq ih =>
    rw [Fail.bfsCtxLoop, he] at h
    simp only [hc, hq] at h
    exact ih h

theorem bfsCtx_until (s t : Bfs.CtxState V (List (Option N)) (Option N))
    (o : Option (Option (Ctx V (List (Option N))))) (t' : Bfs.CtxState V (List (Option N)) (Option N)) (hr : s = t)
    (h : @Fail.bfsCtxNext _ _ (ghost d).toSplitNode Option.isNone t = .ok (o, t')) :
    ∃ s', bfsCtxNext s = .ok (o, s') ∧ (o ≠ some none → s' = t') ∧ (o = some none → Spent s' t') := by
  subst hr
  let _ := ghost (N := N) d
  have key : ∀ b t', @Fail.bfsCtxAdvance _ _ (ghost d).toSplitNode Option.isNone s = .ok (b, t') →
      ∃ s', bfsCtxAdvance s = .ok (b, s') ∧ (b = false → t' = s') ∧ (b = true → Spent s' t') := by
    intro b t' h
    rw [Fail.bfsCtxAdvance] at h
    rw [bfsCtxAdvance]
    split at h
    · next hr =>
      simp only [Except.ok.injEq, Prod.mk.injEq] at h
      obtain ⟨rfl, rfl⟩ := h
      exact ⟨_, by rw [if_pos hr], fun _ => rfl, fun h => absurd h (by simp)⟩
    · next hr =>
      rw [if_neg hr]
      split at h
      · next he =>
        simp only [Except.ok.injEq, Prod.mk.injEq] at h
        obtain ⟨rfl, rfl⟩ := h
        exact ⟨_, by rw [if_pos he], fun _ => rfl, fun h => absurd h (by simp)⟩
      · next he =>
        rw [if_neg he]
        split at h
        · cases h
        · next cs hc =>
          rw [hc]
          exact bfsCtxLoop_enc d _ _ _ b t' h
  rw [Fail.bfsCtxNext, Fail.streamNextE] at h
  rw [bfsCtxNext, Fail.streamNextE]
  cases ha : @Fail.bfsCtxAdvance _ _ (ghost d).toSplitNode Option.isNone s with
  | error e => rw [ha] at h; cases h
  | ok r =>
    obtain ⟨b, t1⟩ := r
    rw [ha] at h
    obtain ⟨s1, h1, h2, h3⟩ := key b t1 ha
    rw [h1]
    cases b with
    | true =>
      simp only [Except.ok.injEq, Prod.mk.injEq] at h
      obtain ⟨rfl, rfl⟩ := h
      exact ⟨_, rfl, fun h => absurd rfl h, fun _ => h3 rfl⟩
    | false =>
      obtain rfl := h2 rfl
      simp only [Except.ok.injEq, Prod.mk.injEq] at h
      obtain ⟨rfl, rfl⟩ := h
      refine ⟨_, rfl, fun _ => rfl, fun h => ?_⟩
      cases hg : Bfs.ctxGet t1 <;> simp [hg] at h

/-! ## Leaves with ancestors of a breadth-first traversal, if no first call panics -/

/-- No child iterator panics at its first call. -/
def Calm (o : Option N) : Prop := ∀ n, some n ∈ (pollTree o).preorder → firstPanics n = false

theorem calm_some (n : N) : Calm (some n) ↔ firstPanics n = false ∧ ∀ o ∈ callsF n, Calm o := by
  simp only [Calm, pollTree_some, Tree.preorder_node, List.mem_cons, Option.some.injEq, List.flatMap_map,
    List.mem_flatMap]
  constructor
  · exact fun h => ⟨h n (.inl rfl), fun o ho m hm => h m (.inr ⟨o, ho, hm⟩)⟩
  · rintro ⟨h1, h2⟩ m (rfl | ⟨o, ho, hm⟩)
    · exact h1
    · exact h2 o ho m hm

/-- The queue holds only calls that are calm, and as long as the root may be answered the first call does not panic. -/
def CalmQ (isRoot : Bool) (q : List (List (Option N))) : Prop :=
  (∀ l ∈ q, ∀ o ∈ l, Calm o) ∧ (isRoot = true → ∀ os q', q ≠ (none :: os) :: q')

theorem bfsLeavesAncLoop_enc (isRoot : Bool) (q : List (List (Option N))) (cs : Bfs.CacheState V)
    (hq : CalmQ isRoot q) :
    @Fail.bfsLeavesAncLoop _ _ (ghost d) Option.isNone isRoot q cs = bfsLeavesAncLoop isRoot q cs ∧
      ∀ b s, bfsLeavesAncLoop isRoot q cs = .ok (b, s) → CalmQ s.isRoot s.queue := by
  let _ := ghost (N := N) d
  fun_induction bfsLeavesAncLoop isRoot q cs with
  | case1 isRoot cs =>
    refine ⟨by rw [Fail.bfsLeavesAncLoop], fun b s h => ?_⟩
    simp only [Except.ok.injEq, Prod.mk.injEq] at h
    obtain ⟨rfl, rfl⟩ := h
    exact ⟨by simp, by simp⟩
  | case2 isRoot cs it q e he => exact ⟨by rw [Fail.bfsLeavesAncLoop, he], fun b s h => by cases h⟩
  | case3 isRoot cs q cs' he os =>
    have hf : isRoot = false := by
      cases isRoot with
      | false => rfl
      | true => exact absurd rfl (hq.2 rfl os q)
    subst hf
    refine ⟨by rw [Fail.bfsLeavesAncLoop, he]; rfl, fun b s h => ?_⟩
    simp only [Except.ok.injEq, Prod.mk.injEq] at h
    obtain ⟨rfl, rfl⟩ := h
    refine ⟨fun l hl o ho => ?_, by simp⟩
    rcases List.mem_cons.1 hl with rfl | hl
    · exact hq.1 _ List.mem_cons_self o (by simp [ho])
    · exact hq.1 l (by simp [hl]) o ho
  | case4 isRoot cs q cs' he n os x hx =>
    have := ((calm_some n).1 (hq.1 _ List.mem_cons_self (some n) (by simp))).1
    rw [firstPanics, hx] at this
    cases this
  | case5 isRoot cs q cs' he n os hx =>
    have hc := ((calm_some n).1 (hq.1 _ List.mem_cons_self (some n) (by simp))).2
    have hk : @kids _ _ (ghost d).toSplitNode (some n) = [] := hx
    refine ⟨by rw [Fail.bfsLeavesAncLoop, he]; simp [hk, hx]; rfl, fun b s h => ?_⟩
    simp only [Except.ok.injEq, Prod.mk.injEq] at h
    obtain ⟨rfl, rfl⟩ := h
    refine ⟨fun l hl o ho => ?_, by simp⟩
    simp only [List.mem_append, List.mem_cons, List.not_mem_nil, or_false] at hl
    rcases hl with (rfl | hl) | rfl
    · exact hq.1 _ List.mem_cons_self o (by simp [ho])
    · exact hq.1 l (by simp [hl]) o ho
    · exact hc o ho
  | case6 isRoot cs q cs' he n os c l' hx ih =>
    have hc := ((calm_some n).1 (hq.1 _ List.mem_cons_self (some n) (by simp))).2
    have hk : @kids _ _ (ghost d).toSplitNode (some n) = callsF n := rfl
    have hv : @val _ _ (ghost d).toSplitNode (some n) = valF n := rfl
    have := ih ⟨fun l hl o ho => by
      simp only [List.mem_append, List.mem_cons, List.not_mem_nil, or_false] at hl
      rcases hl with (rfl | hl) | rfl
      · exact hq.1 _ List.mem_cons_self o (by simp [ho])
      · exact hq.1 l (by simp [hl]) o ho
      · exact hc o ho, by simp⟩
    refine ⟨?_, this.2⟩
    rw [Fail.bfsLeavesAncLoop, he]
    simp only [Option.isNone_some, Bool.false_eq_true, if_false, hk, hv]
    rw [if_neg (by simp [hx])]
    exact this.1
  | case7 cs q cs' he =>
    refine ⟨by rw [Fail.bfsLeavesAncLoop, he]; rfl, fun b s h => ?_⟩
    simp only [Except.ok.injEq, Prod.mk.injEq] at h
    obtain ⟨rfl, rfl⟩ := h
    exact ⟨hq.1, by simp⟩
  | case8 isRoot cs q cs' he hr e hc =>
    exact ⟨by rw [Fail.bfsLeavesAncLoop, he]; simp [hr, hc], fun b s h => by cases h⟩
  | case9 isRoot cs q cs' he hr c hc ih =>
    have := ih ⟨fun l hl => hq.1 l (by simp [hl]), fun h => absurd h hr⟩
    refine ⟨?_, this.2⟩
    rw [Fail.bfsLeavesAncLoop, he]
    simp only
    rw [if_neg hr, hc]
    exact this.1

theorem bfsLeavesAncNext_enc (s : Bfs.AncState (Option N) V) (hq : CalmQ s.isRoot s.queue) :
    @Fail.bfsLeavesAncNext _ _ (ghost d) Option.isNone s = bfsLeavesAncNext s ∧
      ∀ o s', bfsLeavesAncNext s = .ok (o, s') → CalmQ s'.isRoot s'.queue := by
  let _ := ghost (N := N) d
  obtain ⟨h1, h2⟩ := bfsLeavesAncLoop_enc d s.isRoot s.queue s.cs hq
  rw [Fail.bfsLeavesAncNext, bfsLeavesAncNext, Fail.streamNextE, Fail.streamNextE, Fail.bfsLeavesAncAdvance,
    bfsLeavesAncAdvance, h1]
  refine ⟨rfl, fun o s' h => ?_⟩
  cases hl : bfsLeavesAncLoop s.isRoot s.queue s.cs with
  | error e => rw [hl] at h; cases h
  | ok r =>
    obtain ⟨b, s1⟩ := r
    rw [hl] at h
    have := h2 b s1 hl
    cases b <;> simp only [Except.ok.injEq, Prod.mk.injEq] at h <;> obtain ⟨-, rfl⟩ := h <;> exact this

end

section Inv
variable {S : Type u} {O : Type w}

theorem nthCallE_inv {f g : S → Except Panic (Option O × S)} (P : S → Prop)
    (h : ∀ s, P s → g s = f s ∧ ∀ o s', f s = .ok (o, s') → P s') (k : Nat) (s : S) (hs : P s) :
    nthCallE f k s = nthCallE g k s := by
  induction k generalizing s with
  | zero => simp [nthCallE, stateAfterE, (h s hs).1]
  | succ k ih =>
    simp only [nthCallE, stateAfterE, (h s hs).1]
    cases hf : f s with
    | error e => rfl
    | ok r => simpa only [nthCallE] using ih r.2 ((h s hs).2 r.1 r.2 hf)

end Inv

end Flaky

end TreeIter
