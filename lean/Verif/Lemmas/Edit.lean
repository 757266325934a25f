import Verif.Model.Edit
import Verif.Spec.Edit
import Verif.Lemmas.Preorder
import Verif.Lemmas.BfsCtx

/-! # Lemmas about editing the context between two steps -/

universe u v w x y

namespace TreeIter

/-- A machine whose calls return the items of `os` and then `None`, the client's world being `wf` at the end. -/
def Shows {S : Type u} {O : Type v} {σ : Type w} (next : S × σ → Except Panic (Option O × S × σ)) (s : S × σ) (os : List O)
    (wf : σ) : Prop :=
  ∀ k, nthCallE next k s = .ok os[k]? ∧ (os.length ≤ k → ∃ st, stateAfterE next k s = .ok (st, wf))

section Shows
variable {S : Type u} {O : Type v} {σ : Type w} {next : S × σ → Except Panic (Option O × S × σ)} {s s' : S × σ} {os : List O}
  {wf : σ}

theorem Shows.cons {o : O} (h : next s = .ok (some o, s')) (hs : Shows next s' os wf) : Shows next s (o :: os) wf := by
  intro k
  cases k with
  | zero => simp [nthCallE, stateAfterE, h]
  | succ k =>
    obtain ⟨h1, h2⟩ := hs k
    refine ⟨?_, fun hk => ?_⟩
    · rw [nthCallE, stateAfterE, h]
      exact h1
    · obtain ⟨st, h3⟩ := h2 (by simpa using hk)
      exact ⟨st, by rw [stateAfterE, h]; exact h3⟩

theorem Shows.done (inv : S → Prop) (hi : ∀ st w, inv st → ∃ st', next (st, w) = .ok (none, st', w) ∧ inv st') {st : S}
    (h : inv st) : Shows next (st, wf) [] wf := by
  have key : ∀ k st, inv st → ∃ st', stateAfterE next k (st, wf) = .ok (st', wf) ∧ inv st' := by
    intro k
    induction k with
    | zero => exact fun st h => ⟨st, rfl, h⟩
    | succ k ih =>
      intro st h
      obtain ⟨st', h1, h2⟩ := hi st wf h
      obtain ⟨st'', h3, h4⟩ := ih st' h2
      exact ⟨st'', by rw [stateAfterE, h1]; exact h3, h4⟩
  intro k
  obtain ⟨st', h1, h2⟩ := key k st h
  obtain ⟨st'', h3, -⟩ := hi st' wf h2
  refine ⟨by simp [nthCallE, h1, h3], fun _ => ⟨st', h1⟩⟩

/-- One more call that returns `None`. -/
theorem Shows.none (inv : S → Prop) (hi : ∀ st w, inv st → ∃ st', next (st, w) = .ok (none, st', w) ∧ inv st') {st st' : S}
    (h : next (st, wf) = .ok (none, st', wf)) (h' : inv st') : Shows next (st, wf) [] wf := by
  have hd := Shows.done (wf := wf) inv hi h'
  intro k
  cases k with
  | zero => exact ⟨by simp [nthCallE, stateAfterE, h], fun _ => ⟨st, rfl⟩⟩
  | succ k =>
    obtain ⟨h1, h2⟩ := hd k
    refine ⟨?_, fun _ => ?_⟩
    · rw [nthCallE, stateAfterE, h]
      simpa [nthCallE] using h1
    · obtain ⟨st'', h3⟩ := h2 (by simp)
      exact ⟨st'', by rw [stateAfterE, h]; exact h3⟩

end Shows

/-! ## Preorder, general nodes -/

namespace Preorder
variable {N : Type u} {V : Type v} {σ : Type w}

section General
variable [TreeNode N V] {e : σ → Ctx V (List N) → σ × List V × List N}

/-- What the client sees when the search for the next node starts with this stack, path and ancestors. -/
inductive Gives (e : σ → Ctx V (List N) → σ × List V × List N) :
    List (List N) → List Nat → List V → σ → List (Ctx V (List N)) → σ → Prop where
  | done {stack : List (List N)} {path : List Nat} {anc : List V} {w : σ} {r : List (List N) × List Nat × List V}
      (h : ctxLoop stack path anc = .ok (none, r)) : Gives e stack path anc w [] w
  | step {stack st : List (List N)} {path path' : List Nat} {anc anc' anc1 : List V} {w w1 wf : σ} {n : N} {cs : List N}
      {out : List (Ctx V (List N))}
      (h : ctxLoop stack path anc = .ok (some n, st, path', anc'))
      (he : e w (ctxAt path'.reverse anc'.reverse n) = (w1, anc1, cs)) (hne : anc1 ≠ [])
      (hg : Gives e (cs :: st) (usizeMax :: path') anc1.reverse w1 out wf) :
      Gives e stack path anc w (ctxAt path'.reverse anc'.reverse n :: out) wf

theorem Gives.congr {stack stack' : List (List N)} {path path' : List Nat} {anc anc' : List V} {w wf : σ}
    {out : List (Ctx V (List N))} (h : Gives e stack path anc w out wf)
    (hl : ctxLoop stack' path' anc' = ctxLoop stack path anc) : Gives e stack' path' anc' w out wf := by
  cases h with
  | done h => exact .done (hl.trans h)
  | step h he hne hg => exact .step (hl.trans h) he hne hg

theorem editPre_length {p : List Nat} {i : Nat} {ns : List N} {s s' : σ × List V} {out : List (Ctx V (List N))}
    (h : EditPre e p i ns s s' out) : s'.2.length = s.2.length := by
  induction h with
  | nil => rfl
  | cons he hanc hcs hkids hrest ih1 ih2 =>
    simp only [List.length_dropLast] at ih1 ih2 ⊢
    omega

theorem editPre_gives {p : List Nat} {i : Nat} {ns : List N} {s s' : σ × List V} {out1 : List (Ctx V (List N))}
    (h : EditPre e p i ns s s' out1) : ∀ {q : Nat} {rest : List (List N)} {out2 : List (Ctx V (List N))} {wf : σ},
    (ns ≠ [] → wrapSucc q = i) → i + ns.length ≤ 2 ^ 64 →
    Gives e rest p.reverse s'.2.dropLast.reverse s'.1 out2 wf →
    Gives e (ns :: rest) (q :: p.reverse) s.2.reverse s.1 (out1 ++ out2) wf := by
  induction h with
  | nil =>
    intro q rest out2 wf _ _ hg
    refine hg.congr ?_
    rw [ctxLoop, List.tail_cons, List.tail_reverse]
  | @cons p i n ns w w1 w2 anc anc1 anc2 cs s out1 out2' he hanc hcs hkids hrest ih1 ih2 =>
    intro q rest out2 wf hq hi hg
    simp only [List.length_cons] at hi
    have hq := hq (by simp)
    have h2 := ih2 (q := i) (rest := rest) (fun hne => by
      have : 0 < ns.length := List.length_pos_iff.2 hne
      rw [wrapSucc, Nat.mod_eq_of_lt (by omega)]) (by omega) hg
    have h1 := ih1 (q := usizeMax) (rest := ns :: rest) (fun _ => by decide) (by omega)
      (by rw [List.reverse_append]; exact h2)
    rw [List.reverse_append] at h1
    have := Gives.step (e := e) (stack := (n :: ns) :: rest) (path := q :: p.reverse) (anc := anc.reverse) (w := w)
      (path' := i :: p.reverse) (anc' := anc.reverse) (n := n) (st := ns :: rest) (by rw [ctxLoop, hq])
      (by simpa using he) (by rintro rfl; simp at hanc) h1
    simpa using this

theorem gives_shows {stack : List (List N)} {path : List Nat} {anc : List V} {w wf : σ} {out : List (Ctx V (List N))}
    (h : Gives e stack path anc w out wf) : ∀ {st : CtxState N V}, anc ≠ [] →
    st.root = none → (∃ cs rest p, stack = cs :: rest ∧ path = usizeMax :: p ∧ st.stack = rest ∧ st.path = p ∧
      st.ancestors = anc ∧ st.children = some cs) → Shows (editNext ctxNext putCtx e) (st, w) out wf := by
  induction h with
  | @done stack path anc w r h =>
    rintro ⟨root, stk, pth, an, ch⟩ hne rfl ⟨cs, rest, p, rfl, rfl, rfl, rfl, rfl, rfl⟩
    refine Shows.none (fun st => st.root = none ∧ st.ancestors = []) ?_
      (st' := ⟨none, r.1, r.2.1, [], none⟩) ?_ ⟨rfl, rfl⟩
    · rintro ⟨root, stk, pth, an, ch⟩ w ⟨rfl, rfl⟩
      exact ⟨_, rfl, rfl, rfl⟩
    · have : an.isEmpty = false := by simpa using hne
      simp [editNext, ctxNext, streamNextE, ctxAdvance, this, h, ctxFinish, ctxGet]
  | @step stack st path path' anc anc' anc1 w w1 wf n cs out h he hne hg ih =>
    rintro ⟨root, stk, pth, an, ch⟩ hne' rfl ⟨cs', rest, p, rfl, rfl, rfl, rfl, rfl, rfl⟩
    have : an.isEmpty = false := by simpa using hne'
    refine Shows.cons (s' := (⟨none, st, path', anc1.reverse, some cs⟩, w1)) ?_
      (ih (by simpa using hne) rfl ⟨cs, st, path', rfl, rfl, rfl, rfl, rfl, rfl⟩)
    simp [editNext, ctxNext, streamNextE, ctxAdvance, this, h, ctxFinish, ctxGet, putCtx]
    simp [ctxAt] at he ⊢
    simp [he]

theorem editRoot_shows {n : N} {w wf : σ} {out : List (Ctx V (List N))} (h : EditRoot e n w wf out) :
    Shows (editNext ctxNext putCtx e) (CtxState.new n [], w) out wf := by
  cases h with
  | @mk w1 w2 anc1 anc2 cs out he hanc hcs hkids =>
    have hlen := editPre_length hkids
    simp only at hlen
    have h1 := editPre_gives hkids (q := usizeMax) (rest := []) (out2 := []) (wf := wf) (fun _ => by decide) (by omega)
      (Gives.done (r := ([], [], anc2.dropLast.reverse)) (by rw [List.reverse_nil, ctxLoop]))
    rw [List.append_nil] at h1
    refine Shows.cons (s' := (⟨none, [], [], anc1.reverse, some cs⟩, w1)) ?_
      (gives_shows h1 (by rintro h; simp at h; simp [h] at hanc) rfl ⟨cs, [], [], rfl, rfl, rfl, rfl, rfl, rfl⟩)
    simp [editNext, ctxNext, streamNextE, ctxAdvance, CtxState.new, ctxGet, putCtx]
    simp [ctxAt] at he ⊢
    simp [he]

end General

/-! ## Preorder, binary nodes -/

section Binary
variable [BinNode N V] {e : σ → Ctx V (Option N × Option N) → σ × List V × Option N × Option N}

/-- What the client sees when the search for the next node starts with this stack, path and ancestors. -/
inductive Gives2 (e : σ → Ctx V (Option N × Option N) → σ × List V × Option N × Option N) :
    List (List (Option N)) → List Nat → List V → σ → List (Ctx V (Option N × Option N)) → σ → Prop where
  | done {stack : List (List (Option N))} {path : List Nat} {anc : List V} {w : σ}
      {r : List (List (Option N)) × List Nat × List V}
      (h : binCtxLoop stack path anc = .ok (none, r)) : Gives2 e stack path anc w [] w
  | step {stack st : List (List (Option N))} {path path' : List Nat} {anc anc' anc1 : List V} {w w1 wf : σ} {n : N}
      {l r : Option N} {out : List (Ctx V (Option N × Option N))}
      (h : binCtxLoop stack path anc = .ok (some n, st, path', anc'))
      (he : e w (ctxAt2 path'.reverse anc'.reverse n) = (w1, anc1, l, r)) (hne : anc1 ≠ [])
      (hg : Gives2 e ([l, r] :: st) (usizeMax :: path') anc1.reverse w1 out wf) :
      Gives2 e stack path anc w (ctxAt2 path'.reverse anc'.reverse n :: out) wf

theorem Gives2.congr {stack stack' : List (List (Option N))} {path path' : List Nat} {anc anc' : List V} {w wf : σ}
    {out : List (Ctx V (Option N × Option N))} (h : Gives2 e stack path anc w out wf)
    (hl : binCtxLoop stack' path' anc' = binCtxLoop stack path anc) : Gives2 e stack' path' anc' w out wf := by
  cases h with
  | done h => exact .done (hl.trans h)
  | step h he hne hg => exact .step (hl.trans h) he hne hg

theorem editPre2_length {p : List Nat} {i : Nat} {ss : List (Option N)} {s s' : σ × List V}
    {out : List (Ctx V (Option N × Option N))} (h : EditPre2 e p i ss s s' out) : s'.2.length = s.2.length := by
  induction h with
  | nil => rfl
  | none hrest ih => exact ih
  | some he hanc hkids hrest ih1 ih2 =>
    simp only [List.length_dropLast] at ih1 ih2 ⊢
    omega

theorem editPre2_gives {p : List Nat} {i : Nat} {ss : List (Option N)} {s s' : σ × List V}
    {out1 : List (Ctx V (Option N × Option N))} (h : EditPre2 e p i ss s s' out1) :
    ∀ {q : Nat} {rest : List (List (Option N))} {out2 : List (Ctx V (Option N × Option N))} {wf : σ},
    (ss ≠ [] → wrapSucc q = i) → i + ss.length ≤ 2 ^ 64 →
    Gives2 e rest p.reverse s'.2.dropLast.reverse s'.1 out2 wf →
    Gives2 e (ss :: rest) (q :: p.reverse) s.2.reverse s.1 (out1 ++ out2) wf := by
  have hw : ∀ {i : Nat} {ss : List (Option N)}, i + (ss.length + 1) ≤ 2 ^ 64 → ss ≠ [] → wrapSucc i = i + 1 := by
    intro i ss hi hne
    have : 0 < ss.length := List.length_pos_iff.2 hne
    rw [wrapSucc, Nat.mod_eq_of_lt (by omega)]
  induction h with
  | nil =>
    intro q rest out2 wf _ _ hg
    refine hg.congr ?_
    rw [binCtxLoop, List.tail_cons, List.tail_reverse]
  | @none p i ss s s' out1 hrest ih =>
    intro q rest out2 wf hq hi hg
    simp only [List.length_cons] at hi
    refine (ih (q := i) (hw hi) (by omega) hg).congr ?_
    rw [binCtxLoop, hq (by simp)]
  | @some p i n ss w w1 w2 anc anc1 anc2 l r s out1 out2' he hanc hkids hrest ih1 ih2 =>
    intro q rest out2 wf hq hi hg
    simp only [List.length_cons] at hi
    have hq := hq (by simp)
    have h2 := ih2 (q := i) (rest := rest) (hw hi) (by omega) hg
    have h1 := ih1 (q := usizeMax) (rest := ss :: rest) (fun _ => by decide) (by simp)
      (by rw [List.reverse_append]; exact h2)
    rw [List.reverse_append] at h1
    have := Gives2.step (e := e) (stack := (some n :: ss) :: rest) (path := q :: p.reverse) (anc := anc.reverse) (w := w)
      (path' := i :: p.reverse) (anc' := anc.reverse) (n := n) (st := ss :: rest) (by rw [binCtxLoop, hq])
      (by simpa using he) (by rintro rfl; simp at hanc) h1
    simpa using this

theorem gives2_shows {stack : List (List (Option N))} {path : List Nat} {anc : List V} {w wf : σ}
    {out : List (Ctx V (Option N × Option N))}
    (h : Gives2 e stack path anc w out wf) : ∀ {st : BinCtxState N V}, anc ≠ [] →
    st.root = none → (∃ cs : Option N × Option N, ∃ rest p, stack = [cs.1, cs.2] :: rest ∧ path = usizeMax :: p ∧
      st.stack = rest ∧ st.path = p ∧ st.ancestors = anc ∧ st.children = some cs) →
    Shows (editNext binCtxNext putBinCtx e) (st, w) out wf := by
  induction h with
  | @done stack path anc w r h =>
    rintro ⟨root, stk, pth, an, ch⟩ hne rfl ⟨cs, rest, p, rfl, rfl, rfl, rfl, rfl, rfl⟩
    refine Shows.none (fun st => st.root = none ∧ st.ancestors = []) ?_
      (st' := ⟨none, r.1, r.2.1, [], none⟩) ?_ ⟨rfl, rfl⟩
    · rintro ⟨root, stk, pth, an, ch⟩ w ⟨rfl, rfl⟩
      exact ⟨_, rfl, rfl, rfl⟩
    · have : an.isEmpty = false := by simpa using hne
      simp [editNext, binCtxNext, streamNextE, binCtxAdvance, this, h, binCtxFinish, binCtxGet]
  | @step stack st path path' anc anc' anc1 w w1 wf n l r out h he hne hg ih =>
    rintro ⟨root, stk, pth, an, ch⟩ hne' rfl ⟨cs', rest, p, rfl, rfl, rfl, rfl, rfl, rfl⟩
    have : an.isEmpty = false := by simpa using hne'
    refine Shows.cons (s' := (⟨none, st, path', anc1.reverse, some (l, r)⟩, w1)) ?_
      (ih (by simpa using hne) rfl ⟨(l, r), st, path', rfl, rfl, rfl, rfl, rfl, rfl⟩)
    simp [editNext, binCtxNext, streamNextE, binCtxAdvance, this, h, binCtxFinish, binCtxGet, putBinCtx]
    simp [ctxAt2] at he ⊢
    simp [he]

theorem editRoot2_shows {n : N} {w wf : σ} {out : List (Ctx V (Option N × Option N))} (h : EditRoot2 e n w wf out) :
    Shows (editNext binCtxNext putBinCtx e) (BinCtxState.new n [], w) out wf := by
  cases h with
  | @mk w1 w2 anc1 anc2 l r out he hanc hkids =>
    have hlen := editPre2_length hkids
    simp only at hlen
    have h1 := editPre2_gives hkids (q := usizeMax) (rest := []) (out2 := []) (wf := wf) (fun _ => by decide) (by simp)
      (Gives2.done (r := ([], [], anc2.dropLast.reverse)) (by rw [List.reverse_nil, binCtxLoop]))
    rw [List.append_nil] at h1
    refine Shows.cons (s' := (⟨none, [], [], anc1.reverse, some (l, r)⟩, w1)) ?_
      (gives2_shows h1 (by rintro h; simp at h; simp [h] at hanc) rfl ⟨(l, r), [], [], rfl, rfl, rfl, rfl, rfl, rfl⟩)
    simp [editNext, binCtxNext, streamNextE, binCtxAdvance, BinCtxState.new, binCtxGet, putBinCtx]
    simp [ctxAt2] at he ⊢
    simp [he]

end Binary
end Preorder

/-! ## Breadth first -/

namespace Bfs
variable {N : Type u} {V : Type v} {σ : Type w} {pre : List Nat}

/-- The nodes waiting, as trees with a single node. -/
def spotsF (path : List Nat) (anc : List V) (i : Nat) (ns : List N) : List (Tree (Spot N V)) :=
  (spots path anc i ns).map fun s => .node s []

/-- The nodes waiting in slots. -/
def slotSpotsF (path : List Nat) (anc : List V) (i : Nat) (ss : List (Option N)) : List (Tree (Spot N V)) :=
  (slotSpots path anc i ss).map fun s => .node s []

section General
variable [TreeNode N V] {e : σ → Ctx V (List N) → σ × List N}

/-- The path counter cannot overflow. -/
def QOk (queue : List (List N)) (counter : Nat) : Prop :=
  (∀ ns ∈ queue, ns.length < 2 ^ 64) ∧ ∀ ns, queue.head? = some ns → counter + ns.length < 2 ^ 64

theorem QOk.tail {it : List N} {q : List (List N)} {c : Nat} (h : QOk (it :: q) c) : QOk q 0 :=
  ⟨fun ns hns => h.1 ns (by simp [hns]), fun ns hns => by
    have := h.1 ns (by simp [List.mem_of_mem_head? hns])
    omega⟩

theorem ctxLoop_edit (queue : List (List N)) (cc : CtxCache V) (counter : Nat) (sps : List (Spot N V))
    (h : CtxRun spotsF pre cc queue counter (sps.map fun s => .node s [])) (ha : QOk queue counter) :
    ∃ s', ctxLoop queue cc counter = .ok s' ∧ s'.isRoot = false ∧ (sps = [] → s'.cc.ancestors = []) ∧
      ∀ sp rest, sps = sp :: rest → ctxGet s' = some (ctxAt sp.path sp.above sp.node) ∧ s'.cc.ancestors ≠ [] ∧
        ∀ cs : List N, cs.length < 2 ^ 64 →
          CtxRun spotsF pre s'.cc (s'.queue ++ [cs]) s'.counter
            ((rest ++ spots sp.path (sp.above ++ [val sp.node]) 0 cs).map fun s => .node s []) ∧
          QOk (s'.queue ++ [cs]) s'.counter := by
  induction queue generalizing cc counter with
  | nil =>
    obtain ⟨z, _, h2, _⟩ := h
    simp at h2
  | cons it q ih =>
    obtain ⟨z, h1, h2, h3, h4⟩ := h
    cases it with
    | cons n ns =>
      have hc : counter + (n :: ns).length < 2 ^ 64 := ha.2 _ rfl
      have e1 : checkedSucc counter = .ok (counter + 1) := by
        rw [checkedSucc, if_pos]
        simp only [List.length_cons] at hc
        omega
      refine ⟨⟨false, ⟨val n :: (ofCache pre z.enc).ancestors, counter :: (ofCache pre z.enc).path,
        (ofCache pre z.enc).stack, (ofCache pre z.enc).cache⟩, some (kids n), ns :: q, counter + 1⟩, ?_, rfl, ?_, ?_⟩
      · rw [ctxLoop, h1]
        simp only [e1]
      · rintro rfl
        simp [pendQ, spotsF, spots] at h4
      · rintro sp rest rfl
        simp only [List.map_cons, pendQ, spotsF, spots, List.cons_append, List.cons.injEq, Tree.node.injEq, and_true] at h4
        obtain ⟨rfl, h4⟩ := h4
        refine ⟨?_, by simp, fun cs hcs => ⟨?_, ?_, ?_⟩⟩
        · simp [ctxGet, ofCache, pathOf, valsOf, Zip.items_enc, ctxAt]
        · have e2 := ctxRun_push (F := spotsF) (pre := pre) z (val n) counter (n :: ns) ns cs q h2 h3
          rw [List.map_append, h4]
          exact e2
        · intro ms hms
          rcases List.mem_append.1 hms with hms | hms
          · rcases List.mem_cons.1 hms with rfl | hms
            · simp only [List.length_cons] at hc
              omega
            · exact ha.1 ms (by simp [hms])
          · obtain rfl : ms = cs := by simpa using hms
            exact hcs
        · intro ms hms
          obtain rfl : ns = ms := by simpa using hms
          simp only [List.length_cons] at hc ⊢
          omega
    | nil =>
      obtain ⟨r1, r2, r3⟩ := ctxRun_retire (F := spotsF) (pre := pre) z ([] : List N) q counter
        (fun _ _ => rfl) h2 h3
      by_cases hq : q = []
      · obtain ⟨s, hs⟩ := r1 hq
        refine ⟨⟨false, { s with ancestors := [] }, none, [], 0⟩, ?_, rfl, fun _ => rfl, ?_⟩
        · rw [ctxLoop, h1]
          simp [hs, hq]
        · rintro sp rest rfl
          rw [r3 hq] at h4
          simp at h4
      · obtain ⟨z', e1, e2⟩ := r2 hq
        have e3 : ctxLoop ([] :: q) cc counter = ctxLoop q (ofCache pre z'.enc) 0 := by
          rw [ctxLoop, h1]
          simp [e1, hq]
        rw [e3]
        exact ih _ 0 (h4 ▸ e2) ha.tail

/-- The nodes waiting, the first of them being visited first. -/
inductive QGives (e : σ → Ctx V (List N) → σ × List N) : σ → List (Spot N V) → σ → List (Ctx V (List N)) → Prop where
  | done {w : σ} : QGives e w [] w []
  | step {w w1 wf : σ} {sp : Spot N V} {sps : List (Spot N V)} {cs : List N} {out : List (Ctx V (List N))}
      (he : e w (ctxAt sp.path sp.above sp.node) = (w1, cs)) (hcs : cs.length < 2 ^ 64)
      (hg : QGives e w1 (sps ++ spots sp.path (sp.above ++ [val sp.node]) 0 cs) wf out) :
      QGives e w (sp :: sps) wf (ctxAt sp.path sp.above sp.node :: out)

theorem level_gives (level : List (Spot N V)) : ∀ {w wf : σ} {later : List (Spot N V)} {out : List (Ctx V (List N))},
    levelOk e w level → QGives e (editLevel e w level).1 (later ++ (editLevel e w level).2.2) wf out →
    QGives e w (level ++ later) wf ((editLevel e w level).2.1 ++ out) := by
  induction level with
  | nil => intro w wf later out _ h; simpa [editLevel] using h
  | cons sp sps ih =>
    intro w wf later out hok h
    refine .step rfl hok.1 ?_
    simp only [List.append_eq]
    rw [List.append_assoc]
    refine ih hok.2 ?_
    simp only [editLevel, ctxAt, List.append_assoc] at h ⊢
    exact h

theorem editBfs_gives {w wf : σ} {level : List (Spot N V)} {out : List (Ctx V (List N))} (h : EditBfs e w level wf out) :
    QGives e w level wf out := by
  induction h with
  | nil => exact .done
  | level hl hok hnext ih => simpa using level_gives _ hok (later := []) (by simpa using ih)

theorem editDone (st : CtxState V (List N) N) (w : σ) (h : st.isRoot = false ∧ st.cc.ancestors = []) :
    ∃ st', editNext ctxNext putChildren e (st, w) = .ok (none, st', w) ∧ st'.isRoot = false ∧ st'.cc.ancestors = [] :=
  ⟨st, by simp [editNext, ctxNext, streamNextE, ctxAdvance, h.1, h.2, ctxGet], h⟩

theorem qgives_shows {w wf : σ} {sps : List (Spot N V)} {out : List (Ctx V (List N))} (h : QGives e w sps wf out) :
    ∀ {s : CtxState V (List N) N} {cs : List N}, s.isRoot = false → s.cc.ancestors ≠ [] → s.children = some cs →
    CtxRun spotsF pre s.cc (s.queue ++ [cs]) s.counter (sps.map fun s => .node s []) →
    QOk (s.queue ++ [cs]) s.counter → Shows (editNext ctxNext putChildren e) (s, w) out wf := by
  induction h with
  | @done w =>
    intro s cs hr hn hc h ha
    obtain ⟨s', e1, e2, e3, -⟩ := ctxLoop_edit _ _ _ [] h ha
    have hn' : s.cc.ancestors.isEmpty = false := by simpa using hn
    refine Shows.none _ editDone (st' := s') ?_ ⟨e2, e3 rfl⟩
    simp [editNext, ctxNext, streamNextE, ctxAdvance, hr, hn', hc, e1, ctxGet, e3 rfl]
  | @step w w1 wf sp sps cs' out he hcs hg ih =>
    intro s cs hr hn hc h ha
    obtain ⟨s', e1, e2, -, e4⟩ := ctxLoop_edit _ _ _ _ h ha
    have hn' : s.cc.ancestors.isEmpty = false := by simpa using hn
    obtain ⟨f1, f2, f3⟩ := e4 sp sps rfl
    obtain ⟨f4, f5⟩ := f3 cs' hcs
    refine Shows.cons (s' := (putChildren s' cs', w1)) ?_ (ih (cs := cs') e2 f2 rfl f4 f5)
    simp [editNext, ctxNext, streamNextE, ctxAdvance, hr, hn', hc, e1, f1, he]

theorem editBfs_shows {n : N} {w wf : σ} {out : List (Ctx V (List N))} (h : EditBfs e w [⟨[], [], n⟩] wf out) :
    Shows (editNext ctxNext putChildren e) (CtxState.new n [], w) out wf := by
  cases editBfs_gives h with
  | @step _ w1 _ _ _ cs out he hcs hg =>
    refine Shows.cons (s' := (⟨false, ⟨[val n], [], [], .mk none []⟩, some cs, [], 0⟩, w1)) ?_
      (qgives_shows (pre := []) (cs := cs) hg rfl (by simp) rfl ⟨.root (val n, 0) [], rfl, rfl, ?_, ?_⟩ ?_)
    · simp [editNext, ctxNext, streamNextE, ctxAdvance, CtxState.new, ctxGet, putChildren]
      simp [ctxAt] at he ⊢
      simp [he]
    · exact ⟨by simp [Zip.cur, Zip.others], by simp [Zip.others]⟩
    · simp [Zip.cur, Zip.others, pendQ, pathOf, valsOf, spotsF]
    · exact ⟨by simpa using hcs, by simpa using hcs⟩

end General

section Binary
variable [BinNode N V] {e : σ → Ctx V (Option N × Option N) → σ × Option N × Option N}

omit [BinNode N V] in
theorem binScan_edit (it : List (Option N)) (c : Nat) (h : c + it.length ≤ 2) :
    (∃ c', binScan it c = .ok (none, [], c') ∧ ∀ path (anc : List V), slotSpotsF path anc c it = []) ∨
      ∃ n ss c', binScan it c = .ok (some n, ss, c') ∧ c' + 1 + ss.length ≤ 2 ∧
        ∀ path (anc : List V), slotSpotsF path anc c it =
          .node ⟨path ++ [c'], anc, n⟩ [] :: slotSpotsF path anc (c' + 1) ss := by
  induction it generalizing c with
  | nil => exact .inl ⟨c, rfl, fun _ _ => rfl⟩
  | cons o it ih =>
    simp only [List.length_cons] at h
    cases o with
    | none =>
      have := ih (c + 1) (by omega)
      simp only [binScan, checkedSucc_ok (show c < 2 by omega), slotSpotsF, slotSpots]
      exact this
    | some n =>
      exact .inr ⟨n, it, c, rfl, by omega, fun _ _ => rfl⟩

theorem binCtxLoop_edit (queue : List (List (Option N))) (cc : CtxCache V) (counter : Nat) (sps : List (Spot N V))
    (h : CtxRun slotSpotsF pre cc queue counter (sps.map fun s => .node s [])) (ha : SlQ queue counter) :
    ∃ s', binCtxLoop queue cc counter = .ok s' ∧ s'.isRoot = false ∧ (sps = [] → s'.cc.ancestors = []) ∧
      ∀ sp rest, sps = sp :: rest → ctxGet s' = some (ctxAt2 sp.path sp.above sp.node) ∧ s'.cc.ancestors ≠ [] ∧
        ∀ cs : Option N × Option N,
          CtxRun slotSpotsF pre s'.cc (s'.queue ++ [[cs.1, cs.2]]) s'.counter
            ((rest ++ slotSpots sp.path (sp.above ++ [val2 sp.node]) 0 [cs.1, cs.2]).map fun s => .node s []) ∧
          SlQ (s'.queue ++ [[cs.1, cs.2]]) s'.counter := by
  induction queue generalizing cc counter with
  | nil =>
    obtain ⟨z, _, h2, _⟩ := h
    simp at h2
  | cons it q ih =>
    obtain ⟨z, h1, h2, h3, h4⟩ := h
    rcases binScan_edit (V := V) it counter (ha.2 it rfl) with ⟨c', hs, hF⟩ | ⟨n, ss, c', hs, hlen, hF⟩
    · obtain ⟨r1, r2, r3⟩ := ctxRun_retire (F := slotSpotsF) (pre := pre) z it q counter hF h2 h3
      by_cases hq : q = []
      · obtain ⟨s, hs'⟩ := r1 hq
        refine ⟨⟨false, { s with ancestors := [] }, none, [], 0⟩, ?_, rfl, fun _ => rfl, ?_⟩
        · rw [binCtxLoop, h1]
          simp [hs, hs', hq]
        · rintro sp rest rfl
          rw [r3 hq] at h4
          simp at h4
      · obtain ⟨z', e1, e2⟩ := r2 hq
        have e3 : binCtxLoop (it :: q) cc counter = binCtxLoop q (ofCache pre z'.enc) 0 := by
          rw [binCtxLoop, h1]
          simp [hs, e1, hq]
        rw [e3]
        exact ih _ 0 (h4 ▸ e2) ha.tail
    · refine ⟨⟨false, ⟨val2 n :: (ofCache pre z.enc).ancestors, c' :: (ofCache pre z.enc).path,
        (ofCache pre z.enc).stack, (ofCache pre z.enc).cache⟩, some (split2 n).2, ss :: q, c' + 1⟩, ?_, rfl, ?_, ?_⟩
      · rw [binCtxLoop, h1]
        simp only [hs, checkedSucc_ok (show c' < 2 by omega)]
      · rintro rfl
        rw [pendQ, hF] at h4
        simp at h4
      · rintro sp rest rfl
        rw [pendQ, hF, List.map_cons, List.cons_append, List.cons.injEq, Tree.node.injEq] at h4
        obtain ⟨⟨rfl, -⟩, h4⟩ := h4
        refine ⟨?_, by simp, fun cs => ⟨?_, ?_, ?_⟩⟩
        · simp [ctxGet, ofCache, pathOf, valsOf, Zip.items_enc, ctxAt2]
        · have e2 := ctxRun_push (F := slotSpotsF) (pre := pre) z (val2 n) c' it ss [cs.1, cs.2] q h2 h3
          rw [List.map_append, h4]
          exact e2
        · intro ms hms
          rcases List.mem_append.1 hms with hms | hms
          · rcases List.mem_cons.1 hms with rfl | hms
            · omega
            · exact ha.1 ms (by simp [hms])
          · obtain rfl : ms = [cs.1, cs.2] := by simpa using hms
            simp
        · intro ms hms
          obtain rfl : ss = ms := by simpa using hms
          exact hlen

/-- The nodes waiting, the first of them being visited first. -/
inductive QGives2 (e : σ → Ctx V (Option N × Option N) → σ × Option N × Option N) :
    σ → List (Spot N V) → σ → List (Ctx V (Option N × Option N)) → Prop where
  | done {w : σ} : QGives2 e w [] w []
  | step {w w1 wf : σ} {sp : Spot N V} {sps : List (Spot N V)} {cs : Option N × Option N}
      {out : List (Ctx V (Option N × Option N))} (he : e w (ctxAt2 sp.path sp.above sp.node) = (w1, cs))
      (hg : QGives2 e w1 (sps ++ slotSpots sp.path (sp.above ++ [val2 sp.node]) 0 [cs.1, cs.2]) wf out) :
      QGives2 e w (sp :: sps) wf (ctxAt2 sp.path sp.above sp.node :: out)

theorem level_gives2 (level : List (Spot N V)) : ∀ {w wf : σ} {later : List (Spot N V)}
    {out : List (Ctx V (Option N × Option N))},
    QGives2 e (editLevel2 e w level).1 (later ++ (editLevel2 e w level).2.2) wf out →
    QGives2 e w (level ++ later) wf ((editLevel2 e w level).2.1 ++ out) := by
  induction level with
  | nil => intro w wf later out h; simpa [editLevel2] using h
  | cons sp sps ih =>
    intro w wf later out h
    refine .step rfl ?_
    simp only [List.append_eq]
    rw [List.append_assoc]
    refine ih ?_
    simp only [editLevel2, ctxAt2, List.append_assoc] at h ⊢
    exact h

theorem editBfs2_gives {w wf : σ} {level : List (Spot N V)} {out : List (Ctx V (Option N × Option N))}
    (h : EditBfs2 e w level wf out) : QGives2 e w level wf out := by
  induction h with
  | nil => exact .done
  | level hl hnext ih => simpa using level_gives2 _ (later := []) (by simpa using ih)

theorem editDone2 (st : CtxState V (Option N × Option N) (Option N)) (w : σ) (h : st.isRoot = false ∧ st.cc.ancestors = []) :
    ∃ st', editNext binCtxNext putChildren e (st, w) = .ok (none, st', w) ∧ st'.isRoot = false ∧ st'.cc.ancestors = [] :=
  ⟨st, by simp [editNext, binCtxNext, streamNextE, binCtxAdvance, h.1, h.2, ctxGet], h⟩

theorem qgives2_shows {w wf : σ} {sps : List (Spot N V)} {out : List (Ctx V (Option N × Option N))}
    (h : QGives2 e w sps wf out) :
    ∀ {s : CtxState V (Option N × Option N) (Option N)} {cs : Option N × Option N}, s.isRoot = false →
    s.cc.ancestors ≠ [] → s.children = some cs →
    CtxRun slotSpotsF pre s.cc (s.queue ++ [[cs.1, cs.2]]) s.counter (sps.map fun s => .node s []) →
    SlQ (s.queue ++ [[cs.1, cs.2]]) s.counter → Shows (editNext binCtxNext putChildren e) (s, w) out wf := by
  induction h with
  | @done w =>
    intro s cs hr hn hc h ha
    obtain ⟨s', e1, e2, e3, -⟩ := binCtxLoop_edit _ _ _ [] h ha
    have hn' : s.cc.ancestors.isEmpty = false := by simpa using hn
    refine Shows.none _ editDone2 (st' := s') ?_ ⟨e2, e3 rfl⟩
    simp [editNext, binCtxNext, streamNextE, binCtxAdvance, hr, hn', hc, e1, ctxGet, e3 rfl]
  | @step w w1 wf sp sps cs' out he hg ih =>
    intro s cs hr hn hc h ha
    obtain ⟨s', e1, e2, -, e4⟩ := binCtxLoop_edit _ _ _ _ h ha
    have hn' : s.cc.ancestors.isEmpty = false := by simpa using hn
    obtain ⟨f1, f2, f3⟩ := e4 sp sps rfl
    obtain ⟨f4, f5⟩ := f3 cs'
    refine Shows.cons (s' := (putChildren s' cs', w1)) ?_ (ih (cs := cs') e2 f2 rfl f4 f5)
    simp [editNext, binCtxNext, streamNextE, binCtxAdvance, hr, hn', hc, e1, f1, he]

theorem editBfs2_shows {n : N} {w wf : σ} {out : List (Ctx V (Option N × Option N))}
    (h : EditBfs2 e w [⟨[], [], n⟩] wf out) :
    Shows (editNext binCtxNext putChildren e) (CtxState.binNew n [], w) out wf := by
  cases editBfs2_gives h with
  | @step _ w1 _ _ _ cs out he hg =>
    refine Shows.cons (s' := (⟨false, ⟨[val2 n], [], [], .mk none []⟩, some cs, [], 0⟩, w1)) ?_
      (qgives2_shows (pre := []) (cs := cs) hg rfl (by simp) rfl ⟨.root (val2 n, 0) [], rfl, rfl, ?_, ?_⟩ ?_)
    · simp [editNext, binCtxNext, streamNextE, binCtxAdvance, CtxState.binNew, ctxGet, putChildren]
      simp [ctxAt2] at he ⊢
      simp [he]
    · exact ⟨by simp [Zip.cur, Zip.others], by simp [Zip.others]⟩
    · simp [Zip.cur, Zip.others, pendQ, pathOf, valsOf, slotSpotsF]
    · exact ⟨by simp, by simp⟩

end Binary
end Bfs
end TreeIter
