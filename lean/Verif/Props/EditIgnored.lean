import Verif.Model.Edit
import Verif.Props.DepthFirst

/-! # C56: post-order and in-order traversals do not look at the children in the context again -/

universe u v w x y

namespace TreeIter

/-! ## Helpers -/

section Ignore
variable {S : Type u} {O : Type v} {E : Type w} {σ : Type x} {T : Type y}

/-- What `next` makes of a state does not depend on the part that `forget` takes away. -/
def Ignores (next : S → Except Panic (Option O × S)) (forget : S → T) : Prop :=
  ∀ s s', forget s = forget s' →
    (next s).map (fun r => (r.1, forget r.2)) = (next s').map (fun r => (r.1, forget r.2))

theorem nthCallE_editNext {next : S → Except Panic (Option O × S)} {put : S → E → S} {forget : S → T}
    (hn : Ignores next forget) (hp : ∀ s x, forget (put s x) = forget s) (e : σ → O → σ × E) (k : Nat) :
    ∀ (s s' : S) (w : σ), forget s = forget s' → nthCallE (editNext next put e) k (s, w) = nthCallE next k s' := by
  induction k with
  | zero =>
    intro s s' w h
    have h1 := hn s s' h
    simp only [nthCallE, stateAfterE, editNext]
    generalize next s = r at h1 ⊢
    generalize next s' = r' at h1 ⊢
    rcases r with p | ⟨_ | c, s1⟩ <;> rcases r' with p' | ⟨_ | c', s1'⟩ <;> simp_all [Except.map]
  | succ k ih =>
    intro s s' w h
    have h1 := hn s s' h
    have h2 := fun s1 w s1' => ih s1 s1' w
    simp only [nthCallE] at h2 ⊢
    rw [stateAfterE, stateAfterE, editNext]
    generalize next s = r at h1 ⊢
    generalize next s' = r' at h1 ⊢
    rcases r with p | ⟨_ | c, s1⟩ <;> rcases r' with p' | ⟨_ | c', s1'⟩ <;> simp [Except.map] at h1
    · simp [h1]
    · exact h2 s1 w s1' h1
    · exact h2 _ _ s1' ((hp _ _).trans h1.2)

theorem ignores_of_advance {C : Type w} {advance : S → Except Panic S} {get : S → Option C} {forget : S → T}
    (ha : ∀ s s', forget s = forget s' → advance s = advance s' ∨
      ∃ t t', advance s = .ok t ∧ advance s' = .ok t' ∧ forget t = forget t' ∧ get t = get t') :
    Ignores (streamNextE advance get) forget := by
  intro s s' h
  simp only [streamNextE]
  rcases ha s s' h with h1 | ⟨t, t', h1, h2, h3, h4⟩
  · rw [h1]
  · simp [h1, h2, h3, h4, Except.map]

end Ignore

variable {N : Type u} {V : Type v} {σ : Type w}

theorem Postorder.ctxNext_ignores [TreeNode N V] :
    Ignores (ctxNext (N := N) (V := V)) fun s => (s.root, s.stack, s.into, s.path, s.ancestors) := by
  refine ignores_of_advance fun s s' h => ?_
  obtain ⟨root, st, into, path, anc, ch⟩ := s
  obtain ⟨root', st', into', path', anc', ch'⟩ := s'
  obtain ⟨rfl, rfl, rfl, rfl, rfl⟩ : root = root' ∧ st = st' ∧ into = into' ∧ path = path' ∧ anc = anc' := by simpa using h
  cases root with
  | some r => exact .inl rfl
  | none =>
    by_cases ht : anc.tail.isEmpty = true
    · exact .inr ⟨⟨none, st, into, path, anc.tail, ch⟩, ⟨none, st, into, path, anc.tail, ch'⟩, by simp [ctxAdvance, ht],
        by simp [ctxAdvance, ht], rfl, by simp [ctxGet, ht]⟩
    · exact .inl (by simp [ctxAdvance, ht])

theorem Postorder.mutBinCtxNext_ignores [BinNode N V] :
    Ignores (mutBinCtxNext (N := N) (V := V)) fun s => (s.root, s.stack, s.into, s.path, s.ancestors) := by
  refine ignores_of_advance fun s s' h => .inl ?_
  obtain ⟨root, st, into, path, anc, ch⟩ := s
  obtain ⟨root', st', into', path', anc', ch'⟩ := s'
  obtain ⟨rfl, rfl, rfl, rfl, rfl⟩ : root = root' ∧ st = st' ∧ into = into' ∧ path = path' ∧ anc = anc' := by simpa using h
  rfl

theorem Inorder.ctxFind_ignores (c c' : Option (Option N × Option N)) (ss : List Status) (anc : List V) (path : List Nat)
    (right : List (Option N)) (into : List (Option N × Option N)) :
    ctxFind c ss anc path right into = ctxFind c' ss anc path right into ∨
      (∃ t : CtxState N V, ctxFind c ss anc path right into = .ok (.inl { t with children := c, ancestors := [] }) ∧
        ctxFind c' ss anc path right into = .ok (.inl { t with children := c', ancestors := [] })) ∨
      ∃ (n : N) (t : CtxState N V), ctxFind c ss anc path right into = .ok (.inr (n, { t with children := c })) ∧
        ctxFind c' ss anc path right into = .ok (.inr (n, { t with children := c' })) := by
  fun_induction ctxFind c ss anc path right into with
  | case1 => simpa only [ctxFind] using ‹_›
  | case2 => exact .inl (by simp only [ctxFind])
  | case3 => exact .inl (by simp only [ctxFind])
  | case4 ss _ path into =>
    exact .inr (.inl ⟨⟨[], path, [], c, into, .wentRight :: ss⟩, by simp only, by simp only [ctxFind]⟩)
  | case5 ss anc path n right into =>
    exact .inr (.inr ⟨n, ⟨right, path, anc, c, into, .wentRight :: ss⟩, by simp only, by simp only [ctxFind]⟩)
  | case6 ss anc path right into ih =>
    have e : ctxFind c' (.returnedSelf :: ss) anc path (none :: right) into =
        ctxFind c' (.wentRight :: ss) anc path right into := by conv => lhs; rw [ctxFind]
    rwa [e]
  | case7 _ path into => exact .inr (.inl ⟨⟨[], path, [], c, into, []⟩, by simp only, by simp only [ctxFind]⟩)
  | case8 anc path n right into =>
    exact .inr (.inr ⟨n, ⟨right, path, anc, c, into, []⟩, by simp only, by simp only [ctxFind]⟩)
  | case9 => simpa only [ctxFind] using ‹_›

theorem Inorder.ctxDescend_children [BinNode N V] (c : Option (Option N × Option N)) (o : Option N) (s : CtxState N V) :
    ctxDescend o { s with children := c } = { ctxDescend o s with children := c } := by
  fun_induction ctxDescend o s with
  | case1 s => rw [ctxDescend]
  | case2 s n ih => rw [ctxDescend, ← ih]

theorem Inorder.ctxNext_ignores [BinNode N V] :
    Ignores (ctxNext (N := N) (V := V)) fun s => (s.right, s.path, s.ancestors, s.into, s.status) := by
  refine ignores_of_advance fun s s' h => ?_
  obtain ⟨right, path, anc, ch, into, st⟩ := s
  obtain ⟨right', path', anc', ch', into', st'⟩ := s'
  obtain ⟨rfl, rfl, rfl, rfl, rfl⟩ : right = right' ∧ path = path' ∧ anc = anc' ∧ into = into' ∧ st = st' := by
    simpa using h
  simp only [ctxAdvance]
  rcases ctxFind_ignores ch ch' st anc path right into with h1 | ⟨t, h1, h2⟩ | ⟨n, t, h1, h2⟩
  · rw [h1]
    rcases ctxFind ch' st anc path right into with e | s1 | ⟨n, s1⟩ <;> exact .inl rfl
  · exact .inr ⟨{ t with children := ch, ancestors := [] }, { t with children := ch', ancestors := [] }, by rw [h1],
      by rw [h2], rfl, by simp [ctxGet]⟩
  · left
    rw [h1, h2]
    simp only [ctxDescend_children]

/-! ## The property -/

/-- C56, postorder: whatever the client writes to the children in the context, at whatever nodes, every context shows
what it would have shown without: the node's own path, ancestors and children. -/
theorem C56_postorder [TreeNode N V] (n : N) (h : ArityOk n) (e : σ → Ctx V (List N) → σ × List N) (w : σ) :
    ∃ s, Postorder.attachContext (Postorder.new n) = .ok s ∧
      ∀ k, nthCallE (editNext Postorder.ctxNext Postorder.putChildren e) k (s, w) =
        .ok ((unfold n).located.postorder.map Pos.ctx)[k]? := by
  obtain ⟨s, h1, h2⟩ := C12_postorder_context n h
  exact ⟨s, h1, fun k => by rw [nthCallE_editNext (put := Postorder.putChildren) Postorder.ctxNext_ignores (fun _ _ => rfl) e k s s w rfl, h2]⟩

example := C56_postorder sampleTree sampleTree_arity (fun w c => (w + 1, (c.children.getD []).take 1)) 0

/-- C56, postorder of binary nodes. -/
theorem C56_postorder_binary [BinNode N V] (n : N)
    (e : σ → Ctx V (Option N × Option N) → σ × (Option N × Option N)) (w : σ) :
    ∃ s, Postorder.binAttachContext (Postorder.new n) = .ok s ∧
      ∀ k, nthCallE (editNext Postorder.mutBinCtxNext Postorder.putBinChildren e) k (s, w) =
        .ok ((unfold2 n).located.toTree.postorder.map Pos.ctx2)[k]? := by
  obtain ⟨s, h1, h2⟩ := C12_postorder_context_binary_mut n
  exact ⟨s, h1, fun k => by rw [nthCallE_editNext (put := Postorder.putBinChildren) Postorder.mutBinCtxNext_ignores (fun _ _ => rfl) e k s s w rfl, h2]⟩

/-- C56, in-order: also the right child, which is still to be visited, is not taken from the context. -/
theorem C56_inorder [BinNode N V] (n : N) (e : σ → Ctx V (Option N × Option N) → σ × (Option N × Option N)) (w : σ) :
    ∃ s, Inorder.attachContext (Inorder.new n) = .ok s ∧
      ∀ k, nthCallE (editNext Inorder.ctxNext Inorder.putChildren e) k (s, w) =
        .ok ((unfold2 n).located.inorder.map Pos.ctx2)[k]? := by
  obtain ⟨s, h1, h2⟩ := C13_inorder_context n
  exact ⟨s, h1, fun k => by rw [nthCallE_editNext (put := Inorder.putChildren) Inorder.ctxNext_ignores (fun _ _ => rfl) e k s s w rfl, h2]⟩

/-- C56: the edits are there to be ignored.  Until the next call the context shows the children that were written, and
path and ancestors as before. -/
theorem C56_written (s : Postorder.CtxState N V) (b : Postorder.BinCtxState N V) (i : Inorder.CtxState N V)
    (cs : List N) (ds : Option N × Option N) :
    Postorder.ctxGet (Postorder.putChildren s cs) = (Postorder.ctxGet s).map (fun c => { c with children := some cs }) ∧
    Postorder.binCtxGet (Postorder.putBinChildren b ds) =
      (Postorder.binCtxGet b).map (fun c => { c with children := some ds }) ∧
    Inorder.ctxGet (Inorder.putChildren i ds) = (Inorder.ctxGet i).map (fun c => { c with children := some ds }) := by
  refine ⟨?_, ?_, ?_⟩
  · simp only [Postorder.ctxGet, Postorder.putChildren]
    split <;> simp_all
  · simp only [Postorder.binCtxGet, Postorder.putBinChildren]
    split <;> simp_all
  · simp only [Inorder.ctxGet, Inorder.putChildren]
    split <;> simp_all

/-- The documentation of `children` says that a node added to it "will also be visited".  Here a client adds the node `9`
to every node, and `9` is not visited. -/
example : ArityOk sampleTree ∧
    (answersE (editNext Postorder.ctxNext Postorder.putChildren fun (_ : Unit) c =>
        ((), Tree.node 9 [] :: c.children.getD [])) 7 (Postorder.CtxState.new sampleTree [], ())).map
      (·.map (·.map Ctx.brief)) =
    some [some ⟨[0, 0], [0, 1, 3], some 0⟩, some ⟨[0, 1], [0, 1, 4], some 0⟩, some ⟨[0], [0, 1], some 2⟩,
      some ⟨[1, 0], [0, 2, 5], some 0⟩, some ⟨[1], [0, 2], some 1⟩, some ⟨[], [0], some 2⟩, none] :=
  ⟨sampleTree_arity, by decide +kernel⟩

/-- Removing the children does not keep the traversal from visiting them, either. -/
example : (answersE (editNext Inorder.ctxNext Inorder.putChildren fun (_ : Unit) _ => ((), none, none)) 6
      (Inorder.CtxState.new sampleBin [], ())).map (·.map (·.map Ctx.brief2)) =
    some [some ⟨[0], [0, 1], some (false, true)⟩, some ⟨[0, 1], [0, 1, 3], some (false, false)⟩,
      some ⟨[], [0], some (true, true)⟩, some ⟨[1, 0], [0, 2, 4], some (false, false)⟩,
      some ⟨[1], [0, 2], some (true, false)⟩, none] := by decide +kernel

example : (answersE (editNext Postorder.mutBinCtxNext Postorder.putBinChildren fun (_ : Unit) _ => ((), none, none)) 6
      (Postorder.BinCtxState.new sampleBin [], ())).map (·.map (·.map Ctx.brief2)) =
    some [some ⟨[0, 1], [0, 1, 3], some (false, false)⟩, some ⟨[0], [0, 1], some (false, true)⟩,
      some ⟨[1, 0], [0, 2, 4], some (false, false)⟩, some ⟨[1], [0, 2], some (true, false)⟩,
      some ⟨[], [0], some (true, true)⟩, none] := by decide +kernel

end TreeIter
