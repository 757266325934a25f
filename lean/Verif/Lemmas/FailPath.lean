import Verif.Lemmas.FailColl
import Verif.Lemmas.Preorder
import Verif.Model.FailPath

/-! # Pipelines whose closures may panic: positions -/

universe u v w x y

namespace TreeIter

namespace FPipe

variable {S : Type u} {N : Type v} {W : Type x} {σ : Type w} {τ : Type y}

/-- After every reply, the path is the position of the node. -/
def exactAt (b₀ : Nat) : Nat → List Nat × N → Bool → List Nat → Prop := fun d x _ p => p = x.1 ∧ x.1.length = d + b₀

/-- Exact positions, or only their lengths. -/
def pathAt (b₀ : Nat) : Bool → Nat → List Nat × N → Bool → List Nat → Prop
  | true => exactAt b₀
  | false => lenAt b₀

theorem pathAt_length {b₀ : Nat} {e : Bool} {d : Nat} {x : List Nat × N} {p : List Nat} (h : pathAt b₀ e d x true p) :
    p.length = d + b₀ := by
  cases e with
  | true => exact h.1 ▸ h.2
  | false => exact h rfl

/-- A client. -/
theorem Walks.drive {M : FPipe S W σ} {A : Nat → List Nat × N → Bool → List Nat → Prop}
    {r : σ → Nat → List Nat × N → σ × Option (Option W × Bool)}
    {R : S → List (Nat × Tree (List Nat × N)) → Prop} (hM : Walks M A r R) {f : τ → List Nat → Option W → τ × Bool}
    (hf : ∀ {d x o p}, A d x o p → ∀ t v, f t p v = f t x.1 v) : Walks (M.drive f) A (withClient f r) R where
  weak := hM.weak
  done {s} h w := by
    obtain ⟨s', h1, h2⟩ := hM.done h w.1
    exact ⟨s', by simp only [FPipe.drive, h1], h2⟩
  drop {s d n cs l} h w e := by
    cases hr : r w.1 d n with
    | mk w' a =>
      rcases a with _ | ⟨o, b⟩
      · obtain ⟨s', h1, h2⟩ := hM.drop h w.1 (by rw [hr])
        rw [hr] at h1
        exact ⟨s', by simp only [FPipe.drive, h1, withClient, hr], h2⟩
      · simp [withClient, hr] at e
  ans {s d n cs l} h w o b e := by
    cases hr : r w.1 d n with
    | mk w' a =>
      rcases a with _ | ⟨o', b'⟩
      · simp [withClient, hr] at e
      · obtain ⟨s', h1, h2, h3, h4⟩ := hM.ans h w.1 _ _ (by rw [hr])
        simp only [withClient, hr, Option.some.injEq, Prod.mk.injEq] at e h1
        obtain ⟨rfl, rfl⟩ := e
        have h5 := hf h4 w.2 o'
        refine ⟨if (f w.2 n.1 o').2 then M.prune s' else s', by simp only [FPipe.drive, h1, withClient, hr, h5], ?_⟩
        cases (f w.2 n.1 o').2 with
        | true =>
          refine ⟨by simpa using h3, ?_, ?_⟩
          · simpa only [if_true, FPipe.drive, M.prune_prune] using h3
          · simpa only [if_true, FPipe.drive, M.path_prune] using h4
        | false => exact ⟨by simpa using h2, h3, h4⟩

end FPipe

/-! ## The sources -/

namespace Fail

variable {N : Type u} {V : Type v}

/-- One call of the source, with the given trees pending before it. -/
def LocTurn {S : Type x} [SplitNode N V] (b₀ : Nat) (bad : N → Bool) (R : S → List (Nat × Tree (List Nat × N)) → Prop)
    (prune : S → S) (path : S → List Nat) (res : Except Panic (Option (Option V) × S)) : List (Nat × Tree (List Nat × N)) → Prop
  | [] => ∃ s', res = .ok (none, s') ∧ R s' []
  | (d, .node x cs) :: l =>
    ∃ s', res = .ok (some (if bad x.2 then none else some (val x.2)), s') ∧
      R s' ((if bad x.2 then [] else cs.map fun c => (d + 1, c)) ++ l) ∧ R (prune s') l ∧ path s' = x.1 ∧ x.1.length = d + b₀

/-- The source as a walk, from what its `next` does. -/
theorem locWalks_source {S : Type x} {σ : Type w} [SplitNode N V] {bad : N → Bool} {b₀ : Nat} {M : FPipe S V σ}
    {next : S → Except Panic (Option (Option V) × S)} {R : S → List (Nat × Tree (List Nat × N)) → Prop}
    (hn : ∀ s w, M.next s w = match next s with | .error e => .error e | .ok (o, s') => .ok (o, s', w))
    (h : ∀ s l, R s l → LocTurn b₀ bad R M.prune (fun s' => M.path s') (next s) l) :
    M.Walks (FPipe.exactAt b₀) ((PChain.source : PChain σ V V).stepAt bad) R where
  weak h := h
  done hs w := by
    obtain ⟨s', h1, h2⟩ := h _ _ hs
    exact ⟨s', by rw [hn, h1], h2⟩
  drop {s d n cs l} hs w e := by
    rw [PChain.stepAt] at e
    split at e <;> simp [PChain.step] at e
  ans {s d n cs l} hs w o b e := by
    obtain ⟨s', h1, h2, h3, h4⟩ := h _ _ hs
    rw [PChain.stepAt] at e ⊢
    split at e
    · next hb =>
      simp only [Option.some.injEq, Prod.mk.injEq] at e
      obtain ⟨rfl, rfl⟩ := e
      simp only [hb, if_true] at h1 h2
      exact ⟨s', by simp [hn, h1, hb], h2, h3, h4⟩
    · next hb =>
      simp only [PChain.step, Option.some.injEq, Prod.mk.injEq] at e
      obtain ⟨rfl, rfl⟩ := e
      simp only [hb] at h1 h2
      exact ⟨s', by simp [hn, h1, hb, PChain.step], by simpa using h2, h3, h4⟩

/-- The pending trees of a stack; the head of the path belongs to the top. -/
def locPends [TreeNode N V] : List (List N) → List Nat → List (Nat × Tree (List Nat × N))
  | f :: rest, p :: ps =>
    (Tree.addrL ps.reverse (wrapSucc p) (f.map unfold)).map (fun t => (rest.length + 1, t)) ++ locPends rest ps
  | _, _ => []

/-- Stack and path fit together; the path of the root has `b₀` segments. -/
def LocOk [TreeNode N V] (b₀ : Nat) : List (List N) → List Nat → Prop
  | [], ps => ps.length = b₀
  | _ :: _, [] => False
  | f :: rest, p :: ps => wrapSucc p + f.length ≤ 2 ^ 64 ∧ (∀ n ∈ f, ArityOk n) ∧ LocOk b₀ rest ps

theorem locOk_length [TreeNode N V] {b₀ : Nat} {st : List (List N)} : ∀ {path : List Nat}, LocOk b₀ st path →
    path.length = st.length + b₀ := by
  induction st with
  | nil => intro path h; simpa [LocOk] using h
  | cons f rest ih =>
    intro path h
    cases path with
    | nil => exact absurd h (by simp [LocOk])
    | cons p ps =>
      have := ih h.2.2
      simp only [List.length_cons]
      omega

/-- The pending trees of the source. -/
def LocPend [TreeNode N V] (b₀ : Nat) (s : Track.State N (List N) N) (l : List (Nat × Tree (List Nat × N))) : Prop :=
  match s.root with
  | some n => s.onDeck = none ∧ s.stack = [] ∧ ArityOk n ∧ s.path.length = b₀ ∧ l = [(0, (unfold n).addr s.path.reverse)]
  | none =>
    match s.onDeck with
    | none => LocOk b₀ s.stack s.path ∧ l = locPends s.stack s.path
    | some cs => LocOk b₀ (cs :: s.stack) (usizeMax :: s.path) ∧ l = locPends (cs :: s.stack) (usizeMax :: s.path)

theorem arityOk_kids [TreeNode N V] {n : N} (h : ArityOk n) : (kids n).length ≤ 2 ^ 64 ∧ ∀ c ∈ kids n, ArityOk c := by
  constructor
  · exact h n (by rw [unfold_eq, Tree.preorder_node]; simp)
  · intro c hc m hm
    refine h m ?_
    rw [unfold_eq, Tree.preorder_node, List.mem_cons]
    exact .inr (List.mem_flatMap.2 ⟨unfold c, List.mem_map.2 ⟨c, hc, rfl⟩, hm⟩)

/-- A child has been taken off the top. -/
theorem locOk_take [TreeNode N V] {b₀ : Nat} {c : N} {cs : List N} {rest : List (List N)} {p : Nat} {ps : List Nat}
    (h : LocOk b₀ ((c :: cs) :: rest) (p :: ps)) : LocOk b₀ (cs :: rest) (wrapSucc p :: ps) ∧
      locPends ((c :: cs) :: rest) (p :: ps) = (rest.length + 1, (unfold c).addr (ps.reverse ++ [wrapSucc p])) ::
        locPends (cs :: rest) (wrapSucc p :: ps) := by
  obtain ⟨h1, h2, h3⟩ := h
  obtain ⟨k1, k2⟩ := Preorder.wrapSucc_step (k := cs.length) (by simpa using h1)
  refine ⟨⟨k1, fun n hn => h2 n (by simp [hn]), h3⟩, ?_⟩
  simp only [locPends, List.map_cons, Tree.addrL, List.cons_append, List.cons.injEq, true_and]
  cases cs with
  | nil => rfl
  | cons d ds => rw [k2 (by simp)]

/-- Its children are put on top. -/
theorem locOk_push [TreeNode N V] {b₀ : Nat} {c : N} {st : List (List N)} {path : List Nat} (hc : ArityOk c)
    (h : LocOk b₀ st path) : LocOk b₀ (kids c :: st) (usizeMax :: path) ∧
      locPends (kids c :: st) (usizeMax :: path) =
        (Tree.addrL path.reverse 0 ((kids c).map unfold)).map (fun t => (st.length + 1, t)) ++ locPends st path := by
  obtain ⟨h1, h2⟩ := arityOk_kids hc
  refine ⟨⟨?_, h2, h⟩, ?_⟩
  · rw [Preorder.wrapSucc_usizeMax]; omega
  · rw [locPends, Preorder.wrapSucc_usizeMax]

theorem trackLoop_loc [TreeNode N V] (b₀ : Nat) (bad : N → Bool) (st : List (List N)) (path : List Nat)
    (h : LocOk b₀ st path) :
    LocTurn b₀ bad (LocPend b₀) (fun s' => { s' with onDeck := none }) (fun s => s.path.reverse) (trackLoop bad st path)
      (locPends st path) := by
  fun_induction trackLoop bad st path with
  | case1 path => exact ⟨_, rfl, h, rfl⟩
  | case2 => exact h.elim
  | case3 c cs rest p ps hb =>
    obtain ⟨h1, h2⟩ := locOk_take h
    have h3 := locOk_length h1
    rw [h2, unfold_eq c, Tree.addr]
    simp only [LocTurn, hb, if_true]
    refine ⟨_, rfl, ⟨h1, rfl⟩, ⟨h1, rfl⟩, by simp, ?_⟩
    simp only [List.length_append, List.length_reverse, List.length_cons, List.length_nil] at h3 ⊢
    omega
  | case4 c cs rest p ps hb =>
    obtain ⟨h1, h2⟩ := locOk_take h
    have h3 := locOk_length h1
    obtain ⟨h4, h5⟩ := locOk_push (h.2.1 c (by simp)) h1
    rw [h2, unfold_eq c, Tree.addr]
    simp only [LocTurn, hb]
    refine ⟨_, rfl, ⟨h4, ?_⟩, ⟨h1, rfl⟩, by simp, ?_⟩
    · rw [h5]
      simp
    · simp only [List.length_append, List.length_reverse, List.length_cons, List.length_nil] at h3 ⊢
      omega
  | case5 rest path ih =>
    cases path with
    | nil => exact h.elim
    | cons p ps => simpa only [locPends, List.map_nil, Tree.addrL, List.nil_append, List.tail_cons] using ih h.2.2

theorem trackNext_loc [TreeNode N V] (b₀ : Nat) (bad : N → Bool) {s : Track.State N (List N) N}
    {l : List (Nat × Tree (List Nat × N))} (h : LocPend b₀ s l) :
    LocTurn b₀ bad (LocPend b₀) (fun s' => { s' with onDeck := none }) (fun s => s.path.reverse) (trackNext bad s) l := by
  obtain ⟨root, path, onDeck, stack⟩ := s
  rcases root with _ | n
  · rcases onDeck with _ | cs
    · obtain ⟨h1, rfl⟩ := h
      exact trackLoop_loc b₀ bad stack path h1
    · obtain ⟨h1, rfl⟩ := h
      exact trackLoop_loc b₀ bad (cs :: stack) (usizeMax :: path) h1
  · obtain ⟨h1, h2, h3, h4, rfl⟩ := h
    simp only at h1 h2 h4
    subst h1 h2
    obtain ⟨h5, h6⟩ := locOk_push h3 (st := []) (path := path) h4
    rw [unfold_eq n, Tree.addr]
    simp only [LocTurn, trackNext]
    by_cases hb : bad n
    · simp only [hb, if_true]
      exact ⟨_, rfl, ⟨h4, rfl⟩, ⟨h4, rfl⟩, rfl, by simpa using h4⟩
    · simp only [hb]
      refine ⟨_, rfl, ⟨h5, ?_⟩, ⟨h4, rfl⟩, rfl, by simpa using h4⟩
      rw [h6]
      simp [locPends]

theorem trackPipe_loc [TreeNode N V] (b₀ : Nat) (bad : N → Bool) (σ : Type w) :
    (trackPipe bad σ).Walks (FPipe.exactAt b₀) ((PChain.source : PChain σ V V).stepAt bad) (LocPend (N := N) b₀) :=
  locWalks_source (next := trackNext bad) (fun s w => by
    simp only [trackPipe]
    cases trackNext bad s <;> rfl) fun _ _ hs => trackNext_loc b₀ bad hs

/-- The trees in some slots below the node at `base`, from number `i` on. -/
def slotAddr [BinNode N V] (base : List Nat) : Nat → List (Option N) → List (Tree (List Nat × N))
  | _, [] => []
  | i, none :: cs => slotAddr base (i + 1) cs
  | i, some c :: cs => ((unfold2 c).addr (base ++ [i])).toTree :: slotAddr base (i + 1) cs

/-- The pending trees of a stack of slots. -/
def binLocPends [BinNode N V] : List (List (Option N)) → List Nat → List (Nat × Tree (List Nat × N))
  | f :: rest, p :: ps => (slotAddr ps.reverse (wrapSucc p) f).map (fun t => (rest.length + 1, t)) ++ binLocPends rest ps
  | _, _ => []

/-- Stack and path fit together. -/
def BinLocOk (b₀ : Nat) : List (List (Option N)) → List Nat → Prop
  | [], ps => ps.length = b₀
  | _ :: _, [] => False
  | f :: rest, p :: ps => wrapSucc p + f.length ≤ 2 ^ 64 ∧ BinLocOk b₀ rest ps

theorem binLocOk_length {b₀ : Nat} {st : List (List (Option N))} : ∀ {path : List Nat}, BinLocOk b₀ st path →
    path.length = st.length + b₀ := by
  induction st with
  | nil => intro path h; simpa [BinLocOk] using h
  | cons f rest ih =>
    intro path h
    cases path with
    | nil => exact absurd h (by simp [BinLocOk])
    | cons p ps =>
      have := ih h.2
      simp only [List.length_cons]
      omega

/-- The pending trees of the binary source. -/
def BinLocPend [BinNode N V] (b₀ : Nat) (s : Track.State N (Option N × Option N) (Option N))
    (l : List (Nat × Tree (List Nat × N))) : Prop :=
  match s.root with
  | some n => s.onDeck = none ∧ s.stack = [] ∧ s.path.length = b₀ ∧ l = [(0, ((unfold2 n).addr s.path.reverse).toTree)]
  | none =>
    match s.onDeck with
    | none => BinLocOk b₀ s.stack s.path ∧ l = binLocPends s.stack s.path
    | some cs => BinLocOk b₀ ([cs.1, cs.2] :: s.stack) (usizeMax :: s.path) ∧
        l = binLocPends ([cs.1, cs.2] :: s.stack) (usizeMax :: s.path)

/-- The trees below a node. -/
theorem slotAddr_kids [BinNode N V] (base : List Nat) (n : N) : ((unfold2 n).addr base).toTree =
    .node (base, n) (slotAddr base 0 [(split2 n).2.1, (split2 n).2.2]) := by
  rw [unfold2_eq]
  rcases (split2 n).2.1 with _ | a <;> rcases (split2 n).2.2 with _ | b <;>
    simp [BinTree.addr, BinTree.addrO, BinTree.toTree, BinTree.slotTrees, slotAddr]

/-- A slot has been taken off the top. -/
theorem binLocOk_take [BinNode N V] {b₀ : Nat} {c : Option N} {cs : List (Option N)} {rest : List (List (Option N))} {p : Nat}
    {ps : List Nat} (h : BinLocOk b₀ ((c :: cs) :: rest) (p :: ps)) : BinLocOk b₀ (cs :: rest) (wrapSucc p :: ps) ∧
      binLocPends ((c :: cs) :: rest) (p :: ps) =
        (c.toList.map fun n => (rest.length + 1, ((unfold2 n).addr (ps.reverse ++ [wrapSucc p])).toTree)) ++
        binLocPends (cs :: rest) (wrapSucc p :: ps) := by
  obtain ⟨h1, h3⟩ := h
  obtain ⟨k1, k2⟩ := Preorder.wrapSucc_step (k := cs.length) (by simpa using h1)
  refine ⟨⟨k1, h3⟩, ?_⟩
  have : slotAddr ps.reverse (wrapSucc p + 1) cs = slotAddr ps.reverse (wrapSucc (wrapSucc p)) cs := by
    cases cs with
    | nil => rfl
    | cons d ds => rw [k2 (by simp)]
  cases c <;> simp [binLocPends, slotAddr, this]

/-- The slots of a node are put on top. -/
theorem binLocOk_push [BinNode N V] {b₀ : Nat} (cs : Option N × Option N) {st : List (List (Option N))} {path : List Nat}
    (h : BinLocOk b₀ st path) : BinLocOk b₀ ([cs.1, cs.2] :: st) (usizeMax :: path) ∧
      binLocPends ([cs.1, cs.2] :: st) (usizeMax :: path) =
        (slotAddr path.reverse 0 [cs.1, cs.2]).map (fun t => (st.length + 1, t)) ++ binLocPends st path := by
  refine ⟨⟨?_, h⟩, ?_⟩
  · rw [Preorder.wrapSucc_usizeMax]; simp
  · rw [binLocPends, Preorder.wrapSucc_usizeMax]

theorem binTrackLoop_loc [BinNode N V] (b₀ : Nat) (bad : N → Bool) (st : List (List (Option N))) (path : List Nat)
    (h : BinLocOk b₀ st path) :
    LocTurn b₀ bad (BinLocPend b₀) (fun s' => { s' with onDeck := none }) (fun s => s.path.reverse) (binTrackLoop bad st path)
      (binLocPends st path) := by
  fun_induction binTrackLoop bad st path with
  | case1 path => exact ⟨_, rfl, h, rfl⟩
  | case2 => exact h.elim
  | case3 c cs rest p ps hb =>
    obtain ⟨h1, h2⟩ := binLocOk_take h
    have h3 := binLocOk_length h1
    rw [h2]
    simp only [Option.toList_some, List.map_cons, List.map_nil, List.cons_append, List.nil_append, slotAddr_kids, LocTurn, hb,
      if_true]
    refine ⟨_, rfl, ⟨h1, rfl⟩, ⟨h1, rfl⟩, by simp, ?_⟩
    simp only [List.length_append, List.length_reverse, List.length_cons, List.length_nil] at h3 ⊢
    omega
  | case4 c cs rest p ps hb =>
    obtain ⟨h1, h2⟩ := binLocOk_take h
    have h3 := binLocOk_length h1
    obtain ⟨h4, h5⟩ := binLocOk_push (split2 c).2 h1
    rw [h2]
    simp only [Option.toList_some, List.map_cons, List.map_nil, List.cons_append, List.nil_append, slotAddr_kids, LocTurn, hb]
    refine ⟨_, rfl, ⟨h4, ?_⟩, ⟨h1, rfl⟩, by simp, ?_⟩
    · rw [h5]
      simp
    · simp only [List.length_append, List.length_reverse, List.length_cons, List.length_nil] at h3 ⊢
      omega
  | case5 cs rest p ps ih =>
    obtain ⟨h1, h2⟩ := binLocOk_take h
    rw [h2]
    exact ih h1
  | case6 rest path ih =>
    cases path with
    | nil => exact h.elim
    | cons p ps => simpa only [binLocPends, slotAddr, List.map_nil, List.nil_append, List.tail_cons] using ih h.2

theorem binTrackNext_loc [BinNode N V] (b₀ : Nat) (bad : N → Bool) {s : Track.State N (Option N × Option N) (Option N)}
    {l : List (Nat × Tree (List Nat × N))} (h : BinLocPend b₀ s l) :
    LocTurn b₀ bad (BinLocPend b₀) (fun s' => { s' with onDeck := none }) (fun s => s.path.reverse) (binTrackNext bad s) l := by
  obtain ⟨root, path, onDeck, stack⟩ := s
  rcases root with _ | n
  · rcases onDeck with _ | cs
    · obtain ⟨h1, rfl⟩ := h
      exact binTrackLoop_loc b₀ bad stack path h1
    · obtain ⟨h1, rfl⟩ := h
      exact binTrackLoop_loc b₀ bad ([cs.1, cs.2] :: stack) (usizeMax :: path) h1
  · obtain ⟨h1, h2, h4, rfl⟩ := h
    simp only at h1 h2 h4
    subst h1 h2
    obtain ⟨h5, h6⟩ := binLocOk_push (split2 n).2 (st := []) (path := path) h4
    rw [slotAddr_kids]
    simp only [LocTurn, binTrackNext]
    by_cases hb : bad n
    · simp only [hb, if_true]
      exact ⟨_, rfl, ⟨h4, rfl⟩, ⟨h4, rfl⟩, rfl, by simpa using h4⟩
    · simp only [hb]
      refine ⟨_, rfl, ⟨h5, ?_⟩, ⟨h4, rfl⟩, rfl, by simpa using h4⟩
      rw [h6]
      simp [binLocPends]

theorem binTrackPipe_loc [BinNode N V] (b₀ : Nat) (bad : N → Bool) (σ : Type w) :
    (binTrackPipe bad σ).Walks (FPipe.exactAt b₀) ((PChain.source : PChain σ V V).stepAt bad) (BinLocPend (N := N) b₀) :=
  locWalks_source (next := binTrackNext bad) (fun s w => by
    simp only [binTrackPipe]
    cases binTrackNext bad s <;> rfl) fun _ _ hs => binTrackNext_loc b₀ bad hs

end Fail

/-! ## Chains -/

namespace PChain

variable {N : Type u} {V W : Type v} {σ : Type w} {S : Type x}

/-- The pending trees of a chain's pipeline are those of its source. -/
def Pend (R : S → List (Nat × Tree (List Nat × N)) → Prop) :
    {W : Type v} → (c : PChain σ V W) → c.St S → List (Nat × Tree (List Nat × N)) → Prop
  | _, source, s, l => R s l
  | _, map c _, s, l => c.Pend R s l
  | _, prunePath c _, s, l => s.pruned.length = s.current.length ∧ c.Pend R s.inner l
  | _, pruneDepth c _, s, l => c.Pend R s l

theorem pend_init {R : S → List (Nat × Tree (List Nat × N)) → Prop} {s : S} {l : List (Nat × Tree (List Nat × N))} (h : R s l)
    {W : Type v} (c : PChain σ V W) : c.Pend R (c.init s) l := by
  induction c with
  | source => exact h
  | map c f ih => exact ih
  | prunePath c f ih => exact ⟨rfl, ih⟩
  | pruneDepth c d ih => exact ih

theorem pipe_walks [SplitNode N V] {bad : N → Bool} {b₀ : Nat} {M : FPipe S V σ} {R : S → List (Nat × Tree (List Nat × N)) → Prop}
    (hM : M.Walks (FPipe.exactAt b₀) ((PChain.source : PChain σ V V).stepAt bad) R)
    {depthOf : List Nat → Except Panic Nat} (hd : ∀ p d, p.length = d + b₀ → depthOf p = .ok d) {W : Type v} (c : PChain σ V W)
    (hc : c.PathsFirst) :
    (c.pipe depthOf M).Walks (FPipe.pathAt b₀ c.exact) (c.stepAt bad) (c.Pend R) := by
  induction c with
  | source => exact hM
  | map c f ih =>
    exact ((ih hc).map f).congr fun w d x => by
      by_cases hb : bad x.2
      · simp [stepAt, hb]
      · simp [stepAt, hb, step]
        rcases c.step w d x.1 (val x.2) with ⟨w', _ | ⟨_ | y, b⟩⟩ <;> rfl
  | prunePath c f ih =>
    refine ((ih hc.1).prunePipe (g := fun w x y => f w x.1 y) ?_ (fun h => FPipe.pathAt_length h)).congr ?_
    · intro d x p h w y
      rcases hc.2 with h1 | h1
      · rw [h1] at h
        rw [h.1]
      · exact h1 w p x.1 y
    · intro w d x
      by_cases hb : bad x.2
      · simp [stepAt, hb]
      · simp [stepAt, hb, step]
        rcases c.step w d x.1 (val x.2) with ⟨w', _ | ⟨_ | y, b⟩⟩
        · rfl
        · rfl
        · rcases f w' x.1 y with ⟨w'', _ | _ | _⟩ <;> rfl
  | pruneDepth c m ih =>
    exact ((ih hc).pruneDepth (fun d x p h => hd p d (FPipe.pathAt_length h)) m).congr fun w d x => by
      by_cases hb : bad x.2
      · simp [stepAt, hb]
      · simp [stepAt, hb, step]
        rcases c.step w d x.1 (val x.2) with ⟨w', _ | ⟨_ | y, b⟩⟩ <;> rfl

theorem binPipe_walks [SplitNode N V] {bad : N → Bool} {b₀ : Nat} {M : FPipe S V σ}
    {R : S → List (Nat × Tree (List Nat × N)) → Prop}
    (hM : M.Walks (FPipe.exactAt b₀) ((PChain.source : PChain σ V V).stepAt bad) R)
    {depthOf : List Nat → Except Panic Nat} (hd : ∀ p d, p.length = d + b₀ → depthOf p = .ok d) {W : Type v} (c : PChain σ V W) :
    (c.binPipe depthOf M).Walks (FPipe.exactAt b₀) (c.stepAt bad) R := by
  induction c with
  | source => exact hM
  | map c f ih =>
    exact (ih.map f).congr fun w d x => by
      by_cases hb : bad x.2
      · simp [stepAt, hb]
      · simp [stepAt, hb, step]
        rcases c.step w d x.1 (val x.2) with ⟨w', _ | ⟨_ | y, b⟩⟩ <;> rfl
  | prunePath c f ih =>
    exact (ih.binPrune (g := fun w x y => f w x.1 y) fun h w y => by rw [h.1]).congr fun w d x => by
      by_cases hb : bad x.2
      · simp [stepAt, hb]
      · simp [stepAt, hb, step]
        rcases c.step w d x.1 (val x.2) with ⟨w', _ | ⟨_ | y, b⟩⟩
        · rfl
        · rfl
        · rcases f w' x.1 y with ⟨w'', _ | _ | _⟩ <;> rfl
  | pruneDepth c m ih =>
    exact (ih.pruneDepth (fun d x p h => hd p d (h.1 ▸ h.2)) m).congr fun w d x => by
      by_cases hb : bad x.2
      · simp [stepAt, hb]
      · simp [stepAt, hb, step]
        rcases c.step w d x.1 (val x.2) with ⟨w', _ | ⟨_ | y, b⟩⟩ <;> rfl

/-- The pipeline with a client. -/
theorem drive_walks [SplitNode N V] {bad : N → Bool} {b₀ : Nat} {M : FPipe S V σ} {R : S → List (Nat × Tree (List Nat × N)) → Prop}
    (hM : M.Walks (FPipe.exactAt b₀) ((PChain.source : PChain σ V V).stepAt bad) R)
    {depthOf : List Nat → Except Panic Nat} (hd : ∀ p d, p.length = d + b₀ → depthOf p = .ok d) {W : Type v} (c : PChain σ V W)
    (hc : c.PathsFirst) {τ : Type y} {f : τ → List Nat → Option W → τ × Bool}
    (hf : c.exact = true ∨ ∀ t p q o, f t p o = f t q o) :
    ((c.pipe depthOf M).drive f).Walks (FPipe.pathAt b₀ c.exact) (withClient f (c.stepAt bad)) (c.Pend R) := by
  refine (pipe_walks hM hd c hc).drive fun {d x o p} h t v => ?_
  rcases hf with h1 | h1
  · rw [h1] at h
    rw [h.1]
  · exact h1 t p x.1 v

theorem binDrive_walks [SplitNode N V] {bad : N → Bool} {b₀ : Nat} {M : FPipe S V σ}
    {R : S → List (Nat × Tree (List Nat × N)) → Prop}
    (hM : M.Walks (FPipe.exactAt b₀) ((PChain.source : PChain σ V V).stepAt bad) R)
    {depthOf : List Nat → Except Panic Nat} (hd : ∀ p d, p.length = d + b₀ → depthOf p = .ok d) {W : Type v} (c : PChain σ V W)
    {τ : Type y} (f : τ → List Nat → Option W → τ × Bool) :
    ((c.binPipe depthOf M).drive f).Walks (FPipe.exactAt b₀) (withClient f (c.stepAt bad)) R :=
  (binPipe_walks hM hd c).drive fun h t v => by rw [h.1]

end PChain

/-! ## Collections -/

namespace Fail

variable {N : Type u} {V : Type v} {L : Type y}

theorem forestFrom_addr [TreeNode N V] (ns : List N) : ∀ i,
    forestFrom (fun n i => (unfold n).addr [i]) i ns = (Tree.addrL [] i (ns.map unfold)).map fun t => (0, t) := by
  induction ns with
  | nil => intro i; rfl
  | cons n ns ih => intro i; simp [forestFrom, Tree.addrL, ih]

theorem collPipe_loc [TreeNode N V] (bad : N → Bool) (σ : Type w) :
    (collPipe (trackPipe bad σ) Track.State.new).Walks (FPipe.exactAt 1) ((PChain.source : PChain σ V V).stepAt bad)
      (CollPend ArityOk (LocPend (N := N) 1) fun n i => (unfold n).addr [i]) :=
  collPipe_walks (start := Track.State.new) (tree := fun n i => (unfold n).addr [i]) (ok := ArityOk) (trackPipe_loc 1 bad σ)
    fun _ _ h => ⟨rfl, rfl, h, rfl, rfl⟩

theorem collPend_new [TreeNode N V] (ns : List N) (hn : ∀ n ∈ ns, ArityOk n) :
    CollPend ArityOk (LocPend (N := N) 1) (fun n i => (unfold n).addr [i]) (CollPipe.State.new ns)
      ((Tree.addrL [] 0 (ns.map unfold)).map fun t => (0, t)) :=
  ⟨[], by rw [← forestFrom_addr]; rfl, hn, rfl⟩

theorem binCollPipe_loc [BinNode N V] (bad : N → Bool) (σ : Type w) :
    (collPipe (binTrackPipe bad σ) Track.State.new).Walks (FPipe.exactAt 1) ((PChain.source : PChain σ V V).stepAt bad)
      (CollPend (fun _ => True) (BinLocPend (N := N) 1) fun n i => ((unfold2 n).addr [i]).toTree) :=
  collPipe_walks (start := Track.State.new) (tree := fun n i => ((unfold2 n).addr [i]).toTree) (ok := fun _ => True)
    (binTrackPipe_loc 1 bad σ) fun _ _ _ => ⟨rfl, rfl, rfl, rfl⟩

theorem forestFrom_zipIdx (tree : N → Nat → Tree L) (ns : List N) : ∀ i,
    forestFrom tree i ns = ((ns.zipIdx i).map fun x => tree x.1 x.2).map fun t => (0, t) := by
  induction ns with
  | nil => intro i; rfl
  | cons n ns ih => intro i; simp [forestFrom, ih]

theorem binCollPend_new [BinNode N V] (ns : List N) :
    CollPend (fun _ => True) (BinLocPend (N := N) 1) (fun n i => ((unfold2 n).addr [i]).toTree) (CollPipe.State.new ns)
      ((ns.zipIdx.map fun x => ((unfold2 x.1).addr [x.2]).toTree).map fun t => (0, t)) :=
  ⟨[], by rw [List.nil_append, ← forestFrom_zipIdx (fun n i => ((unfold2 n).addr [i]).toTree)]; rfl, fun _ _ => trivial, rfl⟩

end Fail

/-! ## What follows from the replies -/

section
variable {N : Type u} {V W : Type v} {τ : Type y}

mutual
theorem stopAt_note [SplitNode N V] (f : V → Option W) (stop : Option W → Bool) (d : Nat) (u : Unit)
    (t : List (List Nat × Option W)) (T : Tree (List Nat × N)) :
    T.replies (withClient (noteClient stop) ((PChain.source.map fun (w : Unit) (v : V) => (w, f v)).stepAt fun _ => false)) d (u, t) =
      (((T.stopAt fun x => stop (f (val x.2))).preorder.map fun x => f (val x.2)),
        u, t ++ (T.stopAt fun x => stop (f (val x.2))).preorder.map fun x => (x.1, f (val x.2))) := by
  cases T with
  | node a cs =>
    rw [Tree.replies, Tree.stopAt]
    by_cases hs : stop (f (val a.2))
    · simp [withClient, PChain.stepAt, PChain.step, noteClient, hs, Tree.preorder_node]
    · simp [withClient, PChain.stepAt, PChain.step, noteClient, hs, Tree.preorder, stopAtL_note f stop]
theorem stopAtL_note [SplitNode N V] (f : V → Option W) (stop : Option W → Bool) (d : Nat) (u : Unit)
    (t : List (List Nat × Option W)) (Ts : List (Tree (List Nat × N))) :
    Tree.repliesL (withClient (noteClient stop) ((PChain.source.map fun (w : Unit) (v : V) => (w, f v)).stepAt fun _ => false)) d (u, t) Ts =
      ((Tree.preorderL (Tree.stopAtL (fun x => stop (f (val x.2))) Ts)).map fun x => f (val x.2),
        u, t ++ (Tree.preorderL (Tree.stopAtL (fun x => stop (f (val x.2))) Ts)).map fun x => (x.1, f (val x.2))) := by
  cases Ts with
  | nil => simp [Tree.repliesL, Tree.stopAtL, Tree.preorderL]
  | cons T Ts => simp [Tree.repliesL, Tree.stopAtL, Tree.preorderL, stopAt_note f stop d, stopAtL_note f stop d]
end

mutual
theorem Tree.stopAt_false {α : Type u} : (t : Tree α) → (t.stopAt fun _ => false) = t
  | .node a cs => by simp [Tree.stopAt, Tree.stopAtL_false cs]
theorem Tree.stopAtL_false {α : Type u} : (ts : List (Tree α)) → Tree.stopAtL (fun _ => false) ts = ts
  | [] => rfl
  | t :: ts => by simp [Tree.stopAtL, Tree.stopAt_false t, Tree.stopAtL_false ts]
end

mutual
theorem Tree.addr_length {α : Type u} (p : List Nat) : (t : Tree α) → (t.addr p).preorder.length = t.preorder.length
  | .node a cs => by simp [Tree.addr, Tree.preorder, Tree.addrL_length p 0 cs]
theorem Tree.addrL_length {α : Type u} (p : List Nat) (i : Nat) : (ts : List (Tree α)) →
    (Tree.preorderL (Tree.addrL p i ts)).length = (Tree.preorderL ts).length
  | [] => rfl
  | t :: ts => by simp [Tree.addrL, Tree.preorderL, Tree.addr_length (p ++ [i]) t, Tree.addrL_length p (i + 1) ts]
end

mutual
theorem Tree.replies_skip_at [SplitNode N V] (f : V → Option W) (d : Nat) (p : List Nat) : (t : Tree N) →
    (t.addr p).replies (withClient (fun (_ : Unit) _ o => ((), o.isNone))
      ((PChain.source.map fun (w : Unit) (v : V) => (w, f v)).stepAt fun _ => false)) d ((), ()) =
      (((t.map val).stopAt fun v => (f v).isNone).preorder.map f, (), ())
  | .node a cs => by
    rw [Tree.addr, Tree.replies, Tree.map, Tree.stopAt]
    by_cases hs : (f (val a)).isNone
    · simp [withClient, PChain.stepAt, PChain.step, hs, Tree.preorder_node]
    · simp [withClient, PChain.stepAt, PChain.step, hs, Tree.preorder, Tree.repliesL_skip_at f (d + 1) p 0 cs]
theorem Tree.repliesL_skip_at [SplitNode N V] (f : V → Option W) (d : Nat) (p : List Nat) (i : Nat) : (ts : List (Tree N)) →
    Tree.repliesL (withClient (fun (_ : Unit) _ o => ((), o.isNone))
      ((PChain.source.map fun (w : Unit) (v : V) => (w, f v)).stepAt fun _ => false)) d ((), ()) (Tree.addrL p i ts) =
      ((Tree.preorderL (Tree.stopAtL (fun v => (f v).isNone) (Tree.mapL val ts))).map f, (), ())
  | [] => by simp [Tree.addrL, Tree.repliesL, Tree.mapL, Tree.stopAtL, Tree.preorderL]
  | t :: ts => by
    simp [Tree.addrL, Tree.repliesL, Tree.mapL, Tree.stopAtL, Tree.preorderL, Tree.replies_skip_at f d (p ++ [i]) t,
      Tree.repliesL_skip_at f d p (i + 1) ts]
end

theorem Tree.replies_skip [SplitNode N V] (f : V → Option W) (t : Tree N) :
    ((t.addr []).replies (withClient (fun (_ : Unit) _ o => ((), o.isNone))
      ((PChain.source.map fun (w : Unit) (v : V) => (w, f v)).stepAt fun _ => false)) 0 ((), ())).1 =
      ((t.map val).stopAt fun v => (f v).isNone).preorder.map f := by
  rw [Tree.replies_skip_at]

end

end TreeIter
