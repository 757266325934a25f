import Verif.Lemmas.SharedColl
import Verif.Props.Shared

/-!
# C81: breadth-first leaves and collections
-/

universe u v w x z

namespace TreeIter

open Shared

variable {W : Type x} {N : Type u} {V : Type v} {I : Type w} {C : Type z}

/-- C81, breadth-first leaves: level by level; a node is asked for its first child at once when it is met, and the body is called
if there is none. -/
theorem C81_bfs_leaves [SharedNode W N V I] (body : Body W V) (n : N) (w : W) (b : Bool) (w' : W) :
    (∃ fuel k, forLoop (wideLvNext fuel) body k (Wide.new (I := I) n).leaves w = some (b, w')) ↔
      VisitWideLeaves body n w b w' := by
  rcases hs : splitW (I := I) n w with ⟨v, i, w1⟩
  rcases hp : pollW (N := N) i w1 with ⟨o, i', w2⟩
  have hstep : wideLvStep (Wide.new (I := I) n).leaves w = (some (o.isSome, v), ⟨none, [⟨some o, i'⟩]⟩, w2) := by
    cases o <;> simp [wideLvStep, Wide.new, Wide.leaves, openPeek, hs, hp]
  have hn : ∀ fuel, wideLvNext (fuel + 1) (Wide.new (I := I) n).leaves w =
      if o.isSome then wideLvNext fuel ⟨none, [⟨some o, i'⟩]⟩ w2
      else some (some v, ⟨none, [⟨some o, i'⟩]⟩, w2) := fun fuel => by
    rw [wideLvNext, hstep]
    cases o <;> rfl
  constructor
  · rintro ⟨_ | fuel, _ | k, h⟩
    · simp [forLoop] at h
    · simp [forLoop, wideLvNext, conclude] at h
    · simp [forLoop] at h
    · rw [forLoop, hn] at h
      cases o with
      | some d =>
        exact .inner hs hp (wideLv_frames body (fuel + 1) k (wideLv_frames_all body (fuel + 1) k) fuel _ _ _ w2 b w' rfl h)
      | none =>
        simp only [Option.isSome_none, Bool.false_eq_true, if_false, conclude] at h
        rcases hb : body v w2 with ⟨_ | _, w3⟩
        · simp only [hb, Option.some.injEq, Prod.mk.injEq] at h
          obtain ⟨rfl, rfl⟩ := h
          exact .leaf hs hp hb
        · simp only [hb] at h
          have := wideLv_frames_all body (fuel + 1) k [⟨some none, i'⟩] [] [] w3 b w' rfl h
          cases this
          exact .leaf hs hp hb
  · intro h
    cases h with
    | inner h1 h2 h3 =>
      rw [hs] at h1
      cases h1
      rw [hp] at h2
      cases h2
      obtain ⟨fuel, k, hk⟩ := wideLv_loop h3 [⟨some (some _), i'⟩] rfl
      refine ⟨fuel + 1, k + 1, ?_⟩
      rw [forLoop, hn]
      exact conclude_mono (forLoop_mono (wideLvNext_mono fuel) k) (fun y hy => hy) hk
    | leaf h1 h2 h3 =>
      rw [hs] at h1
      cases h1
      rw [hp] at h2
      cases h2
      refine ⟨1, 2, ?_⟩
      rw [forLoop, hn]
      simp only [Option.isSome_none, Bool.false_eq_true, if_false, conclude, h3]
      cases b with
      | false => rfl
      | true =>
        change forLoop _ _ 1 _ _ = _
        rw [forLoop, wideLv_none (q := [⟨some none, i'⟩]) rfl]
        rfl

/-! ## Collections

`ask` is the `next` of the source of the trees, which may act on the shared state too: two nested loops, the outer one through
the trees of the source; each tree is taken when the one before it is done. -/

/-- C81, collections, preorder. -/
theorem C81_collection_preorder [SharedNode W N V I] (ask : C → W → Option N × C × W) (body : Body W V) (c : C) (w : W)
    (b : Bool) (w' : W) :
    (∃ fuel k, forLoop (collNext ask (Pre.new (I := I)) preNext fuel) body k ⟨c, none⟩ w = some (b, w')) ↔
      VisitAll ask (fun n => Visit (.before fun v _ => body v) (.node [] n)) c w b w' :=
  coll_iff (next := fun _ => preNext) (fun _ _ _ _ h => h)
    (fun n w b w' => ⟨fun ⟨_, k, h⟩ => (C81_preorder body n w b w').1 ⟨k, h⟩,
      fun h => ⟨0, (C81_preorder body n w b w').2 h⟩⟩) c w b w'

/-- C81, collections, postorder. -/
theorem C81_collection_postorder [SharedNode W N V I] (ask : C → W → Option N × C × W) (body : Body W V) (c : C) (w : W)
    (b : Bool) (w' : W) :
    (∃ fuel k, forLoop (collNext ask (Post.new (I := I)) (postNext fuel) fuel) body k ⟨c, none⟩ w = some (b, w')) ↔
      VisitAll ask (fun n => Visit (.after fun v _ => body v) (.node [] n)) c w b w' :=
  coll_iff (fun _ _ _ _ h => postNext_mono h) (C81_postorder body) c w b w'

/-- C81, collections, in order. -/
theorem C81_collection_inorder [SharedBin W N V] (ask : C → W → Option N × C × W) (body : Body W V) (c : C) (w : W)
    (b : Bool) (w' : W) :
    (∃ fuel k, forLoop (collNext ask Inorder.new (inNext fuel) fuel) body k ⟨c, none⟩ w = some (b, w')) ↔
      VisitAll ask (fun n => VisitIn body (some n)) c w b w' :=
  coll_iff (fun _ _ _ _ h => inNext_mono h) (C81_inorder body) c w b w'

/-- C81, collections, breadth first. -/
theorem C81_collection_bfs [SharedNode W N V I] (ask : C → W → Option N × C × W) (body : Body W V) (c : C) (w : W)
    (b : Bool) (w' : W) :
    (∃ fuel k, forLoop (collNext ask (Wide.new (I := I)) bfsNext fuel) body k ⟨c, none⟩ w = some (b, w')) ↔
      VisitAll ask (VisitWide body) c w b w' :=
  coll_iff (next := fun _ => bfsNext) (fun _ _ _ _ h => h)
    (fun n w b w' => ⟨fun ⟨_, k, h⟩ => (C81_bfs body n w b w').1 ⟨k, h⟩,
      fun h => ⟨0, (C81_bfs body n w b w').2 h⟩⟩) c w b w'

/-- A source that takes the trees off the table's row 3, which may grow during the loop. -/
def askTable (c : Nat) (w : Table) : Option Nat × Nat × Table :=
  (((w.rows[3]?).getD [])[c]?, c + 1, { w with log := 300 :: w.log })

/-- At node 1 the body adds a tree to the source and gives node 2 a child. -/
def growBody : Body Table Nat := fun v w =>
  (v != 9, ⟨if v = 1 then (w.rows.set 2 [5]).set 3 [0, 7] else w.rows, v :: w.log⟩)

/-- A tree is added to the source during the loop, and met.  The leaves breadth first ask each node (100 and up) at once for its
first child (200 and up), and call the body only for nodes 2 and 3. -/
example : ((forLoop (collNext askTable Pre.new preNext 9) growBody 9 ⟨0, none⟩ ⟨[[1, 2], [4], [], [0]], []⟩).map fun r =>
      (r.1, r.2.log.reverse.filter (· < 100))) = some (true, [0, 1, 4, 2, 5, 7]) ∧
    ((forLoop (wideLvNext 9) addBody 9 (Wide.new 0).leaves table).map fun r => (r.1, r.2.log.reverse)) =
      some (true, [100, 200, 101, 201, 200, 102, 202, 2, 200, 103, 203, 3, 201]) := by decide +kernel

end TreeIter
