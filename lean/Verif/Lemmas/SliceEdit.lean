import Verif.Model.SliceEdit
import Verif.Lemmas.MutSlice
import Verif.Lemmas.CacheDrops

/-! # Lemmas about editing the ancestors of an owned traversal

An owned traversal whose ancestors are edited is compared with a traversal of the same tree whose values are addresses,
and a memory that says which value is at which address. -/

universe u v w x y

namespace TreeIter

section Loop
variable {S : Type u} {T : Type x} {V : Type v} {σ : Type w}

/-- A map of states that commutes with `next` and `edit` does not change what the body sees. -/
theorem editLoop_hom {next : S → Except Panic (Option (List V) × S)} {edit : S → List V → S}
    {next' : T → Except Panic (Option (List V) × T)} {edit' : T → List V → T} (F : S → T)
    (hn : ∀ s, next' (F s) = (next s).map fun r => (r.1, F r.2)) (he : ∀ s ys, edit' (F s) ys = F (edit s ys))
    (f : σ → List V → σ × List V) (k : Nat) (s : S) (w : σ) :
    editLoop next' edit' f k (F s) w = editLoop next edit f k s w := by
  induction k generalizing s w with
  | zero => rfl
  | succ k ih =>
    rw [editLoop, editLoop, hn]
    rcases next s with e | ⟨_ | xs, s'⟩
    · rfl
    · rfl
    · simp only [Except.map, he, ih]

/-- Writing a list of values to a list of addresses. -/
def writeAll {A : Type x} [DecidableEq A] (g : A → V) (as : List A) (ys : List V) : A → V :=
  (as.zip ys).foldl (fun g c => Function.update g c.1 c.2) g

theorem writeAll_of_notMem {A : Type x} [DecidableEq A] (as : List A) : ∀ (g : A → V) (ys : List V) (a : A), a ∉ as →
    writeAll g as ys a = g a := by
  induction as with
  | nil => intros; rfl
  | cons b as ih =>
    intro g ys a ha
    cases ys with
    | nil => rfl
    | cons y ys =>
      simp only [List.mem_cons, not_or] at ha
      have := ih (Function.update g b y) ys a ha.2
      rw [writeAll] at this
      rw [writeAll, List.zip_cons_cons, List.foldl_cons, this, Function.update_of_ne ha.1]

theorem map_writeAll {A : Type x} [DecidableEq A] (as : List A) : ∀ (g : A → V) (ys : List V), as.Nodup →
    as.map (writeAll g as ys) = overwrite (as.map g) ys := by
  induction as with
  | nil => intros; simp [overwrite]
  | cons b as ih =>
    intro g ys h
    rw [List.nodup_cons] at h
    cases ys with
    | nil => simp [writeAll, overwrite]
    | cons y ys =>
      have h1 : writeAll g (b :: as) (y :: ys) = writeAll (Function.update g b y) as ys := rfl
      have h2 : as.map (Function.update g b y) = as.map g := by
        refine List.map_congr_left fun a ha => Function.update_of_ne ?_ _ _
        rintro rfl
        exact h.1 ha
      rw [h1, List.map_cons, ih _ _ h.2, h2, writeAll_of_notMem _ _ _ _ h.1]
      simp [overwrite]

theorem map_writeAll_reverse {A : Type x} [DecidableEq A] (items : List A) (g : A → V) (ys : List V) (h : items.Nodup) :
    overwriteStack (items.map g) ys = items.map (writeAll g items.reverse ys) := by
  rw [overwriteStack, ← List.map_reverse, ← map_writeAll _ _ _ (List.nodup_reverse.2 h), List.map_reverse,
    List.reverse_reverse]

/-- If the values in a state are what is in memory at the addresses in another state, then editing the ancestors is
writing to the memory. -/
theorem editLoop_memory {nextA : T → Except Panic (Option (List (List Nat)) × T)}
    {next : S → Except Panic (Option (List V) × S)} {edit : S → List V → S} (inst : (List Nat → V) → T → S) (Good : T → Prop)
    (hn : ∀ g s, next (inst g s) = (nextA s).map fun r => (r.1.map (List.map g), inst g r.2))
    (hg : ∀ s o s', Good s → nextA s = .ok (o, s') → Good s')
    (he : ∀ s as s', Good s → nextA s = .ok (some as, s') → ∀ g ys, edit (inst g s') ys = inst (writeAll g as ys) s')
    (f : σ → List V → σ × List V) (k : Nat) (s : T) (g : List Nat → V) (w : σ) (hs : Good s) :
    editLoop next edit f k (inst g s) w =
      (forEachSlice nextA (fun g a => some (g a)) (fun g a x => Function.update g a x) f k s g w).map Prod.snd := by
  induction k generalizing s g w with
  | zero => rfl
  | succ k ih =>
    rw [editLoop, forEachSlice, hn]
    rcases hns : nextA s with e | ⟨_ | as, s'⟩
    · rfl
    · rfl
    · have hmap : ∀ as : List (List Nat), as.mapM (fun a => some (g a)) = some (as.map g) := by
        intro as
        induction as with
        | nil => rfl
        | cons a as iha => simp [iha]
      simp only [Except.map, Option.map_some, hmap]
      rw [he s as s' hs hns]
      exact ih s' _ _ (hg _ _ _ hs hns)

/-- Memory as a function of addresses and as a tree. -/
theorem visitAlong_fill (t : Tree V) (f : List Nat → σ → List V → σ × List V) (ps : List (List Nat)) :
    ∀ (g : List Nat → V) (w : σ), (∀ p ∈ ps, (t.cell p).isSome) →
      ps.foldl (fun mw p => visitAlong Tree.cell Tree.setCell (f p) mw p) (t.fill g, w) =
        (let r := ps.foldl (fun mw p => visitAlong (fun g a => some (g a)) (fun g a x => Function.update g a x) (f p) mw p) (g, w)
         (t.fill r.1, r.2)) := by
  induction ps with
  | nil => intros; rfl
  | cons p ps ih =>
    intro g w h
    have hp : ∀ a ∈ prefixes p, (t.cell a).isSome := by
      intro a ha
      rw [prefixes, List.mem_map] at ha
      obtain ⟨i, _, rfl⟩ := ha
      exact cell_prefix t p i (h p (by simp))
    have h1 : (prefixes p).filterMap (t.fill g).cell = (prefixes p).filterMap (fun a => some (g a)) := by
      refine List.filterMap_congr fun a ha => ?_
      rw [cell_fill]
      obtain ⟨y, hy⟩ := Option.isSome_iff_exists.1 (hp a ha)
      rw [hy]
      rfl
    have h2 : ∀ (cs : List (List Nat × V)) (g : List Nat → V), (∀ c ∈ cs, (t.cell c.1).isSome) →
        cs.foldl (fun m c => Tree.setCell m c.1 c.2) (t.fill g) =
          t.fill (cs.foldl (fun g c => Function.update g c.1 c.2) g) := by
      intro cs
      induction cs with
      | nil => intros; rfl
      | cons c cs ihc =>
        intro g hc
        rw [List.foldl_cons, List.foldl_cons, setCell_fill t g c.2 c.1 (hc c (by simp))]
        exact ihc _ fun d hd => hc d (by simp [hd])
    rw [List.foldl_cons, List.foldl_cons]
    have h3 : visitAlong Tree.cell Tree.setCell (f p) (t.fill g, w) p =
        (t.fill (visitAlong (fun g a => some (g a)) (fun g a x => Function.update g a x) (f p) (g, w) p).1,
          (visitAlong (fun g a => some (g a)) (fun g a x => Function.update g a x) (f p) (g, w) p).2) := by
      simp only [visitAlong, h1]
      rw [h2]
      intro c hc
      exact hp _ (List.of_mem_zip hc).1
    rw [h3]
    exact ih _ _ fun q hq => h q (by simp [hq])

theorem visitAlong_fill2 (t : BinTree V) (f : List Nat → σ → List V → σ × List V) (ps : List (List Nat)) :
    ∀ (g : List Nat → V) (w : σ), (∀ p ∈ ps, (t.cell p).isSome) →
      ps.foldl (fun mw p => visitAlong BinTree.cell BinTree.setCell (f p) mw p) (t.fill g, w) =
        (let r := ps.foldl (fun mw p => visitAlong (fun g a => some (g a)) (fun g a x => Function.update g a x) (f p) mw p) (g, w)
         (t.fill r.1, r.2)) := by
  induction ps with
  | nil => intros; rfl
  | cons p ps ih =>
    intro g w h
    have hp : ∀ a ∈ prefixes p, (t.cell a).isSome := by
      intro a ha
      rw [prefixes, List.mem_map] at ha
      obtain ⟨i, _, rfl⟩ := ha
      exact cell_prefix2 t p i (h p (by simp))
    have h1 : (prefixes p).filterMap (t.fill g).cell = (prefixes p).filterMap (fun a => some (g a)) := by
      refine List.filterMap_congr fun a ha => ?_
      rw [cell_fill2]
      obtain ⟨y, hy⟩ := Option.isSome_iff_exists.1 (hp a ha)
      rw [hy]
      rfl
    have h2 : ∀ (cs : List (List Nat × V)) (g : List Nat → V), (∀ c ∈ cs, (t.cell c.1).isSome) →
        cs.foldl (fun m c => BinTree.setCell m c.1 c.2) (t.fill g) =
          t.fill (cs.foldl (fun g c => Function.update g c.1 c.2) g) := by
      intro cs
      induction cs with
      | nil => intros; rfl
      | cons c cs ihc =>
        intro g hc
        rw [List.foldl_cons, List.foldl_cons, setCell_fill2 t g c.2 c.1 (hc c (by simp))]
        exact ihc _ fun d hd => hc d (by simp [hd])
    rw [List.foldl_cons, List.foldl_cons]
    have h3 : visitAlong BinTree.cell BinTree.setCell (f p) (t.fill g, w) p =
        (t.fill (visitAlong (fun g a => some (g a)) (fun g a x => Function.update g a x) (f p) (g, w) p).1,
          (visitAlong (fun g a => some (g a)) (fun g a x => Function.update g a x) (f p) (g, w) p).2) := by
      simp only [visitAlong, h1]
      rw [h2]
      intro c hc
      exact hp _ (List.of_mem_zip hc).1
    rw [h3]
    exact ih _ _ fun q hq => h q (by simp [hq])

/-- The two together. -/
theorem editLoop_tree {nextA : T → Except Panic (Option (List (List Nat)) × T)}
    {next : S → Except Panic (Option (List V) × S)} {edit : S → List V → S} (inst : (List Nat → V) → T → S) (Good : T → Prop)
    (hn : ∀ g s, next (inst g s) = (nextA s).map fun r => (r.1.map (List.map g), inst g r.2))
    (hg : ∀ s o s', Good s → nextA s = .ok (o, s') → Good s')
    (he : ∀ s as s', Good s → nextA s = .ok (some as, s') → ∀ g ys, edit (inst g s') ys = inst (writeAll g as ys) s')
    (f : σ → List V → σ × List V) (k : Nat) (s : T) (hs : Good s) (t : Tree V) (g : List Nat → V) (w : σ) (ht : t.fill g = t)
    (ps : List (List Nat)) (hps : ∀ p ∈ ps, (t.cell p).isSome)
    (hnth : ∀ i, i < k → i ≤ ps.length → nthCallE nextA i s = .ok (ps.map prefixes)[i]?) :
    editLoop next edit f k (inst g s) w = .ok ((ps.take k).foldl (visitAlong Tree.cell Tree.setCell f) (t, w)).2 := by
  rw [editLoop_memory inst Good hn hg he f k s g w hs,
    forEachSlice_spec nextA _ _ f (fun _ => True) k s ps g w hnth trivial (fun _ _ _ _ _ _ => rfl) (fun _ _ _ _ => trivial)]
  have := visitAlong_fill t (fun _ => f) (ps.take k) g w fun p hp => hps p (List.mem_of_mem_take hp)
  rw [ht] at this
  rw [this]
  rfl

theorem editLoop_binTree {nextA : T → Except Panic (Option (List (List Nat)) × T)}
    {next : S → Except Panic (Option (List V) × S)} {edit : S → List V → S} (inst : (List Nat → V) → T → S) (Good : T → Prop)
    (hn : ∀ g s, next (inst g s) = (nextA s).map fun r => (r.1.map (List.map g), inst g r.2))
    (hg : ∀ s o s', Good s → nextA s = .ok (o, s') → Good s')
    (he : ∀ s as s', Good s → nextA s = .ok (some as, s') → ∀ g ys, edit (inst g s') ys = inst (writeAll g as ys) s')
    (f : σ → List V → σ × List V) (k : Nat) (s : T) (hs : Good s) (t : BinTree V) (g : List Nat → V) (w : σ) (ht : t.fill g = t)
    (ps : List (List Nat)) (hps : ∀ p ∈ ps, (t.cell p).isSome)
    (hnth : ∀ i, i < k → i ≤ ps.length → nthCallE nextA i s = .ok (ps.map prefixes)[i]?) :
    editLoop next edit f k (inst g s) w = .ok ((ps.take k).foldl (visitAlong BinTree.cell BinTree.setCell f) (t, w)).2 := by
  rw [editLoop_memory inst Good hn hg he f k s g w hs,
    forEachSlice_spec nextA _ _ f (fun _ => True) k s ps g w hnth trivial (fun _ _ _ _ _ _ => rfl) (fun _ _ _ _ => trivial)]
  have := visitAlong_fill2 t (fun _ => f) (ps.take k) g w fun p hp => hps p (List.mem_of_mem_take hp)
  rw [ht] at this
  rw [this]
  rfl

end Loop

end TreeIter
