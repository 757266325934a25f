import Verif.Model.Leaves
import Verif.Model.Bfs
import Verif.Props.Samples

/-! # C23: `attach_context` and `attach_ancestors` panic exactly after an advance -/

universe u v

namespace TreeIter

variable {N : Type u} {V : Type v}

/-- A flag that every call sets is set exactly after a positive number of calls. -/
theorem stateAfter_flag {S : Type u} {O : Type v} (next : S → Option O × S) (started : S → Prop)
    (h : ∀ s, started (next s).2) (s : S) (h0 : ¬ started s) (k : Nat) :
    started (stateAfter next k s) ↔ k ≠ 0 := by
  cases k with
  | zero => simpa [stateAfter] using h0
  | succ k =>
    simp only [ne_eq, Nat.add_eq_zero_iff, Nat.one_ne_zero, and_false, not_false_eq_true, iff_true]
    have : ∀ (k : Nat) (s : S), started s → started (stateAfter next k s) := by
      intro k
      induction k with
      | zero => exact fun s hs => hs
      | succ k ih => exact fun s _ => ih _ (h s)
    exact this k _ (h s)

theorem preorder_started [TreeNode N V] (n : N) (k : Nat) :
    (stateAfter Preorder.next k (Preorder.new n)).root = none ↔ k ≠ 0 :=
  stateAfter_flag Preorder.next (fun s => s.root = none) (fun s => by
    rw [Preorder.next]
    repeat' split
    all_goals rfl) _ (by simp [Preorder.new]) k

theorem postorder_started [TreeNode N V] (n : N) (k : Nat) :
    (stateAfter Postorder.next k (Postorder.new n)).root = none ↔ k ≠ 0 :=
  stateAfter_flag Postorder.next (fun s => s.root = none) (fun s => rfl) _ (by simp [Postorder.new]) k

theorem inorder_started [BinNode N V] (n : N) (k : Nat) :
    (stateAfter Inorder.next k (Inorder.new n)).moved = true ↔ k ≠ 0 :=
  stateAfter_flag Inorder.next (fun s => s.moved = true) (fun s => by
    rw [Inorder.next]
    repeat' split
    all_goals rfl) _ (by simp [Inorder.new]) k

/-- C23, `Preorder.attachAncestors`. -/
theorem C23_preorder_ancestors [TreeNode N V] (n : N) (k : Nat) :
    (k = 0 → ∃ s, Preorder.attachAncestors (V := V) (stateAfter Preorder.next k (Preorder.new n)) = .ok s) ∧
      (k ≠ 0 → Preorder.attachAncestors (V := V) (stateAfter Preorder.next k (Preorder.new n)) = .error .attachMidTraversal) := by
  refine ⟨?_, fun h => ?_⟩
  · rintro rfl
    exact ⟨_, rfl⟩
  · have := (preorder_started n k).2 h
    simp [Preorder.attachAncestors, this]

example : (Preorder.attachAncestors (V := Nat) (stateAfter Preorder.next 2 (Preorder.new sampleTree))).toBool = false := by decide +kernel

/-- C23, `Preorder.attachContext`. -/
theorem C23_preorder_context [TreeNode N V] (n : N) (k : Nat) :
    (k = 0 → ∃ s, Preorder.attachContext (V := V) (stateAfter Preorder.next k (Preorder.new n)) = .ok s) ∧
      (k ≠ 0 → Preorder.attachContext (V := V) (stateAfter Preorder.next k (Preorder.new n)) = .error .attachMidTraversal) := by
  refine ⟨?_, fun h => ?_⟩
  · rintro rfl
    exact ⟨_, rfl⟩
  · have := (preorder_started n k).2 h
    simp [Preorder.attachContext, this]

example : (Preorder.attachContext (V := Nat) (stateAfter Preorder.next 2 (Preorder.new sampleTree))).toBool = false := by decide +kernel

/-- C23, `Preorder.binAttachContext`. -/
theorem C23_preorder_context_binary [BinNode N V] (n : N) (k : Nat) :
    (k = 0 → ∃ s, Preorder.binAttachContext (V := V) (stateAfter Preorder.next k (Preorder.new n)) = .ok s) ∧
      (k ≠ 0 → Preorder.binAttachContext (V := V) (stateAfter Preorder.next k (Preorder.new n)) = .error .attachMidTraversal) := by
  refine ⟨?_, fun h => ?_⟩
  · rintro rfl
    exact ⟨_, rfl⟩
  · have := (preorder_started n k).2 h
    simp [Preorder.binAttachContext, this]

example : (Preorder.binAttachContext (V := Nat) (stateAfter Preorder.next 2 (Preorder.new sampleBin))).toBool = false := by decide +kernel

/-- C23, `Postorder.attachAncestors`. -/
theorem C23_postorder_ancestors [TreeNode N V] (n : N) (k : Nat) :
    (k = 0 → ∃ s, Postorder.attachAncestors (stateAfter Postorder.next k (Postorder.new n)) = .ok s) ∧
      (k ≠ 0 → Postorder.attachAncestors (stateAfter Postorder.next k (Postorder.new n)) = .error .attachMidTraversal) := by
  refine ⟨?_, fun h => ?_⟩
  · rintro rfl
    exact ⟨_, rfl⟩
  · have := (postorder_started n k).2 h
    simp [Postorder.attachAncestors, this]

example : (Postorder.attachAncestors (stateAfter Postorder.next 2 (Postorder.new sampleTree))).toBool = false := by decide +kernel

/-- C23, `Postorder.attachContext`. -/
theorem C23_postorder_context [TreeNode N V] (n : N) (k : Nat) :
    (k = 0 → ∃ s, Postorder.attachContext (stateAfter Postorder.next k (Postorder.new n)) = .ok s) ∧
      (k ≠ 0 → Postorder.attachContext (stateAfter Postorder.next k (Postorder.new n)) = .error .attachMidTraversal) := by
  refine ⟨?_, fun h => ?_⟩
  · rintro rfl
    exact ⟨_, rfl⟩
  · have := (postorder_started n k).2 h
    simp [Postorder.attachContext, this]

example : (Postorder.attachContext (stateAfter Postorder.next 2 (Postorder.new sampleTree))).toBool = false := by decide +kernel

/-- C23, `Postorder.ownAttachContext`. -/
theorem C23_postorder_context_owned [TreeNode N V] (n : N) (k : Nat) :
    (k = 0 → ∃ s, Postorder.ownAttachContext (stateAfter Postorder.next k (Postorder.new n)) = .ok s) ∧
      (k ≠ 0 → Postorder.ownAttachContext (stateAfter Postorder.next k (Postorder.new n)) = .error .attachMidTraversal) := by
  refine ⟨?_, fun h => ?_⟩
  · rintro rfl
    exact ⟨_, rfl⟩
  · have := (postorder_started n k).2 h
    simp [Postorder.ownAttachContext, this]

example : (Postorder.ownAttachContext (stateAfter Postorder.next 2 (Postorder.new sampleTree))).toBool = false := by decide +kernel

/-- C23, `Postorder.binAttachContext`. -/
theorem C23_postorder_context_binary [BinNode N V] (n : N) (k : Nat) :
    (k = 0 → ∃ s, Postorder.binAttachContext (stateAfter Postorder.next k (Postorder.new n)) = .ok s) ∧
      (k ≠ 0 → Postorder.binAttachContext (stateAfter Postorder.next k (Postorder.new n)) = .error .attachMidTraversal) := by
  refine ⟨?_, fun h => ?_⟩
  · rintro rfl
    exact ⟨_, rfl⟩
  · have := (postorder_started n k).2 h
    simp [Postorder.binAttachContext, this]

example : (Postorder.binAttachContext (stateAfter Postorder.next 2 (Postorder.new sampleBin))).toBool = false := by decide +kernel

/-- C23, `Postorder.ownBinAttachContext`. -/
theorem C23_postorder_context_binary_owned [BinNode N V] (n : N) (k : Nat) :
    (k = 0 → ∃ s, Postorder.ownBinAttachContext (stateAfter Postorder.next k (Postorder.new n)) = .ok s) ∧
      (k ≠ 0 → Postorder.ownBinAttachContext (stateAfter Postorder.next k (Postorder.new n)) = .error .attachMidTraversal) := by
  refine ⟨?_, fun h => ?_⟩
  · rintro rfl
    exact ⟨_, rfl⟩
  · have := (postorder_started n k).2 h
    simp [Postorder.ownBinAttachContext, this]

example : (Postorder.ownBinAttachContext (stateAfter Postorder.next 2 (Postorder.new sampleBin))).toBool = false := by decide +kernel

/-- C23, `Inorder.attachAncestors`. -/
theorem C23_inorder_ancestors [BinNode N V] (n : N) (k : Nat) :
    (k = 0 → ∃ s, Inorder.attachAncestors (stateAfter Inorder.next k (Inorder.new n)) = .ok s) ∧
      (k ≠ 0 → Inorder.attachAncestors (stateAfter Inorder.next k (Inorder.new n)) = .error .attachMidTraversal) := by
  refine ⟨?_, fun h => ?_⟩
  · rintro rfl
    exact ⟨_, rfl⟩
  · have := (inorder_started n k).2 h
    simp [Inorder.attachAncestors, this]

example : (Inorder.attachAncestors (stateAfter Inorder.next 2 (Inorder.new sampleBin))).toBool = false := by decide +kernel

/-- C23, `Inorder.attachContext`. -/
theorem C23_inorder_context [BinNode N V] (n : N) (k : Nat) :
    (k = 0 → ∃ s, Inorder.attachContext (stateAfter Inorder.next k (Inorder.new n)) = .ok s) ∧
      (k ≠ 0 → Inorder.attachContext (stateAfter Inorder.next k (Inorder.new n)) = .error .attachMidTraversal) := by
  refine ⟨?_, fun h => ?_⟩
  · rintro rfl
    exact ⟨_, rfl⟩
  · have := (inorder_started n k).2 h
    simp [Inorder.attachContext, this]

example : (Inorder.attachContext (stateAfter Inorder.next 2 (Inorder.new sampleBin))).toBool = false := by decide +kernel

/-- C23, `Inorder.ownAttachContext`. -/
theorem C23_inorder_context_owned [BinNode N V] (n : N) (k : Nat) :
    (k = 0 → ∃ s, Inorder.ownAttachContext (stateAfter Inorder.next k (Inorder.new n)) = .ok s) ∧
      (k ≠ 0 → Inorder.ownAttachContext (stateAfter Inorder.next k (Inorder.new n)) = .error .attachMidTraversal) := by
  refine ⟨?_, fun h => ?_⟩
  · rintro rfl
    exact ⟨_, rfl⟩
  · have := (inorder_started n k).2 h
    simp [Inorder.ownAttachContext, this]

example : (Inorder.ownAttachContext (stateAfter Inorder.next 2 (Inorder.new sampleBin))).toBool = false := by decide +kernel

end TreeIter
