import Verif.TreeMath.Lemmas

/-! # Helper lemma: the loop of `direct_path` outside the tree -/

namespace Verif.TreeMath

theorem directPathLoop_outside (h fuel : Nat) {k m : Nat} (ho : h < k ∨ 2 ^ (h - k) ≤ m) :
    directPathLoop (node h 0) fuel (node k m) = none := by
  induction fuel generalizing k m with
  | zero => rfl
  | succ fuel ih =>
    have hne : node k m ≠ node h 0 := by
      intro he
      obtain ⟨rfl, rfl⟩ := node_inj he
      rcases ho with ho | ho
      · omega
      · simp at ho
    have hp : innerToTree (parent (.new (node k m))) = node (k + 1) (m / 2) := parent_node (u32_new _)
    simp only [directPathLoop]
    rw [if_neg hne]
    simp only [hp]
    rw [ih]
    · rfl
    · by_cases hk : h ≤ k
      · left; omega
      · right
        rcases ho with ho | ho
        · omega
        · rw [show h - k = (h - (k + 1)) + 1 by omega, Nat.pow_succ] at ho
          omega

/-- Starting from a leaf outside the tree, the loop never ends. -/
theorem directPathLoop_leaf_outside (h fuel : Nat) {i : Nat} (hi : 2 ^ h ≤ i) :
    directPathLoop (root (2 ^ (h + 1) - 1)).u32 fuel (TreeNodeIndex.leaf i).u32 = none := by
  rw [root_size, leaf_u32]
  exact directPathLoop_outside h fuel (.inr (by simpa using hi))

end Verif.TreeMath
