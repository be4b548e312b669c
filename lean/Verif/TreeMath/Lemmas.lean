import Verif.TreeMath.Model

/-! Helper lemmas about the tree arithmetic: every index is `node k m` (height `k`, position `m`
from the left at that height), and all navigation functions have closed forms on `node`. -/

namespace Verif.TreeMath

/-- In-order index of the `m`-th node (from the left) at height `k`. -/
def node (k m : Nat) : Nat := m * 2 ^ (k + 1) + 2 ^ k - 1

theorem two_pow_pos' (k : Nat) : 0 < 2 ^ k := Nat.pow_pos (by decide)

theorem node_eq (k m : Nat) : node k m = 2 ^ (k + 1) * m + (2 ^ k - 1) := by
  have := two_pow_pos' k
  unfold node
  rw [Nat.mul_comm]
  omega

theorem testBit_node (k m i : Nat) :
    (node k m).testBit i = if i < k then true else if i = k then false else m.testBit (i - (k + 1)) := by
  rw [node_eq]
  have hlt : 2 ^ k - 1 < 2 ^ (k + 1) := by
    have := two_pow_pos' k
    rw [Nat.pow_succ]; omega
  rw [Nat.testBit_two_pow_mul_add _ hlt]
  rw [Nat.testBit_two_pow_sub_one]
  by_cases h1 : i < k
  · simp [h1, Nat.lt_succ_of_lt h1]
  · by_cases h2 : i = k
    · simp [h2]
    · have : ¬ i < k + 1 := by omega
      simp [h1, h2, this]

theorem node_zero (m : Nat) : node 0 m = 2 * m := by
  simp [node]; omega

theorem node_lt_iff_odd (k m : Nat) : node (k + 1) m % 2 = 1 := by
  rw [node_eq, Nat.pow_succ, Nat.pow_succ]
  have := two_pow_pos' k
  have : 2 ^ k * 2 * 2 * m = 2 * (2 ^ k * 2 * m) := by
    rw [Nat.mul_comm (2 ^ k * 2) 2, Nat.mul_assoc]
  rw [this]
  omega

/-- Every index is some `node k m`. -/
theorem exists_node (x : Nat) : ∃ k m, x = node k m := by
  induction x using Nat.strongRecOn with
  | _ x ih =>
    rcases Nat.mod_two_eq_zero_or_one x with h | h
    · exact ⟨0, x / 2, by rw [node_zero]; omega⟩
    · obtain ⟨k, m, hk⟩ := ih (x / 2) (by omega)
      refine ⟨k + 1, m, ?_⟩
      have h1 : node (k + 1) m = 2 * node k m + 1 := by
        rw [node_eq, node_eq, Nat.pow_succ 2 (k + 1), Nat.pow_succ 2 k]
        have := two_pow_pos' k
        have : 2 ^ k * 2 * 2 * m = 2 * (2 ^ k * 2 * m) := by
          rw [Nat.mul_comm (2 ^ k * 2) 2, Nat.mul_assoc]
        rw [this]
        omega
      rw [h1, ← hk]; omega

theorem node_succ (k m : Nat) : node (k + 1) m = 2 * node k m + 1 := by
  rw [node_eq, node_eq, Nat.pow_succ 2 (k + 1), Nat.pow_succ 2 k]
  have := two_pow_pos' k
  have : 2 ^ k * 2 * 2 * m = 2 * (2 ^ k * 2 * m) := by
    rw [Nat.mul_comm (2 ^ k * 2) 2, Nat.mul_assoc]
  rw [this]
  omega

theorem node_inj {k m k' m' : Nat} (h : node k m = node k' m') : k = k' ∧ m = m' := by
  induction k generalizing k' with
  | zero =>
    cases k' with
    | zero => rw [node_zero, node_zero] at h; omega
    | succ k' => rw [node_zero, node_succ] at h; omega
  | succ k ih =>
    cases k' with
    | zero => rw [node_zero, node_succ] at h; omega
    | succ k' =>
      rw [node_succ, node_succ] at h
      have := ih (k' := k') (by omega)
      omega

theorem levelLoop_node (k m j : Nat) (hj : j ≤ k) : levelLoop (node k m) j = k := by
  induction hd : k - j generalizing j with
  | zero =>
    have : j = k := by omega
    subst this
    rw [levelLoop]
    have : (node j m).testBit j = false := by rw [testBit_node]; simp
    rw [Nat.testBit, Nat.and_comm] at this
    have h2 : (node j m >>> j) &&& 1 = 0 := by simpa using this
    simp [h2]
  | succ d ih =>
    rw [levelLoop]
    have hlt : j < k := by omega
    have : (node k m).testBit j = true := by rw [testBit_node]; simp [hlt]
    have h2 : (node k m >>> j) &&& 1 = 1 := by
      rw [Nat.testBit, Nat.and_comm] at this
      have h3 : (node k m >>> j) &&& 1 ≠ 0 := by simpa using this
      rw [Nat.and_one_is_mod] at h3 ⊢
      generalize node k m >>> j = y at *
      omega
    rw [if_pos h2]
    exact ih (j + 1) (by omega) (by omega)

@[simp] theorem level_node (k m : Nat) : level (node k m) = k := by
  unfold level
  split
  · rename_i h
    cases k with
    | zero => rfl
    | succ k =>
      rw [Nat.and_one_is_mod, node_lt_iff_odd] at h
      omega
  · exact levelLoop_node k m 0 (Nat.zero_le _)

@[simp] theorem u32_new (x : Nat) : (TreeNodeIndex.new x).u32 = x := by
  unfold TreeNodeIndex.new
  split
  · simp [TreeNodeIndex.u32, leafToTree]; omega
  · simp [TreeNodeIndex.u32, innerToTree, innerFromTree]; omega

@[simp] theorem new_u32 (n : TreeNodeIndex) : TreeNodeIndex.new n.u32 = n := by
  cases n with
  | leaf i => simp [TreeNodeIndex.new, TreeNodeIndex.u32, leafToTree]
  | inner i =>
    have h : (i * 2 + 1) % 2 = 1 := by omega
    simp [TreeNodeIndex.new, TreeNodeIndex.u32, innerToTree, innerFromTree]

theorem u32_inj {a b : TreeNodeIndex} (h : a.u32 = b.u32) : a = b := by
  rw [← new_u32 a, ← new_u32 b, h]

theorem innerToTree_from {x : Nat} (h : x % 2 = 1) : innerToTree (innerFromTree x) = x := by
  unfold innerToTree innerFromTree; omega

theorem innerFrom_to (i : Nat) : innerFromTree (innerToTree i) = i := by
  unfold innerToTree innerFromTree; omega

theorem innerToTree_inj {i j : Nat} (h : innerToTree i = innerToTree j) : i = j := by
  unfold innerToTree at h; omega

theorem inner_u32 (i : Nat) : (TreeNodeIndex.inner i).u32 = innerToTree i := rfl
theorem leaf_u32 (i : Nat) : (TreeNodeIndex.leaf i).u32 = node 0 i := by
  rw [node_zero]; simp [TreeNodeIndex.u32, leafToTree]; omega

/-- Bits of `1`. -/
theorem testBit_one' (i : Nat) : Nat.testBit 1 i = decide (i = 0) := by
  cases i <;> simp [Nat.testBit_succ]

theorem testBit_three (i : Nat) : Nat.testBit 3 i = decide (i < 2) := by
  match i with
  | 0 => rfl
  | 1 => rfl
  | i + 2 => simp [Nat.testBit_succ]

theorem left_node {i k m : Nat} (h : innerToTree i = node (k + 1) m) :
    left i = .new (node k (2 * m)) := by
  unfold left
  simp only [h, level_node, Nat.add_sub_cancel]
  congr 1
  apply Nat.eq_of_testBit_eq
  intro j
  rw [Nat.testBit_xor, testBit_node, testBit_node, Nat.testBit_shiftLeft, testBit_one']
  by_cases h1 : j < k
  · have : j < k + 1 := by omega
    simp [h1, this]
    try omega
  · by_cases h2 : j = k
    · simp [h2]
    · by_cases h3 : j = k + 1
      · subst h3; simp
      · have e1 : ¬ j < k + 1 := by omega
        have e2 : j - (k + 1) = (j - (k + 2)) + 1 := by omega
        have e3 : ¬ (j - k = 0) := by omega
        rw [e2, Nat.testBit_succ]
        simp [h1, h2, h3, e1, e3]

theorem right_node {i k m : Nat} (h : innerToTree i = node (k + 1) m) :
    right i = .new (node k (2 * m + 1)) := by
  unfold right
  simp only [h, level_node, Nat.add_sub_cancel]
  congr 1
  apply Nat.eq_of_testBit_eq
  intro j
  rw [Nat.testBit_xor, testBit_node, testBit_node, Nat.testBit_shiftLeft, testBit_three]
  by_cases h1 : j < k
  · have : j < k + 1 := by omega
    simp [h1, this]
    try omega
  · by_cases h2 : j = k
    · simp [h2]
    · by_cases h3 : j = k + 1
      · subst h3
        simp [Nat.testBit_zero]
      · have e1 : ¬ j < k + 1 := by omega
        have e2 : j - (k + 1) = (j - (k + 2)) + 1 := by omega
        have e3 : ¬ (j - k < 2) := by omega
        have e4 : (2 * m + 1) / 2 = m := by omega
        rw [e2, Nat.testBit_succ, e4]
        simp [h1, h2, h3, e1, e3]

theorem node_shift (k m : Nat) : node k m >>> (k + 1) = m := by
  apply Nat.eq_of_testBit_eq
  intro j
  rw [Nat.testBit_shiftRight, testBit_node]
  have e1 : ¬ (k + 1 + j < k) := by omega
  have e2 : ¬ (k + 1 + j = k) := by omega
  have e3 : k + 1 + j - (k + 1) = j := by omega
  simp [e1, e2, e3]

theorem testBit_mod_two (m i : Nat) : (m % 2).testBit i = (decide (i = 0) && m.testBit 0) := by
  rcases Nat.mod_two_eq_zero_or_one m with h | h
  · rw [h]; simp [h]
  · rw [h, testBit_one']; simp [h]

theorem parent_node {n : TreeNodeIndex} {k m : Nat} (h : n.u32 = node k m) :
    innerToTree (parent n) = node (k + 1) (m / 2) := by
  unfold parent
  simp only [h, level_node, node_shift]
  have hx : (node k m ||| 1 <<< k) ^^^ ((m &&& 1) <<< (k + 1)) = node (k + 1) (m / 2) := by
    apply Nat.eq_of_testBit_eq
    intro j
    rw [Nat.testBit_xor, Nat.testBit_or, testBit_node, testBit_node, Nat.testBit_shiftLeft,
      Nat.testBit_shiftLeft, testBit_one', Nat.and_one_is_mod, testBit_mod_two]
    by_cases h1 : j < k
    · have e1 : j < k + 1 := by omega
      have e2 : ¬ (j ≥ k + 1) := by omega
      simp [h1, e1]
      try omega
    · by_cases h2 : j = k
      · subst h2; simp
        try omega
      · by_cases h3 : j = k + 1
        · subst h3
          simp
          try omega
        · have e1 : ¬ j < k + 1 := by omega
          have e2 : j - (k + 1) = (j - (k + 2)) + 1 := by omega
          have e3 : ¬ (j - k = 0) := by omega
          have e4 : ¬ (j - (k + 1) = 0) := by omega
          have e5 : ¬ j < k + 1 + 1 - 1 := by omega
          rw [e2, Nat.testBit_succ]
          simp [h1, h2, h3, e1, e3]
  rw [hx]
  exact innerToTree_from (node_lt_iff_odd _ _)

/-- A `TreeSize` of height `h`: `2^h` leaves, `2^(h+1) - 1` nodes. -/
theorem node_lt_size {h k m : Nat} : node k m < 2 ^ (h + 1) - 1 ↔ k ≤ h ∧ m < 2 ^ (h - k) := by
  have hk := two_pow_pos' k
  rw [node_eq]
  constructor
  · intro hlt
    have hkh : k ≤ h := by
      apply Decidable.byContradiction
      intro hn
      have : 2 ^ (h + 1) ≤ 2 ^ k := Nat.pow_le_pow_right (by decide) (by omega)
      omega
    refine ⟨hkh, ?_⟩
    apply Decidable.byContradiction
    intro hm
    have h1 : 2 ^ (k + 1) * 2 ^ (h - k) ≤ 2 ^ (k + 1) * m := Nat.mul_le_mul_left _ (by omega)
    rw [← Nat.pow_add] at h1
    have e : k + 1 + (h - k) = h + 1 := by omega
    rw [e] at h1
    omega
  · rintro ⟨hkh, hm⟩
    have h1 : 2 ^ (k + 1) * (m + 1) ≤ 2 ^ (k + 1) * 2 ^ (h - k) := Nat.mul_le_mul_left _ (by omega)
    rw [← Nat.pow_add] at h1
    have e : k + 1 + (h - k) = h + 1 := by omega
    rw [e, Nat.mul_add, Nat.mul_one] at h1
    have : 2 ^ (k + 1) = 2 ^ k * 2 := Nat.pow_succ ..
    omega

theorem log2Loop_eq {x h k : Nat} (hlo : 2 ^ h ≤ x) (hhi : x < 2 ^ (h + 1)) (hk : k ≤ h + 1) :
    log2Loop x k = h + 1 := by
  induction hd : h + 1 - k generalizing k with
  | zero =>
    have : k = h + 1 := by omega
    subst this
    rw [log2Loop]
    have : x >>> (h + 1) = 0 := by
      rw [Nat.shiftRight_eq_div_pow]
      exact Nat.div_eq_of_lt hhi
    simp [this]
  | succ d ih =>
    rw [log2Loop]
    have : x >>> k > 0 := by
      rw [Nat.shiftRight_eq_div_pow]
      apply Nat.div_pos _ (two_pow_pos' k)
      exact Nat.le_trans (Nat.pow_le_pow_right (by decide) (by omega)) hlo
    rw [if_pos this]
    exact ih (by omega) (by omega)

theorem log2_eq {x h : Nat} (hlo : 2 ^ h ≤ x) (hhi : x < 2 ^ (h + 1)) : log2 x = h := by
  unfold log2
  have := two_pow_pos' h
  have : x ≠ 0 := by omega
  rw [if_neg this, log2Loop_eq hlo hhi (by omega)]
  omega

theorem log2_size (h : Nat) : log2 (2 ^ (h + 1) - 1) = h := by
  have := two_pow_pos' h
  have : 2 ^ (h + 1) = 2 ^ h * 2 := Nat.pow_succ ..
  exact log2_eq (by omega) (by omega)

theorem root_size (h : Nat) : (root (2 ^ (h + 1) - 1)).u32 = node h 0 := by
  unfold root
  rw [log2_size, u32_new, node_eq, Nat.shiftLeft_eq]
  simp

/-- The `i`-th ancestor of `node k m`. -/
theorem directPathLoop_node (h k m fuel : Nat) (hk : k ≤ h) (hm : m < 2 ^ (h - k))
    (hf : h - k < fuel) :
    ∃ l, directPathLoop (node h 0) fuel (node k m) = some l ∧
      l.map innerToTree = (List.range (h - k)).map (fun i => node (k + 1 + i) (m / 2 ^ (i + 1))) := by
  induction hd : h - k generalizing k m fuel with
  | zero =>
    have : k = h := by omega
    subst this
    have : m = 0 := by
      have : 2 ^ (k - k) = 1 := by simp
      omega
    subst this
    obtain ⟨f, rfl⟩ : ∃ f, fuel = f + 1 := ⟨fuel - 1, by omega⟩
    exact ⟨[], by simp [directPathLoop]⟩
  | succ d ih =>
    obtain ⟨f, rfl⟩ : ∃ f, fuel = f + 1 := ⟨fuel - 1, by omega⟩
    have hne : node k m ≠ node h 0 := by
      intro he
      have := (node_inj he).1
      omega
    have hp : innerToTree (parent (.new (node k m))) = node (k + 1) (m / 2) :=
      parent_node (u32_new _)
    have hm2 : m / 2 < 2 ^ (h - (k + 1)) := by
      have e : h - k = (h - (k + 1)) + 1 := by omega
      rw [e, Nat.pow_succ] at hm
      omega
    obtain ⟨l, hl, hl2⟩ := ih (k + 1) (m / 2) f (by omega) hm2 (by omega) (by omega)
    refine ⟨parent (.new (node k m)) :: l, ?_, ?_⟩
    · simp only [directPathLoop]
      rw [if_neg hne]
      simp only [hp, hl]
      rfl
    · rw [List.map_cons, hl2, hp, List.range_succ_eq_map, List.map_cons, List.map_map]
      congr 1
      · simp
        intro i _
        rw [Nat.div_div_eq_div_mul]
        congr 1
        · omega
        · congr 1
          rw [Nat.pow_succ 2 (i + 1), Nat.mul_comm]


/-- Inner index of `node (k+1) m`. -/
def nodeInner (k m : Nat) : Nat := innerFromTree (node (k + 1) m)

theorem innerToTree_nodeInner (k m : Nat) : innerToTree (nodeInner k m) = node (k + 1) m :=
  innerToTree_from (node_lt_iff_odd _ _)

theorem map_innerToTree_inj {l l' : List Nat} (h : l.map innerToTree = l'.map innerToTree) :
    l = l' := by
  induction l generalizing l' with
  | nil => cases l' <;> simp_all
  | cons a l ih =>
    cases l' with
    | nil => simp at h
    | cons b l' =>
      simp only [List.map_cons, List.cons.injEq] at h
      rw [innerToTree_inj h.1, ih h.2]

/-- Closed form of the direct path. -/
theorem directPath_node {h k m : Nat} {n : TreeNodeIndex} (hn : n.u32 = node k m) (hk : k ≤ h)
    (hm : m < 2 ^ (h - k)) :
    directPath n (2 ^ (h + 1) - 1) =
      some ((List.range (h - k)).map (fun i => nodeInner (k + i) (m / 2 ^ (i + 1)))) := by
  unfold directPath
  rw [root_size, hn]
  have hf : h - k < 2 ^ (h + 1) - 1 + 1 := by
    have h1 : h < 2 ^ h := Nat.lt_two_pow_self
    have h2 : 2 ^ (h + 1) = 2 ^ h * 2 := Nat.pow_succ ..
    omega
  obtain ⟨l, hl, hl2⟩ := directPathLoop_node h k m _ hk hm hf
  rw [hl]
  congr 1
  apply map_innerToTree_inj
  rw [hl2, List.map_map]
  apply List.map_congr_left
  intro i _
  simp only [Function.comp, innerToTree_nodeInner]
  congr 1
  omega

/-- The direct path of a leaf. -/
theorem directPath_leaf {h i : Nat} (hi : i < 2 ^ h) :
    directPath (.leaf i) (2 ^ (h + 1) - 1) =
      some ((List.range h).map (fun t => nodeInner t (i / 2 ^ (t + 1)))) := by
  have := directPath_node (h := h) (k := 0) (m := i) (leaf_u32 i) (Nat.zero_le _) (by simpa using hi)
  simpa using this

theorem leafCount_size (h : Nat) : TreeSize.leafCount (2 ^ (h + 1) - 1) = 2 ^ h := by
  have := two_pow_pos' h
  have h2 : 2 ^ (h + 1) = 2 ^ h * 2 := Nat.pow_succ ..
  unfold TreeSize.leafCount
  omega

theorem innerCount_size (h : Nat) : TreeSize.innerNodeCount (2 ^ (h + 1) - 1) = 2 ^ h - 1 := by
  have := two_pow_pos' h
  have h2 : 2 ^ (h + 1) = 2 ^ h * 2 := Nat.pow_succ ..
  unfold TreeSize.innerNodeCount
  omega

theorem size_inc (h : Nat) : TreeSize.inc (2 ^ (h + 1) - 1) = 2 ^ (h + 2) - 1 := by
  have := two_pow_pos' h
  have h2 : 2 ^ (h + 1) = 2 ^ h * 2 := Nat.pow_succ ..
  have h3 : 2 ^ (h + 2) = 2 ^ (h + 1) * 2 := Nat.pow_succ ..
  unfold TreeSize.inc
  omega

theorem exists_log2 {x : Nat} (hx : x ≠ 0) : ∃ h, 2 ^ h ≤ x ∧ x < 2 ^ (h + 1) := by
  induction x using Nat.strongRecOn with
  | _ x ih =>
    by_cases h1 : x = 1
    · exact ⟨0, by simp [h1]⟩
    · obtain ⟨h, ha, hb⟩ := ih (x / 2) (by omega) (by omega)
      refine ⟨h + 1, ?_, ?_⟩
      · rw [Nat.pow_succ]; omega
      · rw [Nat.pow_succ]; omega

theorem size_new (n : Nat) : ∃ h, TreeSize.new n = 2 ^ (h + 1) - 1 ∧ n ≤ TreeSize.new n ∧
    (n ≠ 0 → 2 ^ h ≤ n) := by
  unfold TreeSize.new
  by_cases hn : n = 0
  · exact ⟨0, by simp [hn, log2]⟩
  · obtain ⟨h, ha, hb⟩ := exists_log2 hn
    refine ⟨h, ?_, ?_, fun _ => ha⟩
    · rw [log2_eq ha hb, Nat.shiftLeft_eq, Nat.one_mul]
    · rw [log2_eq ha hb, Nat.shiftLeft_eq, Nat.one_mul]
      omega

theorem u32_inner_or_leaf {n : TreeNodeIndex} {k m : Nat} (h : n.u32 = node k m) :
    (k = 0 ∧ n = .leaf m) ∨ (∃ k', k = k' + 1 ∧ n = .inner (nodeInner k' m)) := by
  cases k with
  | zero => left; exact ⟨rfl, u32_inj (by rw [h, leaf_u32])⟩
  | succ k =>
    right
    exact ⟨k, rfl, u32_inj (by rw [h, inner_u32, innerToTree_nodeInner])⟩

theorem inner_exists_node (i : Nat) : ∃ k m, innerToTree i = node (k + 1) m := by
  obtain ⟨k, m, h⟩ := exists_node (innerToTree i)
  cases k with
  | zero => rw [node_zero] at h; unfold innerToTree at h; omega
  | succ k => exact ⟨k, m, h⟩

theorem sibling_node {n : TreeNodeIndex} {k m : Nat} (h : n.u32 = node k m) :
    (sibling n).u32 = node k (if m % 2 = 0 then m + 1 else m - 1) := by
  unfold sibling
  have hp := parent_node h
  simp only [h, hp]
  have hlt : node k m < node (k + 1) (m / 2) ↔ m % 2 = 0 := by
    rw [node_eq, node_eq]
    have e1 : 2 ^ (k + 1 + 1) * (m / 2) = 2 ^ (k + 1) * (2 * (m / 2)) := by
      rw [Nat.pow_succ 2 (k + 1), Nat.mul_assoc]
    have e2 : 2 ^ (k + 1) = 2 ^ k * 2 := Nat.pow_succ ..
    have := two_pow_pos' k
    rcases Nat.mod_two_eq_zero_or_one m with hm | hm
    · have : 2 * (m / 2) = m := by omega
      rw [e1, this]; omega
    · have : m = 2 * (m / 2) + 1 := by omega
      generalize m / 2 = q at *
      subst this
      rw [e1, Nat.mul_add]
      omega
  by_cases hm : m % 2 = 0
  · rw [if_pos (hlt.2 hm), right_node hp, u32_new, if_pos hm]
    congr 1; omega
  · rw [if_neg (mt hlt.1 hm), left_node hp, u32_new, if_neg hm]
    congr 1; omega

end Verif.TreeMath
