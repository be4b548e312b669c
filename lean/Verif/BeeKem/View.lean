import Verif.BeeKem.Shape

/-! # Helper lemmas: addressing nodes by (level, position), resolutions -/

namespace Verif.BeeKem

open Verif.TreeMath

/-- The `m`-th node of level `k` (leaves are level 0). -/
def nd : Nat → Nat → TreeNodeIndex
  | 0, m => .leaf m
  | k + 1, m => .inner (nodeInner k m)

theorem nd_u32 (k m : Nat) : (nd k m).u32 = node k m := by
  cases k with
  | zero => exact leaf_u32 m
  | succ k => rw [nd, inner_u32, innerToTree_nodeInner]

theorem nd_inj {k m k' m' : Nat} (h : nd k m = nd k' m') : k = k' ∧ m = m' := by
  apply node_inj
  rw [← nd_u32, ← nd_u32, h]

theorem parent_nd (k m : Nat) : parent (nd k m) = nodeInner k (m / 2) := by
  cases k with
  | zero => exact parent_leaf m
  | succ k => exact parent_nodeInner k m

theorem left_nd (k m : Nat) : left (nodeInner k m) = nd k (2 * m) := by
  cases k with
  | zero => exact left_nodeInner_zero m
  | succ k => exact left_nodeInner_succ k m

theorem right_nd (k m : Nat) : right (nodeInner k m) = nd k (2 * m + 1) := by
  cases k with
  | zero => exact right_nodeInner_zero m
  | succ k => exact right_nodeInner_succ k m

/-- The position of the sibling of position `m`. -/
def sib (m : Nat) : Nat := if m % 2 = 0 then m + 1 else m - 1

theorem sibling_nd (k m : Nat) : sibling (nd k m) = nd k (sib m) := by
  apply u32_inj
  rw [sibling_node (nd_u32 k m), nd_u32, sib]

theorem sib_div (m : Nat) : sib m / 2 = m / 2 := by unfold sib; split <;> omega
theorem sib_ne (m : Nat) : sib m ≠ m := by unfold sib; split <;> omega
theorem sib_sib (m : Nat) : sib (sib m) = m := by unfold sib; split <;> split <;> omega
theorem eq_or_sib {m n : Nat} (h : m / 2 = n / 2) : m = n ∨ m = sib n := by
  unfold sib; split <;> omega

theorem sib_lt {h m : Nat} (hh : 1 ≤ h) (hm : m < 2 ^ h) : sib m < 2 ^ h := by
  rw [show h = (h - 1) + 1 by omega, Nat.pow_succ] at hm ⊢
  unfold sib; split <;> omega

namespace BeeKem

/-- In-range node addresses. -/
def InR (h k m : Nat) : Prop := k ≤ h ∧ m < 2 ^ (h - k)

theorem InR.parent {h k m : Nat} (hr : InR h k m) (hk : k < h) : InR h (k + 1) (m / 2) := by
  refine ⟨hk, ?_⟩
  have := hr.2
  rw [show h - k = (h - (k + 1)) + 1 by omega, Nat.pow_succ] at this
  omega

theorem InR.sib {h k m : Nat} (hr : InR h k m) (hk : k < h) : InR h k (sib m) :=
  ⟨hr.1, sib_lt (by omega) hr.2⟩

theorem InR.child {h k m n : Nat} (hr : InR h (k + 1) m) (hn : n / 2 = m) : InR h k n := by
  refine ⟨by have := hr.1; omega, ?_⟩
  have := hr.1
  have := hr.2
  rw [show h - k = (h - (k + 1)) + 1 by omega, Nat.pow_succ]
  omega

theorem inR_inner {h k m : Nat} : InR h (k + 1) m ↔ nodeInner k m < 2 ^ h - 1 := by
  rw [nodeInner_lt]; rfl

/-- The address `(k, i / 2^k)` of the level-`k` ancestor of leaf `i`. -/
theorem inR_anc {h k i : Nat} (hi : i < 2 ^ h) (hk : k ≤ h) : InR h k (i / 2 ^ k) := by
  refine ⟨hk, ?_⟩
  rw [Nat.div_lt_iff_lt_mul (Nat.pow_pos (by decide)), ← Nat.pow_add]
  rwa [show h - k + k = h by omega]

theorem div_pow_succ (i k : Nat) : i / 2 ^ (k + 1) = i / 2 ^ k / 2 := by
  rw [Nat.pow_succ, Nat.div_div_eq_div_mul]

/-- Whether node `(k, m)` is skipped in resolutions. -/
def skipD (t : BeeKem) : Nat → Nat → Bool
  | 0, m => (t.leafD m).isNone
  | k + 1, m =>
    match t.innerD (nodeInner k m) with
    | none => true
    | some s => s.hasConflict

/-- The key of node `(k, m)`, if it has one. -/
def keyD (t : BeeKem) : Nat → Nat → Option NodeKey
  | 0, m => (t.leafD m).map (·.pk)
  | k + 1, m =>
    match t.innerD (nodeInner k m) with
    | none => none
    | some s => s.nodeKey.toOption

theorem shouldSkip_ok {t : BeeKem} {h k m : Nat} (hs : Shape t h) (hr : InR h k m) :
    t.shouldSkip (nd k m) = .ok (t.skipD k m) := by
  cases k with
  | zero =>
    unfold shouldSkip nd skipD
    simp only
    rw [leaf_ok hs hr.2]
    rfl
  | succ k =>
    unfold shouldSkip nd skipD
    simp only
    rw [innerNode_ok hs (inR_inner.1 hr)]
    cases t.innerD (nodeInner k m) <;> rfl

theorem nodeKeyForIndex_ok {t : BeeKem} {h k m : Nat} (hs : Shape t h) (hr : InR h k m)
    {key : NodeKey} (hk : t.keyD k m = some key) : t.nodeKeyForIndex (nd k m) = .ok key := by
  cases k with
  | zero =>
    unfold keyD at hk
    unfold nodeKeyForIndex nd
    simp only
    rw [leaf_ok hs hr.2]
    cases hl : t.leafD m with
    | none => simp [hl] at hk
    | some l =>
      simp only [hl, Option.map_some, Option.some.injEq] at hk
      simp [bind, Except.bind, hk]
  | succ k =>
    unfold keyD at hk
    unfold nodeKeyForIndex nd
    simp only
    rw [innerNode_ok hs (inR_inner.1 hr)]
    cases hl : t.innerD (nodeInner k m) with
    | none => simp [hl] at hk
    | some s =>
      simp only [hl] at hk
      cases hsk : s.nodeKey with
      | error e => simp [hsk, Except.toOption] at hk
      | ok key' =>
        simp only [hsk, Except.toOption, Option.some.injEq] at hk
        simp [bind, Except.bind, hk, hsk]

/-- The resolution of `(k, m)`: its highest non-skipped descendants, left to right. -/
def resList (t : BeeKem) : Nat → Nat → List (Nat × Nat)
  | 0, m => if t.skipD 0 m then [] else [(0, m)]
  | k + 1, m =>
    if t.skipD (k + 1) m then resList t k (2 * m) ++ resList t k (2 * m + 1) else [(k + 1, m)]

theorem appendResolution_ok {t : BeeKem} {h k m fuel : Nat} (hs : Shape t h) (hr : InR h k m)
    (hf : k < fuel) (acc : List TreeNodeIndex) :
    t.appendResolution fuel (nd k m) acc = .ok (acc ++ (t.resList k m).map (fun p => nd p.1 p.2)) := by
  induction k generalizing m fuel acc with
  | zero =>
    obtain ⟨f, rfl⟩ : ∃ f, fuel = f + 1 := ⟨fuel - 1, by omega⟩
    unfold appendResolution
    rw [shouldSkip_ok hs hr]
    unfold resList
    cases t.skipD 0 m <;> simp [bind, Except.bind, nd, pure, Except.pure]
  | succ k ih =>
    obtain ⟨f, rfl⟩ : ∃ f, fuel = f + 1 := ⟨fuel - 1, by omega⟩
    unfold appendResolution
    rw [shouldSkip_ok hs hr]
    unfold resList
    cases t.skipD (k + 1) m with
    | false => simp [bind, Except.bind, nd, pure, Except.pure]
    | true =>
      have e : nd (k + 1) m = .inner (nodeInner k m) := rfl
      simp only [bind, Except.bind, e, if_true, left_nd, right_nd]
      rw [ih (hr.child (by omega)) (by omega)]
      simp only
      rw [ih (hr.child (by omega)) (by omega), List.map_append, List.append_assoc]

theorem div_eq_of_child {m' m : Nat} {d : Nat} :
    m' / 2 ^ (d + 1) = m ↔ m' / 2 ^ d = 2 * m ∨ m' / 2 ^ d = 2 * m + 1 := by
  rw [div_pow_succ]
  omega

theorem mem_resList {t : BeeKem} {k m k' m' : Nat} :
    (k', m') ∈ t.resList k m ↔
      k' ≤ k ∧ m' / 2 ^ (k - k') = m ∧ t.skipD k' m' = false ∧
        ∀ j, k' < j → j ≤ k → t.skipD j (m' / 2 ^ (j - k')) = true := by
  induction k generalizing m with
  | zero =>
    unfold resList
    constructor
    · intro hm
      split at hm
      · simp at hm
      · rename_i hsk
        simp only [List.mem_singleton, Prod.mk.injEq] at hm
        obtain ⟨rfl, rfl⟩ := hm
        exact ⟨by omega, by simp, by simpa using hsk, by omega⟩
    · rintro ⟨h1, h2, h3, h4⟩
      have : k' = 0 := by omega
      subst this
      have : m' = m := by simpa using h2
      subst this
      simp [h3]
  | succ k ih =>
    unfold resList
    constructor
    · intro hm
      split at hm
      · rename_i hsk
        have key : ∀ n, n / 2 = m → (k', m') ∈ t.resList k n →
            k' ≤ k + 1 ∧ m' / 2 ^ (k + 1 - k') = m ∧ t.skipD k' m' = false ∧
              ∀ j, k' < j → j ≤ k + 1 → t.skipD j (m' / 2 ^ (j - k')) = true := by
          intro n hn hmem
          obtain ⟨h1, h2, h3, h4⟩ := ih.1 hmem
          have h5 : m' / 2 ^ (k + 1 - k') = m := by
            rw [show k + 1 - k' = (k - k') + 1 by omega, div_pow_succ, h2, hn]
          refine ⟨by omega, h5, h3, ?_⟩
          intro j hj1 hj2
          rcases Nat.lt_or_ge k j with hkj | hkj
          · have : j = k + 1 := by omega
            subst this
            rw [h5]; exact hsk
          · exact h4 j hj1 hkj
        rcases List.mem_append.1 hm with hm | hm
        · exact key _ (by omega) hm
        · exact key _ (by omega) hm
      · rename_i hsk
        simp only [List.mem_singleton, Prod.mk.injEq] at hm
        obtain ⟨rfl, rfl⟩ := hm
        exact ⟨by omega, by simp, by simpa using hsk, by omega⟩
    · rintro ⟨h1, h2, h3, h4⟩
      by_cases hk : k' = k + 1
      · subst hk
        have : m' = m := by simpa using h2
        subst this
        simp [h3]
      · have h5 := h4 (k + 1) (by omega) (by omega)
        rw [h2] at h5
        rw [if_pos h5, List.mem_append, ih, ih]
        rw [show k + 1 - k' = (k - k') + 1 by omega] at h2
        rcases div_eq_of_child.1 h2 with h2 | h2
        · exact Or.inl ⟨by omega, h2, h3, fun j a b => h4 j a (by omega)⟩
        · exact Or.inr ⟨by omega, h2, h3, fun j a b => h4 j a (by omega)⟩

theorem resList_congr {t t' : BeeKem} {k m : Nat}
    (h : ∀ k' m', k' ≤ k → m' / 2 ^ (k - k') = m → t.skipD k' m' = t'.skipD k' m') :
    t.resList k m = t'.resList k m := by
  induction k generalizing m with
  | zero =>
    unfold resList
    rw [h 0 m (by omega) (by simp)]
  | succ k ih =>
    unfold resList
    have key : ∀ n, n / 2 = m → t.resList k n = t'.resList k n := by
      intro n hn
      apply ih
      intro k' m' h1 h2
      apply h k' m' (by omega)
      rw [show k + 1 - k' = (k - k') + 1 by omega, div_pow_succ, h2, hn]
    rw [h (k + 1) m (by omega) (by simp), key _ (by omega), key _ (by omega)]

end BeeKem

end Verif.BeeKem
