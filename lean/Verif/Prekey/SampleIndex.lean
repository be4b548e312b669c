import Verif.Prekey.Spec

/-! # Which indices the sampling of prekeys can give -/

namespace Verif.Prekey

/-- The number with the given bytes, the lowest first. -/
def ofBytes (a b c d e f g h : Nat) : Nat := a + 256 * b + 256 ^ 2 * c + 256 ^ 3 * d + 256 ^ 4 * e + 256 ^ 5 * f + 256 ^ 6 * g + 256 ^ 7 * h

theorem swap_ofBytes {a b c d e f g h : Nat} (ha : a < 256) (hb : b < 256) (hc : c < 256) (hd : d < 256) (he : e < 256) (hf : f < 256)
    (hg : g < 256) (hh : h < 256) : swapBytes (ofBytes a b c d e f g h) = ofBytes h g f e d c b a := by
  have e0 : ofBytes a b c d e f g h % 256 = a := by unfold ofBytes; omega
  have e1 : ofBytes a b c d e f g h / 256 % 256 = b := by unfold ofBytes; omega
  have e2 : ofBytes a b c d e f g h / 256 ^ 2 % 256 = c := by unfold ofBytes; omega
  have e3 : ofBytes a b c d e f g h / 256 ^ 3 % 256 = d := by unfold ofBytes; omega
  have e4 : ofBytes a b c d e f g h / 256 ^ 4 % 256 = e := by unfold ofBytes; omega
  have e5 : ofBytes a b c d e f g h / 256 ^ 5 % 256 = f := by unfold ofBytes; omega
  have e6 : ofBytes a b c d e f g h / 256 ^ 6 % 256 = g := by unfold ofBytes; omega
  have e7 : ofBytes a b c d e f g h / 256 ^ 7 % 256 = h := by unfold ofBytes; omega
  unfold swapBytes
  rw [e0, e1, e2, e3, e4, e5, e6, e7]
  unfold ofBytes
  omega

theorem bytes_of (n : Nat) (h : n < 2 ^ 64) : ∃ a b c d e f g i, a < 256 ∧ b < 256 ∧ c < 256 ∧ d < 256 ∧ e < 256 ∧ f < 256 ∧ g < 256 ∧ i < 256 ∧
    n = ofBytes a b c d e f g i := by
  refine ⟨n % 256, n / 256 % 256, n / 256 ^ 2 % 256, n / 256 ^ 3 % 256, n / 256 ^ 4 % 256, n / 256 ^ 5 % 256, n / 256 ^ 6 % 256, n / 256 ^ 7 % 256,
    ?_, ?_, ?_, ?_, ?_, ?_, ?_, ?_, ?_⟩
  all_goals first | (apply Nat.mod_lt; omega) | skip
  unfold ofBytes
  omega

theorem swap_swap {n : Nat} (h : n < 2 ^ 64) : swapBytes (swapBytes n) = n := by
  obtain ⟨a, b, c, d, e, f, g, i, ha, hb, hc, hd, he, hf, hg, hi, rfl⟩ := bytes_of n h
  rw [swap_ofBytes ha hb hc hd he hf hg hi, swap_ofBytes hi hg hf he hd hc hb ha]

theorem swap_lt (n : Nat) : swapBytes n < 2 ^ 64 := by
  unfold swapBytes
  omega

theorem clamp_iff {s : Nat} (h64 : s ≤ 64) (w : Nat) : (∃ v, clamp v s = w) ↔ w < 2 ^ 64 ∧ 2 ^ s ∣ swapBytes w := by
  constructor
  · rintro ⟨v, rfl⟩
    unfold clamp
    refine ⟨swap_lt _, ?_⟩
    split
    · rw [swap_swap (Nat.mod_lt _ (by omega)), Nat.shiftLeft_eq]
      exact (Nat.dvd_mod_iff (Nat.pow_dvd_pow 2 h64)).2 (Nat.dvd_mul_left _ _)
    · rw [swap_swap (by omega)]
      exact Nat.dvd_zero _
  · rintro ⟨hw, q, hq⟩
    have hlt := swap_lt w
    refine ⟨q, ?_⟩
    unfold clamp
    split
    · rw [Nat.shiftLeft_eq, Nat.mul_comm, ← hq, Nat.mod_eq_of_lt hlt, swap_swap hw]
    · have : s = 64 := by omega
      subst this
      have h0 : swapBytes w = 0 := by omega
      rw [← swap_swap hw, h0]

theorem backwards_iff (n m : Nat) : ReadsBackwards n m ↔ n < 2 ^ 64 ∧ swapBytes n = m := by
  constructor
  · rintro ⟨bs, h1, h2, rfl, rfl⟩
    match bs, h1, h2 with
    | [a, b, c, d, e, f, g, i], _, h2 =>
      simp only [List.forall_mem_cons, List.not_mem_nil, false_imp_iff, implies_true, and_true] at h2
      obtain ⟨ha, hb, hc, hd, he, hf, hg, hi⟩ := h2
      have e1 : leValue [a, b, c, d, e, f, g, i] = ofBytes a b c d e f g i := by simp only [leValue, ofBytes]; omega
      have e2 : leValue [a, b, c, d, e, f, g, i].reverse = ofBytes i g f e d c b a := by
        simp only [List.reverse_cons, List.reverse_nil, List.nil_append, List.cons_append, leValue, ofBytes]; omega
      rw [e1, e2]
      exact ⟨by unfold ofBytes; omega, swap_ofBytes ha hb hc hd he hf hg hi⟩
  · rintro ⟨h, rfl⟩
    obtain ⟨a, b, c, d, e, f, g, i, ha, hb, hc, hd, he, hf, hg, hi, rfl⟩ := bytes_of n h
    refine ⟨[a, b, c, d, e, f, g, i], rfl, ?_, ?_, ?_⟩
    · simp only [List.forall_mem_cons, List.not_mem_nil, false_imp_iff, implies_true, and_true]
      exact ⟨ha, hb, hc, hd, he, hf, hg, hi⟩
    · simp only [leValue, ofBytes]; omega
    · rw [swap_ofBytes ha hb hc hd he hf hg hi]
      simp only [List.reverse_cons, List.reverse_nil, List.nil_append, List.cons_append, leValue, ofBytes]; omega

theorem swap_power {j : Nat} (h : j < 8) : swapBytes (256 ^ j) = 256 ^ (7 - j) := by
  have : ∀ j < 8, swapBytes (256 ^ j) = 256 ^ (7 - j) := by decide +kernel
  exact this j h

theorem swap_dvd {b w : Nat} (hb : b ≤ 8) (hw : w < 256 ^ b) : 256 ^ (8 - b) ∣ swapBytes w := by
  have hw' : w < 2 ^ 64 := Nat.lt_of_lt_of_le hw (Nat.le_trans (Nat.pow_le_pow_right (by omega) hb) (by decide))
  obtain ⟨b0, b1, b2, b3, b4, b5, b6, b7, h0, h1, h2, h3, h4, h5, h6, h7, rfl⟩ := bytes_of w hw'
  rw [swap_ofBytes h0 h1 h2 h3 h4 h5 h6 h7]
  unfold ofBytes at *
  have e0 : b ≤ 0 → b0 = 0 := fun h => by
    have := Nat.pow_le_pow_right (by omega : 0 < 256) h
    omega
  have e1 : b ≤ 1 → b1 = 0 := fun h => by
    have := Nat.pow_le_pow_right (by omega : 0 < 256) h
    omega
  have e2 : b ≤ 2 → b2 = 0 := fun h => by
    have := Nat.pow_le_pow_right (by omega : 0 < 256) h
    omega
  have e3 : b ≤ 3 → b3 = 0 := fun h => by
    have := Nat.pow_le_pow_right (by omega : 0 < 256) h
    omega
  have e4 : b ≤ 4 → b4 = 0 := fun h => by
    have := Nat.pow_le_pow_right (by omega : 0 < 256) h
    omega
  have e5 : b ≤ 5 → b5 = 0 := fun h => by
    have := Nat.pow_le_pow_right (by omega : 0 < 256) h
    omega
  have e6 : b ≤ 6 → b6 = 0 := fun h => by
    have := Nat.pow_le_pow_right (by omega : 0 < 256) h
    omega
  have e7 : b ≤ 7 → b7 = 0 := fun h => by
    have := Nat.pow_le_pow_right (by omega : 0 < 256) h
    omega
  have : b = 0 ∨ b = 1 ∨ b = 2 ∨ b = 3 ∨ b = 4 ∨ b = 5 ∨ b = 6 ∨ b = 7 ∨ b = 8 := by omega
  rcases this with rfl | rfl | rfl | rfl | rfl | rfl | rfl | rfl | rfl <;> simp only [Nat.reduceLeDiff, false_imp_iff, true_imp_iff, Nat.le_refl, Nat.zero_le] at e0 e1 e2 e3 e4 e5 e6 e7 <;> subst_vars <;> omega

end Verif.Prekey
