import Verif.Crypto.Seal
import Verif.Crypto.Digest

/-! # Properties C47 (sealing) and C60 (digest zero counts) -/

namespace Verif.Seal

/-- **C47 (round trip)**: whenever sealing succeeds, opening with the same key returns the
plaintext, whatever the associated data. -/
theorem C47_open_seal {Key : Type} (A : Aead Key) (k : Key) (p ad blob : Bytes)
    (h : trySeal A k p ad = some blob) : tryOpen A k blob = some p := by
  unfold trySeal at h
  cases he : A.encrypt k (A.siv k p ad) p with
  | none => simp [he] at h
  | some buf =>
    simp only [he, Option.some.injEq] at h
    subst h
    have hl := A.siv_len k p ad
    have h1 : ¬ (A.siv k p ad ++ buf).length < 24 := by simp [hl]
    have h2 : (A.siv k p ad ++ buf).take 24 = A.siv k p ad := by rw [← hl]; simp
    have h3 : (A.siv k p ad ++ buf).drop 24 = buf := by rw [← hl]; simp
    simp only [tryOpen, splitFirst24, if_neg h1, h2, h3]
    exact (A.aead _ _ _ _).2 he

/-- **C47 (short input)**: input shorter than a nonce is refused. -/
theorem C47_short_fails {Key : Type} (A : Aead Key) (k : Key) (blob : Bytes)
    (h : blob.length < 24) : tryOpen A k blob = none := by
  simp [tryOpen, splitFirst24, h]

/-- **C47 (authenticity)**: a blob opens to `p` exactly when it is a 24-byte nonce followed by the
encryption of `p` under that key and nonce; so changing any byte of the ciphertext part, or using a
key under which it is not an encryption of anything, fails. -/
theorem C47_open_iff {Key : Type} (A : Aead Key) (k : Key) (blob p : Bytes) :
    tryOpen A k blob = some p ↔
      ∃ nonce c, nonce.length = 24 ∧ blob = nonce ++ c ∧ A.encrypt k nonce p = some c := by
  unfold tryOpen splitFirst24
  by_cases h : blob.length < 24
  · simp only [if_pos h]
    constructor
    · intro h'; simp at h'
    · rintro ⟨n, c, hn, rfl, _⟩
      simp at h; omega
  · simp only [if_neg h]
    constructor
    · intro h'
      exact ⟨blob.take 24, blob.drop 24, by simp; omega, by simp, (A.aead _ _ _ _).1 h'⟩
    · rintro ⟨n, c, hn, rfl, he⟩
      have h2 : (n ++ c).take 24 = n := by rw [← hn]; simp
      have h3 : (n ++ c).drop 24 = c := by rw [← hn]; simp
      rw [h2, h3]
      exact (A.aead _ _ _ _).2 he

/-- **C47 (tampering)**: if two blobs with the same nonce part open to the same plaintext under the
same key, they are equal: a modified ciphertext never opens to the original plaintext. -/
theorem C47_tamper {Key : Type} (A : Aead Key) (k : Key) (b b' p : Bytes)
    (hn : b.take 24 = b'.take 24) (h : tryOpen A k b = some p) (h' : tryOpen A k b' = some p) :
    b = b' := by
  obtain ⟨n, c, hl, rfl, he⟩ := (C47_open_iff A k b p).1 h
  obtain ⟨n', c', hl', rfl, he'⟩ := (C47_open_iff A k b' p).1 h'
  have h1 : (n ++ c).take 24 = n := by rw [← hl]; simp
  have h2 : (n' ++ c').take 24 = n' := by rw [← hl']; simp
  rw [h1, h2] at hn
  subst hn
  rw [he] at he'
  simp only [Option.some.injEq] at he'
  rw [he']

/-- A toy AEAD meeting the assumptions: ciphertext = key byte, nonce, plaintext. -/
def toyAead : Aead UInt8 where
  encrypt k n p := some (k :: n ++ p)
  decrypt k n c := if (k :: n) <+: c then some (c.drop (n.length + 1)) else none
  siv k _ _ := List.replicate 24 k
  siv_len := by simp
  aead := by
    intro k n c p
    constructor
    · intro h
      split at h
      · rename_i hp
        obtain ⟨t, rfl⟩ := hp
        have hd : List.drop (n.length + 1) (k :: n ++ t) = t := by simp
        rw [hd] at h
        simp only [Option.some.injEq] at h
        rw [h]
      · simp at h
    · intro h
      simp only [Option.some.injEq] at h
      subst h
      have hp : (k :: n) <+: (k :: n ++ p) := ⟨p, rfl⟩
      rw [if_pos hp]
      simp

/-- Non-vacuity: sealing succeeds, opening with another key fails. -/
example : (trySeal toyAead 5 [1, 2] [9]).isSome = true ∧
    (trySeal toyAead 5 [1, 2] [9]).bind (tryOpen toyAead 6) = none := by decide

end Verif.Seal

namespace Verif.Digest

/-- Specification: the bits of a byte string read from its end — last byte first, and within a byte
the least significant bit first. -/
def bitsFromEnd (bytes : List UInt8) : List Bool :=
  bytes.reverse.flatMap (fun b => (List.range 8).map (fun i => b.toNat.testBit i))

/-- Specification: how many consecutive zero bits the byte string ends with. -/
def specTrailingZeros (bytes : List UInt8) : Nat := ((bitsFromEnd bytes).takeWhile (· = false)).length

/-- Specification: how many consecutive zero bytes the byte string ends with. -/
def specTrailingZeroBytes (bytes : List UInt8) : Nat := (bytes.reverse.takeWhile (· = 0)).length

theorem zeroBytesLoop (c : Nat) (bs : List UInt8) (h : c + bs.length < 256) :
    trailingZeroBytesLoop c bs = some (c + (bs.takeWhile (· = 0)).length) := by
  induction bs generalizing c with
  | nil => simp [trailingZeroBytesLoop]
  | cons b bs ih =>
    simp only [List.length_cons] at h
    simp only [trailingZeroBytesLoop]
    by_cases hb : b = 0
    · have : c + 1 < 256 := by omega
      simp only [hb, if_true, addU8, this]
      rw [ih (c + 1) (by omega)]
      simp
      omega
    · simp [hb]

/-- **C60 (bytes)**: the number of trailing zero bytes of a 32-byte digest is reported correctly. -/
theorem C60_trailing_zero_bytes (bytes : List UInt8) (h : bytes.length = 32) :
    trailingZeroBytes bytes = some (specTrailingZeroBytes bytes) := by
  unfold trailingZeroBytes specTrailingZeroBytes
  rw [zeroBytesLoop 0 _ (by simp [h])]
  simp

/-- A digest ending in the byte 1: no trailing zero bit. -/
def oneDigest : List UInt8 := List.replicate 31 0xFF ++ [1]

/-- **C60 refuted (bits)**: for a digest ending in the byte `0x01` the code reports 7 trailing zero
bits; there are none. -/
theorem C60_trailing_zeros_wrong :
    oneDigest.length = 32 ∧ trailingZeros oneDigest = some 7 ∧ specTrailingZeros oneDigest = 0 := by
  decide

/-- **C60 refuted (overflow)**: on the all-zero digest the `u8` counter overflows. -/
theorem C60_trailing_zeros_overflow : trailingZeros (List.replicate 32 0) = none := by decide

/-- A byte all of whose zero bits are below all of its one bits: `0xFF << t`. -/
def onesOnTop (b : UInt8) : Bool :=
  (List.range 9).any (fun t => (List.range 8).all (fun i => b.toNat.testBit i == decide (t ≤ i)))

theorem countZeros_le (b : UInt8) : countZeros b ≤ 8 := by
  unfold countZeros
  have := List.length_filter_le (fun i => !b.toNat.testBit i) (List.range 8)
  simpa using this

theorem countZeros_zero : countZeros 0 = 8 := by decide

/-- The real number of trailing zero bits of one byte. -/
def byteTz (b : UInt8) : Nat :=
  (((List.range 8).map (fun i => b.toNat.testBit i)).takeWhile (· = false)).length

theorem byte_table : ∀ n : Fin 256, onesOnTop (UInt8.ofNat n.val) = true →
    countZeros (UInt8.ofNat n.val) = byteTz (UInt8.ofNat n.val) := by decide +kernel

theorem byte_table' (b : UInt8) (h : onesOnTop b = true) : countZeros b = byteTz b := by
  have := byte_table ⟨b.toNat, b.toNat_lt⟩
  simp only [UInt8.ofNat_toNat] at this
  exact this h

theorem byte_table8 : ∀ n : Fin 256, countZeros (UInt8.ofNat n.val) = 8 → n.val = 0 := by
  decide +kernel

theorem eq_zero_of_countZeros (b : UInt8) (h : countZeros b = 8) : b = 0 := by
  have := byte_table8 ⟨b.toNat, b.toNat_lt⟩
  simp only [UInt8.ofNat_toNat] at this
  have h0 := this h
  exact UInt8.toNat_inj.1 (by simpa using h0)

theorem byteTz_lt : ∀ n : Fin 256, n.val ≠ 0 → byteTz (UInt8.ofNat n.val) < 8 := by decide +kernel

theorem byteTz_lt' (b : UInt8) (h : b ≠ 0) : byteTz b < 8 := by
  have := byteTz_lt ⟨b.toNat, b.toNat_lt⟩
  simp only [UInt8.ofNat_toNat] at this
  exact this (fun e => h (UInt8.toNat_inj.1 (by simpa using e)))

theorem takeWhile_append_short {α : Type} (p : α → Bool) (a b : List α)
    (h : (a.takeWhile p).length < a.length) : (a ++ b).takeWhile p = a.takeWhile p := by
  induction a with
  | nil => simp at h
  | cons x a ih =>
    by_cases hx : p x = true
    · rw [List.takeWhile_cons_of_pos hx] at h ⊢
      rw [List.cons_append, List.takeWhile_cons_of_pos hx, ih (by simpa using h)]
    · rw [List.takeWhile_cons_of_neg hx, List.cons_append, List.takeWhile_cons_of_neg hx]

/-- **C60 (bits, what holds)**: the count of trailing zero bits is correct for every digest that is
not all zero and whose last non-zero byte has all its one bits above all its zero bits.
Missing for the full property: all other digests, where the code counts every zero bit of that
byte (`C60_trailing_zeros_wrong`). -/
theorem C60_trailing_zeros_partial (zeros : Nat) (b : UInt8) (rest : List UInt8)
    (hb : b ≠ 0) (htop : onesOnTop b = true)
    (hlen : (rest ++ b :: List.replicate zeros 0).length = 32) :
    trailingZeros (rest ++ b :: List.replicate zeros 0) =
      some (specTrailingZeros (rest ++ b :: List.replicate zeros 0)) := by
  have hz : zeros ≤ 31 := by simp at hlen; omega
  have hrev : (rest ++ b :: List.replicate zeros 0).reverse =
      List.replicate zeros 0 ++ b :: rest.reverse := by simp
  unfold trailingZeros specTrailingZeros bitsFromEnd
  rw [hrev]
  have hcz : countZeros b ≠ 8 := fun h => hb (eq_zero_of_countZeros b h)
  have hcz' := countZeros_le b
  have key : ∀ z c, c + 8 * z + 8 ≤ 256 →
      trailingZerosLoop c (List.replicate z 0 ++ b :: rest.reverse) =
        some (c + (((List.replicate z 0 ++ b :: rest.reverse).flatMap
          (fun b : UInt8 => (List.range 8).map (fun i => b.toNat.testBit i))).takeWhile
          (· = false)).length) := by
    intro z
    induction z with
    | zero =>
      intro c hc
      have hadd : c + countZeros b < 256 := by omega
      simp only [List.replicate_zero, List.nil_append, trailingZerosLoop, addU8, if_pos hadd,
        if_pos hcz, List.flatMap_cons]
      have hshort : (((List.range 8).map (fun i => b.toNat.testBit i)).takeWhile
          (· = false)).length < ((List.range 8).map (fun i => b.toNat.testBit i)).length := by
        have := byteTz_lt' b hb
        simpa [byteTz] using this
      rw [takeWhile_append_short _ _ _ hshort]
      rw [byte_table' b htop]
      rfl
    | succ z ih =>
      intro c hc
      have hadd : c + 8 < 256 := by omega
      simp only [List.replicate_succ, List.cons_append, trailingZerosLoop, countZeros_zero, addU8,
        if_pos hadd, List.flatMap_cons]
      rw [if_neg (by simp), ih (c + 8) (by omega)]
      have h0 : (List.range 8).map (fun i => (0 : UInt8).toNat.testBit i) =
          List.replicate 8 false := by decide
      rw [h0]
      have : ∀ l : List Bool, ((List.replicate 8 false ++ l).takeWhile (· = false)).length =
          8 + (l.takeWhile (· = false)).length := by
        intro l
        simp [List.replicate, List.takeWhile]
        omega
      rw [this]
      congr 1
      omega
  have := key zeros 0 (by omega)
  simpa using this

example : (0xF0 : UInt8) ≠ 0 ∧ onesOnTop 0xF0 = true ∧
    (List.replicate 29 7 ++ (0xF0 : UInt8) :: List.replicate 2 0).length = 32 := by decide

end Verif.Digest
