import Verif.Crypto.Signed
import Mathlib.Data.List.Basic

/-! # Properties of printed identifiers and of signed values -/

namespace Verif.Hex

/-- The value of a hexadecimal digit. -/
def value (c : Char) : Option Nat :=
  if '0' ≤ c ∧ c ≤ '9' then some (c.toNat - '0'.toNat) else if 'a' ≤ c ∧ c ≤ 'f' then some (c.toNat - 'a'.toNat + 10) else none

/-- Reading bytes written with two digits each. -/
def readBytes : List Char → Option (List UInt8)
  | [] => some []
  | [_] => none
  | a :: b :: rest =>
    match value a, value b, readBytes rest with
    | some x, some y, some bs => some (UInt8.ofNat (16 * x + y) :: bs)
    | _, _, _ => none

theorem value_digit : ∀ n : Nat, n < 16 → value (digit n) = some n := by decide +kernel

theorem padded_eq (b : UInt8) : padded b = [digit (b.toNat / 16), digit (b.toNat % 16)] := by
  unfold padded plain
  have hb := b.toNat_lt
  by_cases h : b.toNat < 16
  · rw [if_pos h, Nat.div_eq_of_lt h, Nat.mod_eq_of_lt h]
    rfl
  · rw [if_neg h]
    rfl

theorem readBytes_padded (bs : List UInt8) : readBytes (bs.flatMap padded) = some bs := by
  induction bs with
  | nil => rfl
  | cons b bs ih =>
    have hb := b.toNat_lt
    rw [List.flatMap_cons, padded_eq]
    simp only [List.cons_append, List.nil_append, readBytes, ih]
    rw [value_digit _ (Nat.div_lt_of_lt_mul (by omega)), value_digit _ (Nat.mod_lt _ (by decide))]
    simp only [Nat.div_add_mod]
    rw [UInt8.ofNat_toNat]

theorem padded_inj {a b : UInt8} (h : padded a = padded b) : a = b := by
  have h1 := readBytes_padded [a]
  have h2 := readBytes_padded [b]
  simp only [List.flatMap_cons, List.flatMap_nil, List.append_nil] at h1 h2
  rw [h, h2] at h1
  simpa using h1.symm

theorem length_padded (bs : List UInt8) : (bs.flatMap padded).length = 2 * bs.length := by
  induction bs with
  | nil => rfl
  | cons b bs ih =>
    rw [List.flatMap_cons, List.length_append, ih, padded_eq]
    simp only [List.length_cons, List.length_nil]
    omega

theorem take_padded (bs : List UInt8) (n : Nat) : (bs.flatMap padded).take (2 * n) = (bs.take n).flatMap padded := by
  induction n generalizing bs with
  | zero => simp
  | succ n ih =>
    cases bs with
    | nil => simp
    | cons b bs =>
      rw [List.flatMap_cons, List.take_succ_cons, List.flatMap_cons, padded_eq, show 2 * (n + 1) = 2 * n + 1 + 1 from rfl]
      simp only [List.cons_append, List.nil_append, List.take_succ_cons, ih]

theorem drop_padded (bs : List UInt8) (n : Nat) : (bs.flatMap padded).drop (2 * n) = (bs.drop n).flatMap padded := by
  induction n generalizing bs with
  | zero => simp
  | succ n ih =>
    cases bs with
    | nil => simp
    | cons b bs =>
      rw [List.flatMap_cons, List.drop_succ_cons, padded_eq, show 2 * (n + 1) = 2 * n + 1 + 1 from rfl]
      simp only [List.cons_append, List.nil_append, List.drop_succ_cons, ih]

theorem flatMap_padded_inj {a b : List UInt8} (h : a.flatMap padded = b.flatMap padded) : a = b := by
  have := readBytes_padded a
  rw [h, readBytes_padded] at this
  exact (Option.some.inj this).symm

theorem shortHex_long {bs : List UInt8} (h : 6 ≤ bs.length) :
    shortHex bs = (bs.take 3).flatMap padded ++ ['.', '.', '.'] ++ (bs.drop (bs.length - 2)).flatMap padded := by
  unfold shortHex
  dsimp only
  rw [if_pos (by rw [length_padded]; omega), length_padded, show 6 = 2 * 3 from rfl, take_padded,
    show 2 * bs.length - 4 = 2 * (bs.length - 2) by omega, drop_padded]

namespace Props

/-! ## C106 — printed identifiers -/

/-- C106: the printed form of an identifier is `0x` and two digits for each byte, and reading these gives the bytes. -/
theorem C106_printed (bs : List UInt8) : ∃ digits, hexString bs = '0' :: 'x' :: digits ∧ digits.length = 2 * bs.length ∧
    readBytes digits = some bs :=
  ⟨bs.flatMap padded, rfl, length_padded bs, readBytes_padded bs⟩

/-- C106: identifiers that are printed alike are equal. -/
theorem C106_distinct (a b : List UInt8) : hexString a = hexString b ↔ a = b := by
  refine ⟨fun h => ?_, fun h => h ▸ rfl⟩
  exact flatMap_padded_inj (List.append_cancel_left h)

example : hexString [0x00, 0x01, 0x0a, 0xff] = "0x00010aff".toList ∧ hexString [0x10] ≠ hexString [0x01, 0x00] := by decide +kernel

/-- C106, the part that holds of the short form: if two identifiers of at least six bytes have the same short form, their first three
bytes and their last two are the same, and the other way round; and the form has thirteen characters.
Missing: that different identifiers have different short forms (`C106_fails`). -/
theorem C106_short_partial (a b : List UInt8) (ha : 6 ≤ a.length) (hb : 6 ≤ b.length) :
    (shortHex a = shortHex b ↔ a.take 3 = b.take 3 ∧ a.drop (a.length - 2) = b.drop (b.length - 2)) ∧ (shortHex a).length = 13 := by
  rw [shortHex_long ha, shortHex_long hb]
  constructor
  · constructor
    · intro h
      have hl : ((a.take 3).flatMap padded ++ ['.', '.', '.']).length = ((b.take 3).flatMap padded ++ ['.', '.', '.']).length := by
        simp only [List.length_append, length_padded, List.length_take]
        omega
      obtain ⟨h1, h2⟩ := List.append_inj h hl
      exact ⟨flatMap_padded_inj (List.append_cancel_right h1), flatMap_padded_inj h2⟩
    · rintro ⟨h1, h2⟩
      rw [h1, h2]
  · simp only [List.length_append, length_padded, List.length_take, List.length_drop, List.length_cons, List.length_nil]
    omega

/-- C106: an identifier of at most five bytes is printed in full. -/
theorem C106_short_whole (a b : List UInt8) (ha : a.length ≤ 5) (h : shortHex a = shortHex b) : a = b := by
  have h1 : shortHex a = a.flatMap padded := by
    unfold shortHex
    dsimp only
    rw [if_neg (by rw [length_padded]; omega)]
  by_cases hb : 6 ≤ b.length
  · rw [h1, shortHex_long hb] at h
    have := congrArg List.length h
    simp only [List.length_append, length_padded, List.length_take, List.length_drop, List.length_cons, List.length_nil] at this
    omega
  · have h2 : shortHex b = b.flatMap padded := by
      unfold shortHex
      dsimp only
      rw [if_neg (by rw [length_padded]; omega)]
    rw [h1, h2] at h
    exact flatMap_padded_inj h

example : shortHex [0xab, 0xcd, 0xef, 1, 2, 3, 4, 5] = "abcdef...0405".toList ∧ shortHex [1, 2, 3, 4, 5] = "0102030405".toList := by
  decide +kernel

/-- C106 fails for the short form: two identifiers of 32 bytes can have the same. -/
theorem C106_fails : ∃ a b : List UInt8, a.length = 32 ∧ b.length = 32 ∧ a ≠ b ∧ shortHex a = shortHex b :=
  ⟨List.replicate 32 0, List.replicate 16 0 ++ [1] ++ List.replicate 15 0, by decide +kernel, by decide +kernel, by decide +kernel,
    by decide +kernel⟩

end Props

end Verif.Hex

namespace Verif.Signed

variable {T : Type}

theorem cmp_lex (pc : T → T → Ordering) : Signed.cmp pc =
    compareLex (compareOn Signed.issuer) (compareLex (compareOn Signed.signature) (fun a b => pc a.payload b.payload)) := by
  funext a b
  unfold Signed.cmp compareLex compareOn
  cases compare a.issuer b.issuer <;> cases compare a.signature b.signature <;> rfl

/-- A value made by signing, by deserialising, by copying, by mapping, or by asking one of these for its digest. -/
inductive Made (H : T → Nat → Nat → Nat) : Signed T → Prop
  | new (p : T) (i s : Nat) : Made H (Signed.new H p i s)
  | read (p : T) (i s : Nat) : Made H (Signed.read p i s)
  | digest {a : Signed T} (h : Made H a) : Made H (a.digest H).2
  | clone {a : Signed T} (h : Made H a) : Made H a.clone
  | map {a : Signed T} (h : Made H a) (f : T → T) : Made H (a.map H f)

theorem made_cache {H : T → Nat → Nat → Nat} {a : Signed T} (h : Made H a) :
    a.digestHash = none ∨ a.digestHash = some (H a.payload a.issuer a.signature) := by
  induction h with
  | new p i s => exact .inr rfl
  | read p i s => exact .inl rfl
  | @digest a h ih =>
    unfold Signed.digest
    cases hd : a.digestHash with
    | some d => simpa [hd] using ih
    | none => exact .inr rfl
  | @clone a h ih =>
    unfold Signed.clone
    cases hd : a.digestHash with
    | some d => simpa [hd] using ih
    | none => exact .inl rfl
  | map h f ih => exact .inr rfl

namespace Props

/-! ## C107 — comparing signed values and their digests -/

/-- C107: whatever was done to a signed value, its digest is that of its payload, issuer and signature. -/
theorem C107_digest {H : T → Nat → Nat → Nat} {a : Signed T} (h : Made H a) : (a.digest H).1 = H a.payload a.issuer a.signature := by
  unfold Signed.digest
  rcases made_cache h with hd | hd <;> rw [hd]

/-- A value that was deserialised, copied, asked for its digest and mapped. -/
example : Made (fun p i s => p + 10 * i + 100 * s) ((((Signed.read 5 3 2).clone.digest (fun p i s => p + 10 * i + 100 * s)).2.map
      (fun p i s => p + 10 * i + 100 * s) (· + 1)).clone) ∧
    (((((Signed.read 5 3 2).clone.digest (fun p i s => p + 10 * i + 100 * s)).2.map
      (fun p i s => p + 10 * i + 100 * s) (· + 1)).clone).digest (fun p i s => p + 10 * i + 100 * s)).1 = 236 :=
  ⟨.clone (.map (.digest (.clone (.read ..))) _), by decide⟩

/-- C107: asking for the digest and copying change neither the payload, the issuer nor the signature, and mapping only the payload. -/
theorem C107_fields (H : T → Nat → Nat → Nat) (f : T → T) (a : Signed T) :
    ((a.digest H).2.payload = a.payload ∧ (a.digest H).2.issuer = a.issuer ∧ (a.digest H).2.signature = a.signature) ∧
    (a.clone.payload = a.payload ∧ a.clone.issuer = a.issuer ∧ a.clone.signature = a.signature) ∧
    ((a.map H f).payload = f a.payload ∧ (a.map H f).issuer = a.issuer ∧ (a.map H f).signature = a.signature) := by
  refine ⟨?_, ⟨rfl, rfl, rfl⟩, ⟨rfl, rfl, rfl⟩⟩
  unfold Signed.digest
  cases a.digestHash <;> exact ⟨rfl, rfl, rfl⟩

/-- C107: equality of signed values is an equivalence, and equal ones are hashed alike. -/
theorem C107_equality : (∀ a : Signed T, a.eq a = true) ∧ (∀ a b : Signed T, a.eq b = true → b.eq a = true) ∧
    (∀ a b c : Signed T, a.eq b = true → b.eq c = true → a.eq c = true) ∧ (∀ a b : Signed T, a.eq b = true ↔ a.hashed = b.hashed) := by
  have h : ∀ a b : Signed T, a.eq b = true ↔ a.issuer = b.issuer ∧ a.signature = b.signature := fun a b => by simp [Signed.eq]
  simp only [h]
  exact ⟨fun a => by simp, fun a b h => ⟨h.1.symm, h.2.symm⟩, fun a b c h1 h2 => ⟨h1.1.trans h2.1, h1.2.trans h2.2⟩,
    fun a b => by simp [Signed.hashed]⟩

/-- C107: if the payloads are ordered, so are the signed values: by issuer, then by signature, then by payload. -/
theorem C107_order (pc : T → T → Ordering) (ho : ∀ x y, pc x y = (pc y x).swap)
    (ht : ∀ x y z, (pc x y).isLE = true → (pc y z).isLE = true → (pc x z).isLE = true) :
    (∀ a b : Signed T, a.cmp pc b = (b.cmp pc a).swap) ∧
    (∀ a b c : Signed T, (a.cmp pc b).isLE = true → (b.cmp pc c).isLE = true → (a.cmp pc c).isLE = true) ∧
    (∀ a b : Signed T, a.cmp pc b = .lt ↔ a.issuer < b.issuer ∨ a.issuer = b.issuer ∧ (a.signature < b.signature ∨
      a.signature = b.signature ∧ pc a.payload b.payload = .lt)) := by
  have : Std.OrientedCmp (fun a b : Signed T => pc a.payload b.payload) := ⟨ho _ _⟩
  have : Std.TransCmp (fun a b : Signed T => pc a.payload b.payload) := ⟨ht _ _ _⟩
  refine ⟨fun a b => ?_, fun a b c => ?_, fun a b => ?_⟩
  · rw [cmp_lex]
    exact Std.OrientedCmp.eq_swap
  · rw [cmp_lex]
    exact Std.TransCmp.isLE_trans
  · unfold Signed.cmp
    rcases Nat.lt_trichotomy a.issuer b.issuer with h | h | h
    · rw [Nat.compare_eq_lt.2 h]
      simp [h]
    · rw [Nat.compare_eq_eq.2 h]
      rcases Nat.lt_trichotomy a.signature b.signature with g | g | g
      · rw [Nat.compare_eq_lt.2 g]
        simp [g, h]
      · rw [Nat.compare_eq_eq.2 g]
        simp [g, h]
      · rw [Nat.compare_eq_gt.2 g]
        simp only [h, true_and, Nat.lt_irrefl, false_or]
        exact ⟨fun h => (by cases h), fun h => by omega⟩
    · rw [Nat.compare_eq_gt.2 h]
      exact ⟨fun h => (by cases h), fun h => by omega⟩

/-- C107, the part that holds of both comparisons together: for values whose signatures verify, being equal, being ordered the same
and having the same payload, issuer and signature are one thing, if no signature of a key verifies for two payloads.
Missing: values whose signature does not verify, see `C107_fails`. -/
theorem C107_verified_partial {B : Type} (bytes : T → B) (hb : Function.Injective bytes) (verify : Nat → B → Nat → Bool)
    (hv : ∀ i x y s, verify i x s = true → verify i y s = true → x = y) (pc : T → T → Ordering) (hp : ∀ x y, pc x y = .eq ↔ x = y)
    (a b : Signed T) (ha : a.verifies bytes verify = true) (hb' : b.verifies bytes verify = true) :
    (a.eq b = true ↔ a.payload = b.payload ∧ a.issuer = b.issuer ∧ a.signature = b.signature) ∧
    (a.eq b = true ↔ a.cmp pc b = .eq) := by
  have h1 : a.eq b = true ↔ a.issuer = b.issuer ∧ a.signature = b.signature := by
    simp [Signed.eq]
  have h2 : a.issuer = b.issuer → a.signature = b.signature → a.payload = b.payload := by
    intro hi hs
    unfold Signed.verifies at ha hb'
    rw [← hi, ← hs] at hb'
    exact hb (hv _ _ _ _ ha hb')
  refine ⟨h1.trans ⟨fun h => ⟨h2 h.1 h.2, h⟩, fun h => h.2⟩, h1.trans ⟨fun h => ?_, fun h => ?_⟩⟩
  · unfold Signed.cmp
    rw [Nat.compare_eq_eq.2 h.1, Nat.compare_eq_eq.2 h.2]
    exact (hp _ _).2 (h2 h.1 h.2)
  · unfold Signed.cmp at h
    split at h
    · rename_i hi
      split at h
      · rename_i hs
        exact ⟨Nat.compare_eq_eq.1 hi, Nat.compare_eq_eq.1 hs⟩
      · rename_i hs
        exact absurd h hs
    · rename_i hi
      exact absurd h hi

/-- A toy signature: the key and what was signed, in one number. -/
def toyVerify (i : Nat) (x : Nat) (s : Nat) : Bool := decide (s = 1000 * i + x)

example : (∀ i x y s, toyVerify i x s = true → toyVerify i y s = true → x = y) ∧
    (Signed.read 5 3 3005).verifies id toyVerify = true ∧ (Signed.read 6 3 3006).verifies id toyVerify = true ∧
    (Signed.read 5 3 3005).eq (Signed.read 6 3 3006) = false ∧
    (Signed.read 5 3 3005).cmp compare (Signed.read 6 3 3006) = .lt := by
  refine ⟨fun i x y s h1 h2 => ?_, by decide, by decide, by decide, by decide⟩
  simp only [toyVerify, decide_eq_true_eq] at h1 h2
  omega

/-- C107 fails. (1) A copy with another payload, which does not verify, is equal to the value it is a copy of, which does, and the two
are not ordered the same. (2) A value whose payload is assigned anew keeps the digest it had. -/
theorem C107_fails :
    (∃ a b : Signed Nat, a.verifies id toyVerify = true ∧ b.verifies id toyVerify = false ∧ a.eq b = true ∧ a.cmp compare b ≠ .eq) ∧
    (∃ (H : Nat → Nat → Nat → Nat) (a : Signed Nat) (p : Nat), Made H a ∧
      ({ a with payload := p }.digest H).1 ≠ H p a.issuer a.signature) :=
  ⟨⟨.read 5 3 3005, .read 6 3 3005, by decide, by decide, by decide, by decide⟩,
    ⟨fun p _ _ => p, .new (fun p _ _ => p) 5 3 3005, 6, .new .., by decide⟩⟩

end Props

end Verif.Signed
