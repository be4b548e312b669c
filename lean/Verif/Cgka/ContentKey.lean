import Mathlib.Tactic.NormNum.Basic

/-!
# Model of the bytes content keys are derived from — beekem/src/pcs_key.rs

`hash` is `blake3::hash` (32 bytes out), `kdf` is `blake3::derive_key(STATIC_CONTEXT, _)` followed by
`SymmetricKey::derive_from_bytes`; both are parameters. `Cr` is the type of content references with its `bincode`
serialisation `ser`.
-/

namespace Verif.ContentKey

abbrev Bytes := List UInt8

/-- `str::as_bytes` on the ASCII text in the format string. -/
def ascii (s : String) : Bytes := s.toList.map (fun c => c.val.toUInt8)

/-- One lower-case hexadecimal digit (`blake3::Hash::to_hex`). -/
def hexDigit (n : UInt8) : UInt8 := if n < 10 then 48 + n else 87 + n

/-- `blake3::Hash::to_hex`. -/
def toHex (b : Bytes) : Bytes := b.flatMap (fun x => [hexDigit (x / 16), hexDigit (x % 16)])

/-- `Display for Digest` — keyhive_crypto/src/digest.rs:170-174. -/
def display (d : Bytes) : Bytes := ascii "Digest(" ++ toHex d ++ ascii ")"

/-- `format!("epoch:{pcs_hash}/pred:{pred_refs}/content:{display_ref}")` — pcs_key.rs:87-88. -/
def context (pcsHash predRefs displayRef : Bytes) : Bytes :=
  ascii "epoch:" ++ display pcsHash ++ ascii "/pred:" ++ display predRefs ++ ascii "/content:" ++ display displayRef

/-- The input of the key derivation — pcs_key.rs:85-90. `predRefs` is already a digest. -/
def material (hash : Bytes → Bytes) (secret predRefs : Bytes) (refBytes : Bytes) : Bytes :=
  secret ++ context (hash secret) predRefs (hash refBytes)

/-- The symmetric key — pcs_key.rs:91-92. -/
def contentKey (hash kdf : Bytes → Bytes) (secret predRefs refBytes : Bytes) : Bytes :=
  kdf (material hash secret predRefs refBytes)

/-- `bincode` writes the length of a `Vec` as 8 little-endian bytes. -/
def le64 (n : Nat) : Bytes := (List.range 8).map (fun i => UInt8.ofNat (n / 256 ^ i))

/-- `bincode::serialize` on `Vec<Cr>`. -/
def serVec {Cr : Type} (ser : Cr → Bytes) (l : List Cr) : Bytes := le64 l.length ++ l.flatMap ser

/-- The key of content `ref` with predecessors `preds` under a group secret: `Digest::hash(pred_refs)` at cgka.rs:199 and
`derive_application_secret`. -/
def keyFor {Cr : Type} (hash kdf : Bytes → Bytes) (ser : Cr → Bytes) (secret : Bytes) (ref : Cr) (preds : List Cr) : Bytes :=
  contentKey hash kdf secret (hash (serVec ser preds)) (ser ref)

/-! ## Lemmas -/

/-- Reading a hexadecimal digit. -/
def hexVal (c : UInt8) : UInt8 := if c < 58 then c - 48 else c - 87

theorem hexPair_val (a : UInt8) : hexVal (hexDigit (a / 16)) * 16 + hexVal (hexDigit (a % 16)) = a := by
  have h : ∀ n : Fin 256, hexVal (hexDigit (UInt8.ofNat n / 16)) * 16 + hexVal (hexDigit (UInt8.ofNat n % 16)) = UInt8.ofNat n := by
    decide +kernel
  have ha : UInt8.ofNat a.toNat = a := by simp
  simpa [ha] using h ⟨a.toNat, a.toNat_lt⟩

theorem hexPair_inj (a b : UInt8) (h1 : hexDigit (a / 16) = hexDigit (b / 16)) (h2 : hexDigit (a % 16) = hexDigit (b % 16)) :
    a = b := by
  rw [← hexPair_val a, ← hexPair_val b, h1, h2]

theorem toHex_length (b : Bytes) : (toHex b).length = 2 * b.length := by
  induction b with
  | nil => rfl
  | cons x b ih => simp only [toHex, List.flatMap_cons, List.length_append] at ih ⊢; rw [ih]; simp; omega

theorem toHex_inj {a b : Bytes} (h : toHex a = toHex b) : a = b := by
  induction a generalizing b with
  | nil =>
    cases b with
    | nil => rfl
    | cons y b => simp [toHex] at h
  | cons x a ih =>
    cases b with
    | nil => simp [toHex] at h
    | cons y b =>
      simp only [toHex, List.flatMap_cons, List.cons_append, List.nil_append, List.cons.injEq] at h
      rw [hexPair_inj x y h.1 h.2.1, ih h.2.2]

theorem display_inj {a b : Bytes} (h : display a = display b) : a = b := by
  unfold display at h
  have := List.append_cancel_right h
  exact toHex_inj (List.append_cancel_left this)

theorem display_length {a b : Bytes} (h : a.length = b.length) : (display a).length = (display b).length := by
  simp [display, toHex_length, h]

/-- Every part of the key material can be read back. -/
theorem material_inj {hash : Bytes → Bytes} (hlen : ∀ x, (hash x).length = 32) {s s' p p' r r' : Bytes}
    (hs : s.length = s'.length) (hp : p.length = p'.length) (h : material hash s p r = material hash s' p' r') :
    s = s' ∧ p = p' ∧ hash r = hash r' := by
  unfold material context at h
  obtain ⟨h1, h⟩ := List.append_inj h hs
  simp only [List.append_assoc] at h
  have h := List.append_cancel_left h
  obtain ⟨_, h⟩ := List.append_inj h (display_length (by rw [hlen, hlen]))
  have h := List.append_cancel_left h
  obtain ⟨h2, h⟩ := List.append_inj h (display_length hp)
  have h := List.append_cancel_left h
  exact ⟨h1, display_inj h2, display_inj h⟩

theorem le64_length (n : Nat) : (le64 n).length = 8 := rfl

/-- Serialisations that can be read back from the front of a stream, as `bincode` requires. -/
def SelfDelimiting {Cr : Type} (ser : Cr → Bytes) : Prop := ∀ a b x y, ser a ++ x = ser b ++ y → a = b ∧ x = y

theorem flatMap_inj {Cr : Type} {ser : Cr → Bytes} (hd : SelfDelimiting ser) {a b : List Cr} (hl : a.length = b.length)
    (h : a.flatMap ser = b.flatMap ser) : a = b := by
  induction a generalizing b with
  | nil => cases b <;> simp_all
  | cons x a ih =>
    cases b with
    | nil => simp at hl
    | cons y b =>
      simp only [List.flatMap_cons] at h
      obtain ⟨h1, h2⟩ := hd _ _ _ _ h
      rw [h1, ih (by simpa using hl) h2]

theorem le64_inj {m n : Nat} (hm : m < 2 ^ 64) (hn : n < 2 ^ 64) (h : le64 m = le64 n) : m = n := by
  unfold le64 at h
  have key : ∀ i < 8, m / 256 ^ i % 256 = n / 256 ^ i % 256 := by
    intro i hi
    have := (List.map_inj_left.1 h) i (List.mem_range.2 hi)
    have := congrArg UInt8.toNat this
    simpa using this
  have k0 := key 0 (by omega)
  have k1 := key 1 (by omega)
  have k2 := key 2 (by omega)
  have k3 := key 3 (by omega)
  have k4 := key 4 (by omega)
  have k5 := key 5 (by omega)
  have k6 := key 6 (by omega)
  have k7 := key 7 (by omega)
  norm_num at k0 k1 k2 k3 k4 k5 k6 k7
  omega

theorem serVec_inj {Cr : Type} {ser : Cr → Bytes} (hd : SelfDelimiting ser) {a b : List Cr} (ha : a.length < 2 ^ 64)
    (hb : b.length < 2 ^ 64) (h : serVec ser a = serVec ser b) : a = b := by
  unfold serVec at h
  obtain ⟨h1, h2⟩ := List.append_inj h (by rw [le64_length, le64_length])
  exact flatMap_inj hd (le64_inj ha hb h1) h2

end Verif.ContentKey
