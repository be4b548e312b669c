import Verif.Crypto.WireLemmas
import Verif.Crypto.Signed
import Verif.Prekey.Spec

/-! # Specification vocabulary for what a signature stands for -/

namespace Verif.Wire

/-- One of keyhive's own kinds of statements, not a message of the application. -/
def Statement.IsOwn {T : Type} : Statement T → Prop
  | .message _ => False
  | _ => True

/-- Signatures cannot be forged: whatever verifies under the key is one of the statements its holder has signed. -/
def OnlySigned {T : Type} (c : T → Bytes) (verify : Nat → Bytes → Nat → Bool) (key : Nat) (made : Statement T → Prop) : Prop :=
  ∀ b s, verify key b s = true → ∃ m, made m ∧ m.bytes c = b

/-- A digest that begins like a delegation or a group-key operation: the number of a variant, followed by the first bytes of the next
field. Digests are hash values: 38 bits and more of them would have to come out as prescribed. -/
def Mimics (d : Arr 32) : Prop :=
  ∃ b ∈ ([0, 1, 2, 3] : Bytes), [b, 0, 0, 0, 0, 32, 0, 0, 0, 0, 0, 0, 0] <+: d.val ∨ [b, 0, 0, 0, 1] <+: d.val ∨
    [b, 0, 0, 0, 32, 0, 0, 0, 0, 0, 0, 0] <+: d.val

/-- The digests of revoked delegations among the statements do not mimic other statements. -/
def Telling {T : Type} (P : Statement T → Prop) : Prop := ∀ r, P (.revocation r) → ¬ Mimics r.revoke

/-- Messages that are as long as neither of the two prekey operations, nor over four gigabytes, and whose length is not how
the digest of a revoked delegation begins. -/
def Harmless {T : Type} (m : Vec UInt8) (t : Statement T) : Prop :=
  m.val.length ≠ 24 ∧ m.val.length ≠ 56 ∧ m.val.length < 2 ^ 32 ∧ ∀ r, t = .revocation r → ¬ le 8 m.val.length <+: r.revoke.val

/-- The array that writes a number. -/
def ofNum (n : Nat) : Arr 32 := ⟨le 32 n, length_le 32 n⟩

/-- The check of a prekey operation received — `KeyOp::try_verify` (keyhive_core/src/principal/individual/op.rs:77-82), `Signed::try_verify`
(signed.rs:167-172) — spelled out to the bytes: share keys are the numbers that their 32 bytes write. -/
def validKeyOp (verify : Nat → Bytes → Nat → Bool) (o : Prekey.KeyOp) : Bool :=
  match o.body with
  | .add k => (Signed.Signed.read (Statement.prekey (T := Unit) (ofNum k)) o.issuer o.sig).verifies (Statement.bytes fun _ => []) verify
  | .rotate old new =>
    (Signed.Signed.read (Statement.rotation (T := Unit) (ofNum old) (ofNum new)) o.issuer o.sig).verifies (Statement.bytes fun _ => []) verify

end Verif.Wire
