import Verif.Cgka.TrustSpec

/-!
# Specification vocabulary: who can work out which secrets (C07, C08, C58 with concurrent operations)

Independent of the proofs. Public keys and secrets are the same numbers (`Verif.BeeKem.Keys`); what can be computed from known secrets
and published ciphertexts is `Verif.BeeKem.Spec.Derivable`.
-/

namespace Verif.Cgka

open Verif.BeeKem

/-- The secrets an operation makes for tree nodes: the new keys on the path of an update. -/
def Payload.made : Payload → List Sk
  | .update _ pc _ => pc.path.flatMap (fun q => q.2.versions.map (·.pk.of))
  | _ => []

/-- The other key pairs that come into the group with an operation: the prekey of an added member, the new leaf key of an update, and
the throw-away keys an update pairs with where the sibling subtree is empty (tree.rs:446-453; such a node has one ciphertext only). -/
def Payload.brought : Payload → List Sk
  | .add _ pk _ _ _ => [pk.of]
  | .update _ pc _ => pc.leafPk.keys.map (·.of) ++
      pc.path.flatMap (fun q => q.2.versions.flatMap (fun v => match v.sk with | [e] => [e.2.pairedPk.of] | _ => []))
  | .remove .. => []

/-- The key pairs that occur in an operation, as a key it installs or as one of the two keys a ciphertext is sealed with. -/
def Payload.uses : Payload → List Sk
  | .add _ pk _ _ _ => [pk.of]
  | .update _ pc _ => pc.leafPk.keys.map (·.of) ++ pc.path.flatMap (fun q => q.2.versions.map (·.pk.of)) ++
      (Spec.PathChange.ciphers pc).flatMap (fun e => [e.key.lo, e.key.hi])
  | .remove .. => []

/-- The ciphertexts of an operation. -/
def Payload.ciphers : Payload → List EncryptedSecret
  | .update _ pc _ => Spec.PathChange.ciphers pc
  | _ => []

/-- Every ciphertext in the operations a replica knows. -/
def published (c : Cgka) : List EncryptedSecret :=
  (AMap.keys c.graph.ops).flatMap (fun x => match AMap.get c.graph.ops x with | some op => op.payload.ciphers | none => [])

/-- Node keys are random: no two operations make the same one, and none is also a leaf key, a prekey or a throw-away key. -/
def FreshKeys (c : Cgka) : Prop :=
  ∀ x y ox oy s, AMap.get c.graph.ops x = some ox → AMap.get c.graph.ops y = some oy → s ∈ ox.payload.made →
    (s ∈ oy.payload.made → x = y) ∧ s ∉ oy.payload.brought

/-- The secret occurs in no known operation but `x` and those that have `x` in their causal past. -/
def UsedFrom (c : Cgka) (x : Nat) (s : Sk) : Prop :=
  ∀ y op, AMap.get c.graph.ops y = some op → s ∈ op.payload.uses → y = x ∨ Before c x y

end Verif.Cgka
