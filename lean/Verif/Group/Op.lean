import Verif.Core.Access
import Verif.Util.AMap
import Verif.Util.Sort
import Verif.Core.CaMap

/-!
# Membership operations: signed delegations and revocations

Models `keyhive_core/src/principal/group/delegation.rs`, `revocation.rs`, the subject functions of
`keyhive_core/src/crypto/signed_ext.rs`, and the parts of `membership_operation.rs` that look at a single
operation.

Operations point to earlier operations through `Arc`s to immutable values, so they are trees here.
`Arc<Signed<_>>` is a signer, a signature and a payload; verifying keys and identifiers are `Id`s,
64-byte signatures are `Nat`s.
-/

namespace Verif.Group

/-- `Identifier` (a verifying key) — keyhive_core/src/principal/identifier.rs:16. -/
abbrev Id := Nat

/-- Which variant of `Agent` — keyhive_core/src/principal/agent.rs:29-48. -/
inductive Kind where
  | active
  | individual
  | group
  | document
deriving DecidableEq, Repr

/-- `Agent` — agent.rs:29-48. The `Arc<Mutex<_>>` payload is looked up by id in a `World`. `Agent`s are equal when
variant and id are (agent.rs:50-61). -/
structure Agent where
  kind : Kind
  id : Id
deriving DecidableEq, Repr

/-- `Agent::as_membered` succeeds — agent.rs:173-179. -/
def Agent.isMembered (a : Agent) : Bool :=
  match a.kind with
  | .group => true
  | .document => true
  | _ => false

/-- `after_content` (`BTreeMap<DocumentId, Vec<T>>`) — delegation.rs:40. -/
abbrev Content := List (Id × List Nat)

mutual
/-- `Signed<Delegation>` — delegation.rs:30-42 and keyhive_crypto/src/signed.rs:30-50.
`root` has `proof: None`, `link` has `proof: Some(_)`. -/
inductive Dlg where
  | root (issuer : Id) (sig : Nat) (delegate : Agent) (can : Access) (after : Revs) (content : Content)
  | link (issuer : Id) (sig : Nat) (delegate : Agent) (can : Access) (proof : Dlg) (after : Revs) (content : Content)
/-- `Signed<Revocation>` — revocation.rs:22-31. `root` has `proof: None`. -/
inductive Rev where
  | root (issuer : Id) (sig : Nat) (revoke : Dlg) (content : Content)
  | via (issuer : Id) (sig : Nat) (revoke : Dlg) (proof : Dlg) (content : Content)
/-- `Vec<Arc<Signed<Revocation>>>` (the `after_revocations` field). -/
inductive Revs where
  | nil
  | cons (r : Rev) (rs : Revs)
end

deriving instance DecidableEq for Dlg, Rev, Revs

/-- The elements of an `after_revocations` vector. -/
def Revs.toList : Revs → List Rev
  | .nil => []
  | .cons r rs => r :: rs.toList

/-- A vector with these elements. -/
def Revs.ofList : List Rev → Revs
  | [] => .nil
  | r :: rs => .cons r (Revs.ofList rs)

namespace Dlg

/-- `signed.issuer` — signed.rs:35. -/
def issuer : Dlg → Id
  | root i .. => i
  | link i .. => i
/-- `signed.signature`. -/
def sig : Dlg → Nat
  | root _ s .. => s
  | link _ s .. => s
/-- `payload.delegate`. -/
def delegate : Dlg → Agent
  | root _ _ a .. => a
  | link _ _ a .. => a
/-- `payload.can`. -/
def can : Dlg → Access
  | root _ _ _ c .. => c
  | link _ _ _ c .. => c
/-- `payload.proof`. -/
def proof : Dlg → Option Dlg
  | root .. => none
  | link _ _ _ _ p .. => some p
/-- `payload.after_revocations`. -/
def after : Dlg → List Rev
  | root _ _ _ _ a _ => a.toList
  | link _ _ _ _ _ a _ => a.toList
/-- `payload.after_content`. -/
def content : Dlg → Content
  | root _ _ _ _ _ c => c
  | link _ _ _ _ _ _ c => c

/-- A new signed delegation with `proof` optional. -/
def mk (issuer : Id) (sig : Nat) (delegate : Agent) (can : Access) (proof : Option Dlg) (after : List Rev)
    (content : Content) : Dlg :=
  match proof with
  | none => root issuer sig delegate can (Revs.ofList after) content
  | some p => link issuer sig delegate can p (Revs.ofList after) content

/-- `PartialEq for Signed` looks at issuer and signature — keyhive_crypto/src/signed.rs:68-82. -/
def same (a b : Dlg) : Bool := decide (a.issuer = b.issuer ∧ a.sig = b.sig)

/-- `Delegation::proof_lineage` — delegation.rs:104-114: the proof, its proof, and so on. -/
def lineage : Dlg → List Dlg
  | root .. => []
  | link _ _ _ _ p _ _ => p :: p.lineage

/-- `Signed<Delegation>::subject_id` — crypto/signed_ext.rs:39-51: issuer of the last link of the lineage. -/
def subject : Dlg → Id
  | root i .. => i
  | link _ _ _ _ p _ _ => p.subject

/-- `Delegation::is_descendant_of` — delegation.rs:116-128. -/
def isDescendantOf (d maybeAncestor : Dlg) : Bool := d.lineage.any (·.same maybeAncestor)

end Dlg

namespace Rev

/-- `signed.issuer`. -/
def issuer : Rev → Id
  | root i .. => i
  | via i .. => i
/-- `signed.signature`. -/
def sig : Rev → Nat
  | root _ s .. => s
  | via _ s .. => s
/-- `payload.revoke`. -/
def revoke : Rev → Dlg
  | root _ _ d _ => d
  | via _ _ d _ _ => d
/-- `payload.proof`. -/
def proof : Rev → Option Dlg
  | root .. => none
  | via _ _ _ p _ => some p
/-- `payload.after_content`. -/
def content : Rev → Content
  | root _ _ _ c => c
  | via _ _ _ _ c => c

/-- A new signed revocation with `proof` optional. -/
def mk (issuer : Id) (sig : Nat) (revoke : Dlg) (proof : Option Dlg) (content : Content) : Rev :=
  match proof with
  | none => root issuer sig revoke content
  | some p => via issuer sig revoke p content

/-- `PartialEq for Signed`. -/
def same (a b : Rev) : Bool := decide (a.issuer = b.issuer ∧ a.sig = b.sig)

/-- `Signed<Revocation>::subject_id` — crypto/signed_ext.rs:53-59 and revocation.rs:36-38: the subject of the revoked delegation. -/
def subject (r : Rev) : Id := r.revoke.subject

end Rev

/-- `Option`/`Vec` equality through `Signed` equality. -/
def sameProof : Option Dlg → Option Dlg → Bool
  | none, none => true
  | some a, some b => a.same b
  | _, _ => false

/-- Element-wise `Signed` equality of vectors. -/
def sameRevs : List Rev → List Rev → Bool
  | [], [] => true
  | a :: as, b :: bs => a.same b && sameRevs as bs
  | _, _ => false

/-- Derived `PartialEq for Delegation` (the unsigned payload) — delegation.rs:27-42. -/
def Dlg.samePayload (a b : Dlg) : Bool :=
  decide (a.delegate = b.delegate) && decide (a.can = b.can) && sameProof a.proof b.proof
    && sameRevs a.after b.after && decide (a.content = b.content)

/-- `Delegation::is_ancestor_of` — delegation.rs:130-142: some delegation in the lineage of `d` has this payload. -/
def Dlg.isAncestorOf (self d : Dlg) : Bool := d.lineage.any (·.samePayload self)

/-- `MembershipOperation` — membership_operation.rs:30-45. -/
inductive Op where
  | dlg (d : Dlg)
  | rev (r : Rev)
deriving DecidableEq

namespace Op

/-- `signature` — membership_operation.rs:120-125. -/
def sig : Op → Nat
  | dlg d => d.sig
  | rev r => r.sig

/-- `verifying_key` — membership_operation.rs:446-455. -/
def issuer : Op → Id
  | dlg d => d.issuer
  | rev r => r.issuer

/-- `subject_id` — membership_operation.rs:106-111. -/
def subject : Op → Id
  | dlg d => d.subject
  | rev r => r.subject

/-- `is_revocation` — membership_operation.rs:135-137. -/
def isRevocation : Op → Bool
  | dlg _ => false
  | rev _ => true

/-- `after_auth` — membership_operation.rs:139-153, with `Delegation::after` (delegation.rs:78-98) and
`Revocation::after` (revocation.rs:52-63): for a delegation its proof and then its `after_revocations`; for a
revocation the revoked delegation and then its proof. -/
def after : Op → List Op
  | dlg d => d.proof.toList.map dlg ++ d.after.map rev
  | rev r => dlg r.revoke :: r.proof.toList.map dlg

end Op

mutual
/-- Number of steps needed to walk over an operation and everything below it; a bound for loops. -/
def Dlg.weight : Dlg → Nat
  | .root _ _ _ _ a _ => 1 + a.weight
  | .link _ _ _ _ p a _ => 1 + p.weight + a.weight
/-- See `Dlg.weight`. -/
def Rev.weight : Rev → Nat
  | .root _ _ d _ => 1 + d.weight
  | .via _ _ d p _ => 1 + d.weight + p.weight
/-- See `Dlg.weight`. -/
def Revs.weight : Revs → Nat
  | .nil => 0
  | .cons r rs => r.weight + rs.weight
end

/-- See `Dlg.weight`. -/
def Op.weight : Op → Nat
  | .dlg d => d.weight
  | .rev r => r.weight

mutual
/-- `compute_distance` — membership_operation.rs:299-332: 1 plus the largest distance of a parent. The Rust code walks
the digest table with a memo; every parent is in the table (it was filled by following parents). -/
def Dlg.distance : Dlg → Nat
  | .root _ _ _ _ a _ => a.distance + 1
  | .link _ _ _ _ p a _ => Nat.max p.distance a.distance + 1
/-- See `Dlg.distance`. -/
def Rev.distance : Rev → Nat
  | .root _ _ d _ => d.distance + 1
  | .via _ _ d p _ => Nat.max d.distance p.distance + 1
/-- See `Dlg.distance`. -/
def Revs.distance : Revs → Nat
  | .nil => 0
  | .cons r rs => Nat.max r.distance rs.distance
end

/-- See `Dlg.distance`. -/
def Op.distance : Op → Nat
  | .dlg d => d.distance
  | .rev r => r.distance

end Verif.Group
