import Verif.Keyhive.Archive
import Verif.Keyhive.Content
import Verif.Group.Spec
import Verif.Cgka.Spec

/-! # What the properties of a device say -/

namespace Verif.Keyhive

open Verif.Group Verif.Cgka Verif.BeeKem

/-- No two membership operations have the same digest. -/
structure Env.NoClash (E : Env) : Prop where
  dlg : Function.Injective E.hashDlg
  rev : Function.Injective E.hashRev

namespace Env

/-- The signature of a membership operation verifies. -/
def validOp (E : Env) : Op → Bool
  | .dlg d => E.validDlg (E.sdlg d)
  | .rev r => E.validRev (E.srev r)

/-- The signature of an event does not verify. -/
def Forged (E : Env) : Event → Prop
  | .prekey op => E.validKey op = false
  | .cgka doc op => E.validCgka doc op = false
  | .dlg s => E.validDlg s = false
  | .rev s => E.validRev s = false

end Env

/-- The same membership operation with another signature. -/
def withSig (s : Nat) : Op → Op
  | .dlg (.root i _ a c rs x) => .dlg (.root i s a c rs x)
  | .dlg (.link i _ a c p rs x) => .dlg (.link i s a c p rs x)
  | .rev (.root i _ d x) => .rev (.root i s d x)
  | .rev (.via i _ d p x) => .rev (.via i s d p x)

/-- The signer makes signatures that verify. -/
def Signs (E : Env) (S : Op → Option Nat) : Prop := ∀ o s, S o = some s → E.validOp (withSig s o) = true

/-- A call on a device. -/
inductive Call where
  | receive (e : Event)
  | ingest (ord : List Event → List Event) (events : List Event)
  | contactCard (op : Prekey.KeyOp)
  | newGroup (S : Op → Option Nat) (gid : Id) (coparents : List Agent)
  | newDoc (L : Local) (S : Op → Option Nat) (did : Id) (coparents : List Agent) (heads : List Nat)
  | addToGroup (L : Local) (gid : Id) (who : Agent) (can : Access) (content : Content)
  | addToDoc (L : Local) (did : Id) (who : Agent) (can : Access) (content : Content)
  | revokeFromGroup (L : Local) (gid member : Id) (retain : Bool) (content : Content)
  | revokeFromDoc (L : Local) (did member : Id) (retain : Bool) (content : Content)
  | ingestArchive (ord : List Event → List Event) (a : Archive)
  | encrypt (L : Local) (did : Id) (contentRef predRefs plain : Nat)
  | decrypt (did : Id) (e : EncContent)
  | pcsUpdate (L : Local) (did : Id)

/-- The device after the call. -/
def Call.run (E : Env) (k : Keyhive) : Call → Keyhive
  | .receive e => (k.receive E e).1
  | .ingest ord events => (k.ingest E ord events).1
  | .contactCard op => { k with reg := (k.reg.receiveContactCard E.hashKey E.validKey op).1 }
  | .newGroup S gid coparents => (k.generateGroup E S gid coparents).1
  | .newDoc L S did coparents heads => (k.generateDoc E L S did coparents heads).1
  | .addToGroup L gid who can content => (k.addMemberToGroup E L gid who can content).1
  | .addToDoc L did who can content => (k.addMemberToDoc E L did who can content).1
  | .revokeFromGroup L gid member retain content => (k.revokeFromGroup E L gid member retain content).1
  | .revokeFromDoc L did member retain content => (k.revokeFromDoc E L did member retain content).1
  | .ingestArchive ord a => (k.ingestArchive E ord a).1
  | .encrypt L did contentRef predRefs plain => (k.encryptContent E L did contentRef predRefs plain).1
  | .decrypt did e => (k.decryptContent E did e).1
  | .pcsUpdate L did => (k.forcePcsUpdate E L did).1

/-- The signer of the device makes signatures that verify, and signs what it is given. -/
def Local.Honest (E : Env) (L : Local) : Prop := Signs E L.sign ∧ ∀ doc, HonestSigner (L.signCgka doc)

/-- The signers used by the call are honest. -/
def Call.Honest (E : Env) : Call → Prop
  | .newGroup S _ _ => Signs E S
  | .newDoc L S _ _ _ => Signs E S ∧ L.Honest E
  | .addToGroup L _ _ _ _ => L.Honest E
  | .addToDoc L _ _ _ _ => L.Honest E
  | .revokeFromGroup L _ _ _ _ => L.Honest E
  | .revokeFromDoc L _ _ _ _ => L.Honest E
  | .encrypt L _ _ _ _ => L.Honest E
  | .pcsUpdate L _ => L.Honest E
  | _ => True

/-- The states a device gets into. -/
inductive Reach (E : Env) : Keyhive → Prop
  | start (reg : Prekey.Registry) (pairs : ShareKeyMap) : Reach E (Keyhive.start reg pairs)
  | call {k : Keyhive} (c : Call) (h : Reach E k) (hc : c.Honest E) : Reach E (c.run E k)

/-- The call does not take in anything made by others, except contact cards. -/
def Call.Own : Call → Prop
  | .receive _ => False
  | .ingest _ _ => False
  | .ingestArchive _ _ => False
  | _ => True

/-- The call never fails to sign a group-key operation. -/
def Call.Steady : Call → Prop
  | .newDoc L _ _ _ _ => ∀ doc, GoodSigner (L.signCgka doc)
  | .addToGroup L _ _ _ _ => ∀ doc, GoodSigner (L.signCgka doc)
  | .addToDoc L _ _ _ _ => ∀ doc, GoodSigner (L.signCgka doc)
  | .revokeFromGroup L _ _ _ _ => ∀ doc, GoodSigner (L.signCgka doc)
  | .revokeFromDoc L _ _ _ _ => ∀ doc, GoodSigner (L.signCgka doc)
  | .encrypt L _ _ _ _ => ∀ doc, GoodSigner (L.signCgka doc)
  | .pcsUpdate L _ => ∀ doc, GoodSigner (L.signCgka doc)
  | _ => True

/-- The states a device gets into while signing never fails. -/
inductive ReachSteady (E : Env) : Keyhive → Prop
  | start (reg : Prekey.Registry) (pairs : ShareKeyMap) : ReachSteady E (Keyhive.start reg pairs)
  | call {k : Keyhive} (c : Call) (h : ReachSteady E k) (hc : c.Honest E) (hs : c.Steady) : ReachSteady E (c.run E k)

/-! ## Ingestion -/

/-- One device is the other after receiving some events. -/
inductive Fed (E : Env) (k : Keyhive) : Keyhive → Prop
  | refl : Fed E k k
  | step {k' : Keyhive} (e : Event) (h : Fed E k k') : Fed E k (k'.receive E e).1

/-- While going from `k` to `k'` the event was received with the given outcome. -/
def Handled (E : Env) (k k' : Keyhive) (e : Event) (out : Except Err Unit) : Prop :=
  ∃ k0, Fed E k k0 ∧ (k0.receive E e).2 = out ∧ Fed E (k0.receive E e).1 k'

/-! ## Key trees -/

/-- The individual is one of those behind the agent: the agent itself, or a member of a group or document behind it. -/
def Behind (W : World) (a : Agent) (j : Id) : Prop := ∃ b, Walk W a b ∧ b.isMembered = false ∧ b.id = j

/-- The same kind of agent behind the same id. -/
def OneKind (W : World) (a : Agent) : Prop := ∀ b c, Walk W a b → Walk W a c → b.id = c.id → b = c

/-- The agent with this id is among the members of the group, directly or through others. -/
def Within (W : World) (g : Group) (i : Id) : Prop := ∃ a links, Path W g a links ∧ a.id = i

/-! ## Queries -/

/-- An operation the device holds: in the past of a head of one of its groups or documents, or of a stored revocation. -/
def Known (k : Keyhive) (o : Op) : Prop :=
  (∃ i g, AMap.get k.world i = some g ∧ g.Holds o) ∨ ∃ r ∈ AMap.values k.revs, Relation.ReflTransGen Dep (.rev r) o

/-- Different operations held by the device have different digests. -/
def Distinct (E : Env) (k : Keyhive) : Prop := ∀ a b, Known k a → Known k b → E.opDigest a = E.opDigest b → a = b

/-! ## Archives -/

/-- The membership operations in the stores of the device and the heads of its groups and documents. -/
def Keyhive.heads (k : Keyhive) : List Op :=
  (AMap.values k.dlgs).map Op.dlg ++ (AMap.values k.revs).map Op.rev ++ k.world.flatMap (fun p => p.2.heads)

/-- The device knows the agent, as the kind of agent it is and no other. -/
inductive KnownAs (k : Keyhive) : Agent → Prop
  | active : KnownAs k ⟨.active, k.reg.me⟩
  | individual {i} : i ≠ k.reg.me → AMap.get k.reg.indies i ≠ none → KnownAs k ⟨.individual, i⟩
  | group {i} : i ≠ k.reg.me → AMap.get k.reg.indies i = none → AMap.get k.groups i ≠ none → KnownAs k ⟨.group, i⟩
  | document {i} : i ≠ k.reg.me → AMap.get k.reg.indies i = none → AMap.get k.groups i = none → AMap.get k.docs i ≠ none →
      KnownAs k ⟨.document, i⟩

/-- The group without the list of revocations in effect. -/
def unmark (g : Group) : Group := { g with active := [] }

/-- Two devices in the same state, except for the revocations marked as in effect and the order of the stores. -/
structure Alike (k k' : Keyhive) : Prop where
  reg : k'.reg = k.reg
  unlisted : k'.unlisted = k.unlisted
  pairs : k'.pairs = k.pairs
  pending : k'.pending = k.pending
  dlgs : ∀ h, AMap.get k'.dlgs h = AMap.get k.dlgs h
  revs : ∀ h, AMap.get k'.revs h = AMap.get k.revs h
  groups : k'.groups.map (fun p => (p.1, unmark p.2)) = k.groups.map (fun p => (p.1, unmark p.2))
  docs : k'.docs.map (fun p => (p.1, { p.2 with group := unmark p.2.group }))
    = k.docs.map (fun p => (p.1, { p.2 with group := unmark p.2.group }))

/-- Two calls with the same outcome, or neither returns. -/
def SameOutcome {α : Type} (a b : Except Err α) : Prop :=
  a = b ∨ ∃ e e', a = .error e ∧ b = .error e' ∧ e.fatal = true ∧ e'.fatal = true

/-- The device has the operation in its stores. -/
def Keyhive.HasOp (E : Env) (k : Keyhive) : SMem → Prop
  | .dlg s => AMap.get k.dlgs (E.hashDlg s) ≠ none
  | .rev s => AMap.get k.revs (E.hashRev s) ≠ none

/-- Every individual of the first list is in the second, with all its prekey operations. -/
def Wider (m m' : AMap Id Prekey.Indie) : Prop :=
  ∀ i x, AMap.get m i = some x → ∃ y, AMap.get m' i = some y ∧ ∀ h, AMap.get x.state h ≠ none → AMap.get y.state h ≠ none

end Verif.Keyhive
