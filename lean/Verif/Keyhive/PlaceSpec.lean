import Verif.Keyhive.FleetSpec

/-! # Keeping one's place in the group of a document (C113) -/

namespace Verif.Keyhive

open Verif.Group Verif.Cgka Verif.BeeKem

/-- The call signs group-key operations as `me`. -/
def Call.SignsAs (me : Id) : Call → Prop
  | .newDoc L _ _ _ _ => ∀ doc p o, L.signCgka doc p = .ok o → o.issuer = me
  | .addToGroup L _ _ _ _ => ∀ doc p o, L.signCgka doc p = .ok o → o.issuer = me
  | .addToDoc L _ _ _ _ => ∀ doc p o, L.signCgka doc p = .ok o → o.issuer = me
  | .revokeFromGroup L _ _ _ _ => ∀ doc p o, L.signCgka doc p = .ok o → o.issuer = me
  | .revokeFromDoc L _ _ _ _ => ∀ doc p o, L.signCgka doc p = .ok o → o.issuer = me
  | .encrypt L _ _ _ _ => ∀ doc p o, L.signCgka doc p = .ok o → o.issuer = me
  | .pcsUpdate L _ => ∀ doc p o, L.signCgka doc p = .ok o → o.issuer = me
  | _ => True

/-- A device of a fleet that is the only one of agent `me`: it signs as `me`, and group-key operations signed by `me` come from nowhere
else. (It may be handed an operation of its own again as long as it has it on record; batches do not contain any.) -/
inductive OnlyDevice (E : Env) (me : Id) : Keyhive → Prop
  | start (reg : Prekey.Registry) (pairs : ShareKeyMap) (hp : reg.pub = MemberId.pub) (hk : OwnPairs pairs) (hm : reg.me = me) :
      OnlyDevice E me (Keyhive.start reg pairs)
  | call {k : Keyhive} (c : Call) (h : OnlyDevice E me k) (ho : c.Own) (hc : c.Honest E) (hs : c.Steady) (hi : c.SignsAs me) : OnlyDevice E me (c.run E k)
  | receive {k : Keyhive} (e : Event) (h : OnlyDevice E me k) (src : Id → SOp → Keyhive) (hf : ∀ did op, Fleet E (src did op))
      (he : ∀ did op, e = .cgka did op → HasKeyOp E (src did op) did op ∧ PublicAsKnown op)
      (hi : ∀ did op, e = .cgka did op → op.issuer = me → HasKeyOp E k did op) : OnlyDevice E me (k.receive E e).1
  | ingest {k : Keyhive} (ord : List Event → List Event) (hord : ∀ l, (ord l).Perm l) (events : List Event) (h : OnlyDevice E me k)
      (src : Id → SOp → Keyhive) (hf : ∀ did op, Fleet E (src did op))
      (he : ∀ did op, .cgka did op ∈ events → HasKeyOp E (src did op) did op ∧ PublicAsKnown op)
      (hi : ∀ did op, .cgka did op ∈ events → op.issuer ≠ me) : OnlyDevice E me (k.ingest E ord events).1
  | archive {k : Keyhive} (ord : List Event → List Event) (hord : ∀ l, (ord l).Perm l) (a : Archive) (h : OnlyDevice E me k) (hk : OwnPairs a.pairs) :
      OnlyDevice E me (k.ingestArchive E ord a).1

/-- Somebody else adds `me` to a group that exists already. -/
def Invites (me : Id) (op : SOp) : Prop := op.issuer ≠ me ∧ ∃ pk i p ps as, op.payload = .add me pk i (p :: ps) as

/-- `me` starts the group. -/
def Starts (me : Id) (op : SOp) : Prop := op.issuer = me ∧ ∃ id pk i as, op.payload = .add id pk i [] as

/-- `me` makes a key update. -/
def Updates (me : Id) (op : SOp) : Prop := op.issuer = me ∧ ∃ id pc ps, op.payload = .update id pc ps

/-- The operation gives `me` a place in the group, or renews the keys there, in a way in which the secret is known to their device. -/
def Places (me : Id) (op : SOp) : Prop := Invites me op ∨ Starts me op ∨ Updates me op

end Verif.Keyhive
