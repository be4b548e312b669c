import Verif.Keyhive.KeptSpec
import Verif.Cgka.TrustSpec

/-! # Devices that all run the library -/

namespace Verif.Keyhive

open Verif.Group Verif.Cgka Verif.BeeKem

/-- If the operation adds the public individual, then with its well-known key. -/
def PublicAsKnown (op : SOp) : Prop := ∀ pk i ps as, op.payload = .add MemberId.pub pk i ps as → pk = shareKey publicSk

/-- Each public key stands beside its own secret. -/
def OwnPairs (m : ShareKeyMap) : Prop := ∀ p ∈ m, p.1 = shareKey p.2

/-- Devices that all run the library. A device starts with prekey pairs, makes calls of its own, and receives events: the group-key
operations among them are ones that another such device has recorded for the same document, in any order, late, more than once or never.
What it receives otherwise — delegations, revocations and prekeys, and archives — may come from anybody. -/
inductive Fleet (E : Env) : Keyhive → Prop
  | start (reg : Prekey.Registry) (pairs : ShareKeyMap) (hp : reg.pub = MemberId.pub) (hk : OwnPairs pairs) : Fleet E (Keyhive.start reg pairs)
  | call {k : Keyhive} (c : Call) (h : Fleet E k) (ho : c.Own) (hc : c.Honest E) (hs : c.Steady) : Fleet E (c.run E k)
  | receive {k : Keyhive} (e : Event) (h : Fleet E k) (src : Id → SOp → Keyhive) (hf : ∀ did op, Fleet E (src did op))
      (he : ∀ did op, e = .cgka did op → HasKeyOp E (src did op) did op ∧ PublicAsKnown op) : Fleet E (k.receive E e).1
  | ingest {k : Keyhive} (ord : List Event → List Event) (hord : ∀ l, (ord l).Perm l) (events : List Event) (h : Fleet E k)
      (src : Id → SOp → Keyhive) (hf : ∀ did op, Fleet E (src did op))
      (he : ∀ did op, .cgka did op ∈ events → HasKeyOp E (src did op) did op ∧ PublicAsKnown op) : Fleet E (k.ingest E ord events).1
  | archive {k : Keyhive} (ord : List Event → List Event) (hord : ∀ l, (ord l).Perm l) (a : Archive) (h : Fleet E k) (hk : OwnPairs a.pairs) :
      Fleet E (k.ingestArchive E ord a).1

end Verif.Keyhive
