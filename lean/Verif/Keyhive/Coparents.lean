import Verif.Keyhive.Register

/-! # Making groups and documents with peers that came from elsewhere -/

namespace Verif.Keyhive

open Verif.Group Verif.Cgka Verif.BeeKem

/-- `From<Peer> for Agent` — peer.rs:98-108. -/
def Peer.agent : Peer → Agent
  | .individual i _ => ⟨.individual, i⟩
  | .group i _ => ⟨.group, i⟩
  | .document i _ => ⟨.document, i⟩

namespace Keyhive

/-- Body of the loop over the coparents — keyhive.rs:277-281. -/
def knowPeer (k : Keyhive) (p : Peer) : Keyhive :=
  if (k.getAgent p.id).isNone then (k.registerPeer p).1 else k

/-- `generate_doc` — keyhive.rs:269-316: unknown coparents are registered first. Simplified: a coparent that is known already stands
for what the device knows under its id, not for the handle that was passed. -/
def newDocWith (E : Env) (L : Local) (S : Op → Option Nat) (did : Id) (k : Keyhive) (peers : List Peer) (heads : List Nat) : Step Id :=
  (peers.foldl knowPeer k).generateDoc E L S did (peers.map Peer.agent) heads

/-- `generate_group` — keyhive.rs:246-267: nobody is registered. -/
def newGroupWith (E : Env) (S : Op → Option Nat) (gid : Id) (k : Keyhive) (peers : List Peer) : Step Id :=
  k.generateGroup E S gid (peers.map Peer.agent)

end Keyhive

end Verif.Keyhive
