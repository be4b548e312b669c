import Verif.Keyhive.Archive

/-! # Saving a device while it is in use

`into_archive` locks the stores, the individuals, the active agent, the groups, the documents and the pending events one after the other, and
releases each before it takes the next (keyhive.rs:1929-1985), so other calls can run in between. -/

namespace Verif.Keyhive

open Verif.Group

/-- `Keyhive::into_archive` — keyhive.rs:1929-1985 — of a device that is `k1` when the stores are read, `k2` when the individuals and the active
agent are read, `k3` for the groups, `k4` for the documents, and `k5` for the pending events. Simplified: the individuals, the active agent, and the
prekeys of groups and documents are read at one moment. -/
def saveAcross (E : Env) (k1 k2 k3 k4 k5 : Keyhive) : Archive :=
  { reg := k2.reg
    unlisted := k2.unlisted
    pairs := k2.pairs
    ops := (reverseTopsort E.opDigest (AMap.values k1.dlgs) (AMap.values k1.revs)).reverse.map E.smem
    groups := k3.groups.map (fun p => (p.1, toGroupArchive E p.2))
    docs := k4.docs.map (fun p => (p.1, toDocArchive E p.2))
    pending := k5.pending }

end Verif.Keyhive
