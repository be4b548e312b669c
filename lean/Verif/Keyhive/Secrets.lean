import Verif.Keyhive.Archive

/-! # Moving prekey secrets between devices

The secrets are exported as a blob and imported from one; what can go wrong in (de)serialising it is not modelled. -/

namespace Verif.Keyhive

open Verif.Group Verif.Cgka Verif.BeeKem

namespace Keyhive

/-- `export_prekey_secrets` — keyhive.rs:1904-1912, active.rs:283-292: every prekey pair the device holds. -/
def exportSecrets (k : Keyhive) : ShareKeyMap := k.pairs

/-- `Active::import_prekey_secrets` — active.rs:294-300: the map is extended, so an imported pair replaces one held under the
same public key. -/
def extendPairs (k : Keyhive) (m : ShareKeyMap) : Keyhive := { k with pairs := m.foldl (fun acc p => AMap.insert acc p.1 p.2) k.pairs }

/-- `import_prekey_secrets` — keyhive.rs:1914-1926: extends the pairs, then ingests nothing, which tries the pending events again. -/
def importSecrets (E : Env) (ord : List Event → List Event) (k : Keyhive) (m : ShareKeyMap) :
    Keyhive × Option (Except Err (List Event)) := (k.extendPairs m).ingest E ord []

end Keyhive

end Verif.Keyhive
