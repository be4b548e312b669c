import Verif.Keyhive.Query

/-!
# Model of the tables of events a device hands out

`events_for_agent`, `static_events_for_agent` and `pending_event_hashes` of `keyhive_core/src/keyhive.rs` with the digests the entries
are stored under, and `eventsForAgent`, `eventHashesForAgent` and `allAgentEvents` of `keyhive_wasm/src/js/keyhive.rs`.

Simplifications:
* Keys of a JavaScript `Map` are byte arrays, which the map compares by identity. Here the map is the list of its entries, and an entry
  is looked up by the bytes of its key.
* Serialised events are events.
-/

namespace Verif.Keyhive

open Verif.Group Verif.Cgka Verif.BeeKem

namespace Keyhive

/-- The prekey operations for an agent, those of each agent sorted — keyhive.rs:1084-1159. -/
def prekeyList (k : Keyhive) (a : Agent) : List Prekey.KeyOp :=
  (AMap.values (k.prekeyOpsFor a)).flatMap (fun s => (Prekey.topsort s.length s).getD [])

/-- `ops.insert(Digest::hash(&op), op)`. -/
def putEvent (E : Env) (m : AMap Nat Event) (e : Event) : AMap Nat Event := AMap.insert m (E.hashEvent e) e

/-- `events_for_agent` and `static_events_for_agent` — keyhive.rs:838-874: a membership operation keeps the digest it has as an operation
(`op_digest.coerce()`), the other events are stored under their own. -/
def eventTable (E : Env) (k : Keyhive) (a : Agent) : AMap Nat Event :=
  let ops := (k.membershipOpsFor E a).map (fun p => (p.1, toEvent E p.2))
  let ops := ((k.prekeyList a).map Event.prekey).foldl (putEvent E) ops
  ((k.cgkaOpsFor a.id).map (fun p => Event.cgka p.1 p.2)).foldl (putEvent E) ops

/-- `pending_event_hashes` — keyhive.rs:826-834. -/
def pendingHashes (E : Env) (k : Keyhive) : List Nat := k.pending.map E.hashEvent

/-- `eventsForAgent` — keyhive_wasm/src/js/keyhive.rs:446-489. -/
def jsEvents (E : Env) (k : Keyhive) (a : Agent) : List (Nat × Event) :=
  (k.membershipOpsFor E a).map (fun p => (p.1, toEvent E p.2))
    ++ (k.prekeyList a).map (fun o => (E.hashEvent (.prekey o), .prekey o))
    ++ (k.cgkaOpsFor a.id).map (fun p => (E.hashEvent (.cgka p.1 p.2), .cgka p.1 p.2))

/-- `eventHashesForAgent` — keyhive_wasm/src/js/keyhive.rs:492-526. -/
def jsHashes (E : Env) (k : Keyhive) (a : Agent) : List Nat :=
  AMap.keys (k.membershipOpsFor E a) ++ (k.prekeyList a).map (fun o => E.hashEvent (.prekey o))
    ++ (k.cgkaOpsFor a.id).map (fun p => E.hashEvent (.cgka p.1 p.2))

/-- `AllAgentEvents` — keyhive_wasm/src/js/all_agent_events.rs: the events, and for each of the three kinds the hashes of every source
and the sources of every agent. -/
structure JsAll where
  events : AMap Nat Event
  membership : Bulk (List Nat)
  prekey : Bulk (List Nat)
  cgka : Bulk (List Nat)

/-- `if serialized_hashes.insert(hash_bytes) { … events_map.set(hash, bytes) }; source_hashes.push(hash)` for the operations of a
source — keyhive_wasm/src/js/keyhive.rs:548-565, 590-606, 617-633. -/
def jsSource (m : AMap Nat Event) (es : List (Nat × Event)) : AMap Nat Event := es.foldl (fun m p => AMap.orInsert m p.1 p.2) m

/-- The sources of one kind: all their events, and their hashes. -/
def jsSources (m : AMap Nat Event) (b : Bulk (List (Nat × Event))) : AMap Nat Event × Bulk (List Nat) :=
  ((AMap.values b.ops).foldl jsSource m, ⟨b.ops.map (fun p => (p.1, p.2.map (·.1))), b.index⟩)

/-- `all_membership.ops` with the digests the operations are stored under and the events made of them. -/
def jsMembership (E : Env) (k : Keyhive) : Bulk (List (Nat × Event)) :=
  let b := k.membershipOpsForAll E
  ⟨b.ops.map (fun p => (p.1, p.2.map (fun q => (q.1, toEvent E q.2)))), b.index⟩

/-- `all_prekey.ops`, sorted, with the hashes of the events made of them. -/
def jsPrekey (E : Env) (k : Keyhive) : Bulk (List (Nat × Event)) :=
  let b := k.prekeyOpsForAll
  ⟨b.ops.map (fun p => (p.1, ((Prekey.topsort p.2.length p.2).getD []).map (fun o => (E.hashEvent (.prekey o), Event.prekey o)))), b.index⟩

/-- `all_cgka.ops` with the hashes of the events made of them. -/
def jsCgka (E : Env) (k : Keyhive) : Bulk (List (Nat × Event)) :=
  let b := k.cgkaOpsForAll
  ⟨b.ops.map (fun p => (p.1, p.2.map (fun q => (E.hashEvent (.cgka q.1 q.2), Event.cgka q.1 q.2)))), b.index⟩

/-- `allAgentEvents` — keyhive_wasm/src/js/keyhive.rs:530-648. -/
def jsAll (E : Env) (k : Keyhive) : JsAll :=
  let (m, mem) := jsSources [] (k.jsMembership E)
  let (m, pre) := jsSources m (k.jsPrekey E)
  let (m, cg) := jsSources m (k.jsCgka E)
  ⟨m, mem, pre, cg⟩

end Keyhive

end Verif.Keyhive
