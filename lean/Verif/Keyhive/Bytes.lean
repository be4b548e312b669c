import Verif.Keyhive.Model

/-!
# Model of ingesting serialised events

`ingestEventsBytes` of `keyhive_wasm/src/js/keyhive.rs`.
-/

namespace Verif.Keyhive

/-- `bincode::deserialize` and `bincode::serialize` for `StaticEvent`, over any type of byte strings. The former need not undo the
latter only: it accepts further bytes at the end. -/
structure Codec (B : Type) where
  decode : B → Option Event
  encode : Event → B

/-- Decoding every byte string; the first one that cannot be decoded ends the call — keyhive_wasm/src/js/keyhive.rs:845-851. -/
def Codec.decodeAll {B : Type} (C : Codec B) : List B → Option (List (Event × B))
  | [] => some []
  | b :: bs =>
    match C.decode b with
    | none => none
    | some e =>
      match C.decodeAll bs with
      | none => none
      | some es => some ((e, b) :: es)

/-- `static_event_hash_to_bytes.insert(Digest::hash(&static_event), event_bytes)`, one after the other
— keyhive_wasm/src/js/keyhive.rs:841-850. -/
def bytesTable {B : Type} (E : Env) (es : List (Event × B)) : AMap Nat B :=
  es.foldl (fun m p => AMap.insert m (E.hashEvent p.1) p.2) []

/-- The byte string handed back for a pending event — keyhive_wasm/src/js/keyhive.rs:857-866. -/
def bytesOf {B : Type} (E : Env) (C : Codec B) (m : AMap Nat B) (e : Event) : B :=
  (AMap.get m (E.hashEvent e)).getD (C.encode e)

/-- How `ingestEventsBytes` ends: with the pending events' bytes, with an exception because something could not be decoded, or in the
panic (or hang) of ingesting. -/
inductive BytesEnd (B : Type) where
  | pending (bs : List B)
  | undecodable
  | failed (e : Err)
deriving DecidableEq

/-- `ingestEventsBytes` — keyhive_wasm/src/js/keyhive.rs:834-876. `none` if the bound on the rounds of ingesting is used up. -/
def Keyhive.ingestBytes {B : Type} (E : Env) (ord : List Event → List Event) (C : Codec B) (k : Keyhive) (bs : List B) :
    Keyhive × Option (BytesEnd B) :=
  match C.decodeAll bs with
  | none => (k, some .undecodable)
  | some es =>
    match k.ingest E ord (es.map Prod.fst) with
    | (k', none) => (k', none)
    | (k', some (.error e)) => (k', some (.failed e))
    | (k', some (.ok left)) => (k', some (.pending (left.map (bytesOf E C (bytesTable E es)))))

end Verif.Keyhive
