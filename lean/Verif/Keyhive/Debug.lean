import Verif.Keyhive.Model
import Verif.Crypto.Signed

/-!
# Model of `keyhive_core/src/debug_events.rs` and `debug_events/hash.rs`

Identifiers, share keys and digests become byte strings by `Wire`. Strings are lists of characters. The printing of the table in
`debug_events/terminal.rs` is not modelled.
-/

namespace Verif.Keyhive

open Verif.Group Verif.Cgka Verif.BeeKem

/-- `as_bytes` of verifying keys, share keys and digests. -/
structure Wire where
  key : Nat → List UInt8
  share : Nat → List UInt8
  digest : Nat → List UInt8

/-- `Nicknames` — debug_events.rs:314-317. -/
abbrev Nicknames := AMap (List UInt8) (List Char)

/-- `Nicknames::with_nickname` — debug_events.rs:320-324. -/
def withNickname (names : Nicknames) (original : List UInt8) (nickname : List Char) : Nicknames := AMap.insert names original nickname

/-- `Hash` — debug_events/hash.rs:5-8. -/
inductive Tag where
  | hash (bytes : List UInt8)
  | nickname (original : List UInt8) (nickname : List Char)
deriving DecidableEq

/-- `Hash::new` — debug_events/hash.rs:12-21. -/
def Tag.new (names : Nicknames) (bytes : List UInt8) : Tag :=
  match AMap.get names bytes with
  | some n => .nickname bytes n
  | none => .hash bytes

/-- `Hash::short_hex` — debug_events/hash.rs:24-40. -/
def Tag.shortHex : Tag → List Char
  | .nickname _ n => n
  | .hash b => Hex.shortHex b

/-- `Event` — event.rs:36-56, with references resolved. `doc_id` of a group-key operation is `doc`. -/
inductive LiveEvent where
  | expanded (issuer : Id) (sig : Nat) (key : Nat)
  | rotated (issuer : Id) (sig : Nat) (old new : Nat)
  | cgka (doc : Id) (o : SOp)
  | dlg (d : Dlg)
  | rev (r : Rev)
deriving DecidableEq

/-- The five names of events — debug_events.rs:106-112. -/
inductive EventType where
  | prekeysExpanded | prekeyRotated | cgkaOperation | delegated | revoked
deriving DecidableEq

def LiveEvent.type : LiveEvent → EventType
  | .expanded .. => .prekeysExpanded
  | .rotated .. => .prekeyRotated
  | .cgka .. => .cgkaOperation
  | .dlg .. => .delegated
  | .rev .. => .revoked

/-- `CgkaOperationDetails` — debug_events.rs:66-85. -/
inductive CgkaDetails where
  | add (id sharekey : Tag) (leafIndex : Nat) (predecessors : List Tag)
  | remove (id : Tag) (leafIndex : Nat) (removedKeys predecessors : List Tag)
  | update (id : Tag) (newKeys : List Tag) (pathLength : Nat) (predecessors : List Tag)
deriving DecidableEq

/-- `DebugEventDetails` — debug_events.rs:36-62. The name of the group-key operation is the constructor of its details. -/
inductive Details where
  | expanded (shareKey : Tag)
  | rotated (old new : Tag)
  | cgka (docId : Tag) (details : CgkaDetails)
  | delegated (subject : Tag) (can : Access) (delegate : Tag) (afterRevocations afterContent : Nat)
  | revoked (subject revoke : Tag) (hasProof : Bool) (afterContent : Nat)
deriving DecidableEq

/-- `DebugEventRow` — debug_events.rs:26-32. -/
structure Row where
  index : Nat
  type : EventType
  eventHash : Tag
  issuer : Tag
  details : Details
deriving DecidableEq

/-- `DebugEventTable` — debug_events.rs:19-22. -/
structure EventTable where
  rows : List Row
  counts : AMap EventType Nat

/-- The digests of the signed operations inside events. -/
structure Digests where
  prekey : LiveEvent → Nat
  cgka : SOp → Nat
  op : Op → Nat

/-- The details of a group-key operation — debug_events.rs:179-245. The predecessors are a set. -/
def cgkaDetails (W : Wire) (names : Nicknames) : Payload → CgkaDetails
  | .add id pk leaf preds _ => .add (.new names (W.key id)) (.new names (W.share pk.of)) leaf ((sextend [] preds).map (fun p => .new names (W.digest p)))
  | .remove id leaf removed preds =>
    .remove (.new names (W.key id)) leaf (removed.map (fun p => .new names (W.share p.of))) ((sextend [] preds).map (fun p => .new names (W.digest p)))
  | .update id path preds =>
    .update (.new names (W.key id)) (path.leafPk.keys.map (fun p => .new names (W.share p.of))) path.path.length
      ((sextend [] preds).map (fun p => .new names (W.digest p)))

/-- `DebugEventRow::from_event` — debug_events.rs:128-311. -/
def Row.fromEvent (W : Wire) (D : Digests) (names : Nicknames) (idx : Nat) (e : LiveEvent) : Row :=
  let tag := Tag.new names
  match e with
  | .expanded issuer _ key => ⟨idx, .prekeysExpanded, tag (W.digest (D.prekey e)), tag (W.key issuer), .expanded (tag (W.share key))⟩
  | .rotated issuer _ old new =>
    ⟨idx, .prekeyRotated, tag (W.digest (D.prekey e)), tag (W.key issuer), .rotated (tag (W.share old)) (tag (W.share new))⟩
  | .cgka doc o =>
    ⟨idx, .cgkaOperation, tag (W.digest (D.cgka o)), tag (W.key o.issuer), .cgka (tag (W.key doc)) (cgkaDetails W names o.payload)⟩
  | .dlg d =>
    ⟨idx, .delegated, tag (W.digest (D.op (.dlg d))), tag (W.key d.issuer),
      .delegated (match d.proof with | some p => tag (W.key p.subject) | none => tag (W.key d.issuer)) d.can (tag (W.key d.delegate.id))
        d.after.length d.content.length⟩
  | .rev r =>
    ⟨idx, .revoked, tag (W.digest (D.op (.rev r))), tag (W.key r.issuer),
      .revoked (match r.proof with | some p => tag (W.key p.subject) | none => tag (W.key r.issuer)) (tag (W.digest (D.op (.dlg r.revoke))))
        r.proof.isSome r.content.length⟩

/-- The loop that counts — debug_events.rs:104-114. -/
def countTypes (events : List LiveEvent) : AMap EventType Nat :=
  events.foldl (fun m e => AMap.insert m e.type ((AMap.get m e.type).getD 0 + 1)) []

/-- The loop over the events — debug_events.rs:117-120, from the given index. -/
def rowsFrom (W : Wire) (D : Digests) (names : Nicknames) : Nat → List LiveEvent → List Row
  | _, [] => []
  | i, e :: es => Row.fromEvent W D names i e :: rowsFrom W D names (i + 1) es

/-- `DebugEventTable::from_events` — debug_events.rs:89-123. -/
def EventTable.fromEvents (W : Wire) (D : Digests) (events : List LiveEvent) (names : Nicknames) : EventTable :=
  if events.isEmpty then ⟨[], []⟩ else ⟨rowsFrom W D names 0 events, countTypes events⟩

end Verif.Keyhive
