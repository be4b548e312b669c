import Verif.Keyhive.Model

/-!
# Model of counting, looking up and converting

Models `stats` (keyhive.rs:2380-2477), `get_membership_operation` (keyhive.rs:466-480) and `static_event_to_event`
(keyhive.rs:1428-1454). Simplification: counters do not overflow (`u64` in Rust).
-/

namespace Verif.Keyhive

open Verif.Group Verif.Cgka Verif.BeeKem

/-- `Stats` — stats.rs:4-24. -/
structure Stats where
  individuals : Nat := 0
  groups : Nat := 0
  docs : Nat := 0
  delegations : Nat := 0
  revocations : Nat := 0
  prekeysExpanded : Nat := 0
  prekeyRotations : Nat := 0
  cgkaOperations : Nat := 0
  activePrekeyCount : Nat := 0
  pendingPrekeysExpanded : Nat := 0
  pendingPrekeysExpandedByActive : Nat := 0
  pendingPrekeyRotated : Nat := 0
  pendingPrekeyRotatedByActive : Nat := 0
  pendingCgkaOperation : Nat := 0
  pendingCgkaOperationByActive : Nat := 0
  pendingDelegated : Nat := 0
  pendingDelegatedByActive : Nat := 0
  pendingRevoked : Nat := 0
  pendingRevokedByActive : Nat := 0
deriving DecidableEq, Repr

/-- `if signed.id() == active_id { n += 1 }` — e.g. keyhive.rs:2432-2434. -/
def bump (yes : Bool) (n : Nat) : Nat := if yes then n + 1 else n

/-- One turn of the inner loop over key operations — keyhive.rs:2396-2400. -/
def Stats.keyOp (s : Stats) (op : Prekey.KeyOp) : Stats :=
  match op.body with
  | .add _ => { s with prekeysExpanded := s.prekeysExpanded + 1 }
  | .rotate _ _ => { s with prekeyRotations := s.prekeyRotations + 1 }

/-- One turn of the loop over documents — keyhive.rs:2406-2410. -/
def Stats.doc (s : Stats) (d : Doc) : Stats :=
  match d.cgka with
  | none => s
  | some c => { s with cgkaOperations := s.cgkaOperations + c.graph.ops.length }

/-- One turn of the loop over pending events — keyhive.rs:2427-2458. -/
def Stats.event (me : Id) (s : Stats) : Event → Stats
  | .prekey op =>
    match op.body with
    | .add _ => { s with
        pendingPrekeysExpanded := s.pendingPrekeysExpanded + 1
        pendingPrekeysExpandedByActive := bump (decide (op.issuer = me)) s.pendingPrekeysExpandedByActive }
    | .rotate _ _ => { s with
        pendingPrekeyRotated := s.pendingPrekeyRotated + 1
        pendingPrekeyRotatedByActive := bump (decide (op.issuer = me)) s.pendingPrekeyRotatedByActive }
  | .cgka _ op => { s with
      pendingCgkaOperation := s.pendingCgkaOperation + 1
      pendingCgkaOperationByActive := bump (decide (op.issuer = me)) s.pendingCgkaOperationByActive }
  | .dlg d => { s with
      pendingDelegated := s.pendingDelegated + 1
      pendingDelegatedByActive := bump (decide (d.issuer = me)) s.pendingDelegatedByActive }
  | .rev r => { s with
      pendingRevoked := s.pendingRevoked + 1
      pendingRevokedByActive := bump (decide (r.issuer = me)) s.pendingRevokedByActive }

namespace Keyhive

/-- The entries of `self.individuals`. -/
def individuals (k : Keyhive) : AMap Id Prekey.Indie :=
  if k.unlisted then AMap.erase k.reg.indies k.reg.me else k.reg.indies

/-- `stats` — keyhive.rs:2380-2477. `prekey_ops()` of the active agent are those of its individual (2381-2390). -/
def stats (k : Keyhive) : Stats :=
  let s : Stats := (AMap.values k.individuals).foldl (fun s x => (AMap.values x.state).foldl Stats.keyOp s) {}
  let s := (AMap.values k.docs).foldl Stats.doc s
  let s := k.pending.foldl (Stats.event k.reg.me) s
  { s with
    individuals := k.individuals.length
    groups := k.groups.length
    docs := k.docs.length
    delegations := k.dlgs.length
    revocations := k.revs.length
    activePrekeyCount := ((AMap.get k.reg.indies k.reg.me).map (fun x => x.state.length)).getD 0 }

/-- `get_membership_operation` — keyhive.rs:466-480. -/
def getMembershipOperation (k : Keyhive) (h : Nat) : Option Op :=
  match AMap.get k.dlgs h with
  | some d => some (.dlg d)
  | none => (AMap.get k.revs h).map .rev

/-- `Event` — event.rs: what `static_event_to_event` returns. -/
inductive Whole where
  | prekey (op : Prekey.KeyOp)
  | cgka (doc : Id) (op : SOp)
  | dlg (d : Dlg)
  | rev (r : Rev)
deriving DecidableEq

/-- `static_event_to_event` — keyhive.rs:1428-1454. -/
def toWhole (k : Keyhive) : Event → Except Err Whole
  | .prekey op => .ok (.prekey op)
  | .cgka doc op => .ok (.cgka doc op)
  | .dlg s =>
    match k.toDlg s with
    | .error e => .error e
    | .ok d => .ok (.dlg d)
  | .rev s =>
    match k.toRev s with
    | .error e => .error e
    | .ok r => .ok (.rev r)

end Keyhive

end Verif.Keyhive
