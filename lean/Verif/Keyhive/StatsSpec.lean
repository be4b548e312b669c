import Verif.Keyhive.Stats
import Verif.Keyhive.KeptSpec
import Verif.Keyhive.Archive

/-! # What counting, looking up and converting should give -/

namespace Verif.Keyhive

open Verif.Group Verif.Cgka Verif.BeeKem

/-- There are exactly `n` things with the property. -/
def Numbers {α : Type} (n : Nat) (P : α → Prop) : Prop := ∃ l : List α, l.Nodup ∧ (∀ x, x ∈ l ↔ P x) ∧ l.length = n

/-- The operation announces a further prekey. -/
def Announces (op : Prekey.KeyOp) : Prop := ∃ key, op.body = .add key

/-- The operation replaces a prekey. -/
def Replaces (op : Prekey.KeyOp) : Prop := ∃ old new, op.body = .rotate old new

/-- The device has the prekey operation, for an individual it knows. -/
def HasPrekeyOp (k : Keyhive) (i : Id) (op : Prekey.KeyOp) : Prop := ∃ x, k.individual i = some x ∧ op ∈ AMap.values x.state

/-- The prekey operations are in a map from digest to operation. -/
def KeyedState (E : Env) (s : Prekey.State) : Prop := AMap.WF s ∧ ∀ h op, AMap.get s h = some op → E.hashKey op = h

/-- The same for all individuals in a map. -/
def KeyedIndies (E : Env) (m : AMap Id Prekey.Indie) : Prop := AMap.WF m ∧ ∀ i x, AMap.get m i = some x → KeyedState E x.state

/-- The individuals the device knows are kept in a map, and their prekey operations in maps from digest to operation. -/
def KeyedPrekeys (E : Env) (k : Keyhive) : Prop := KeyedIndies E k.reg.indies

/-- The archives the call takes in keep prekey operations under their digests. -/
def Call.Keyed (E : Env) : Call → Prop
  | .ingestArchive _ a => KeyedIndies E a.reg.indies
  | _ => True

/-- Who signed the event. -/
def Event.issuer : Event → Nat
  | .prekey op => op.issuer
  | .cgka _ op => op.issuer
  | .dlg d => d.issuer
  | .rev r => r.issuer

/-- The five kinds of events. -/
inductive Kind where
  | expanded
  | rotated
  | cgka
  | delegated
  | revoked
deriving DecidableEq, Repr

/-- The kind of an event. -/
def Event.kind : Event → Kind
  | .prekey ⟨_, _, .add _⟩ => .expanded
  | .prekey ⟨_, _, .rotate _ _⟩ => .rotated
  | .cgka _ _ => .cgka
  | .dlg _ => .delegated
  | .rev _ => .revoked

/-- The counts reported for pending events of a kind: all, and those by the active agent. -/
def Stats.pendingOf (s : Stats) : Kind → Nat × Nat
  | .expanded => (s.pendingPrekeysExpanded, s.pendingPrekeysExpandedByActive)
  | .rotated => (s.pendingPrekeyRotated, s.pendingPrekeyRotatedByActive)
  | .cgka => (s.pendingCgkaOperation, s.pendingCgkaOperationByActive)
  | .delegated => (s.pendingDelegated, s.pendingDelegatedByActive)
  | .revoked => (s.pendingRevoked, s.pendingRevokedByActive)

/-- `From<Event> for StaticEvent` — event.rs:106-125. -/
def Keyhive.Whole.wire (E : Env) : Keyhive.Whole → Event
  | .prekey op => .prekey op
  | .cgka doc op => .cgka doc op
  | .dlg d => .dlg (E.sdlg d)
  | .rev r => .rev (E.srev r)

/-- Everything the event names is known: the delegations and revocations by their digests, the delegate by its id. -/
def Names (k : Keyhive) : Event → Prop
  | .dlg s => (∀ h, s.proof = some h → AMap.get k.dlgs h ≠ none) ∧ k.getAgent s.delegate ≠ none ∧ ∀ h ∈ s.after, AMap.get k.revs h ≠ none
  | .rev s => AMap.get k.dlgs s.revoke ≠ none ∧ ∀ h, s.proof = some h → AMap.get k.dlgs h ≠ none
  | _ => True

end Verif.Keyhive
