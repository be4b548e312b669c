import Verif.Keyhive.KeptSpec
import Verif.Keyhive.Query

/-! # What the properties about the content that operations name say -/

namespace Verif.Keyhive

open Verif.Group Verif.Cgka Verif.BeeKem

/-- The content of a group or document that a list names. -/
def headsIn (x : Content) (i : Id) : List Nat := ((x.find? (fun p => decide (p.1 = i))).map (·.2)).getD []

/-- The key of a group or document has signed nothing but the delegations it was made with, and each of them names this content of it
(no content at all, if it is the key of a group). -/
def Env.Founded (E : Env) (i : Id) (heads : List Nat) : Prop := ∀ s, E.validDlg s = true → s.issuer = i → s.proof = none ∧ headsIn s.content i = heads

/-- The content that a membership operation names — membership_operation.rs:155-161. -/
def opContent : Op → Content
  | .dlg d => d.content
  | .rev r => r.content

/-- The operation is one of those the device keeps. -/
def Keeps (k : Keyhive) : Op → Prop
  | .dlg d => ∃ h, AMap.get k.dlgs h = some d
  | .rev r => ∃ h, AMap.get k.revs h = some r

/-- The list names the heads of every document that the agent is a member of, directly or through groups, and nothing else. -/
def NamesAll (k : Keyhive) (me : Id) (x : Content) : Prop :=
  ∀ i hs, (i, hs) ∈ x ↔ ∃ doc, AMap.get k.docs i = some doc ∧ Within k.world doc.group me ∧ hs = doc.heads

end Verif.Keyhive
