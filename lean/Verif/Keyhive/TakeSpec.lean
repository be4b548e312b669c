import Verif.Keyhive.FleetSpec
import Verif.Keyhive.WaitSpec

/-! # Handing over the key history of a document -/

namespace Verif.Keyhive

open Verif.Group Verif.Cgka Verif.BeeKem

/-- `cgka_ops_for_doc` — keyhive.rs:900-915, with `cgka_ops` of the document (document.rs:442-445, cgka.rs:407-409). -/
def Keyhive.cgkaOpsForDoc (k : Keyhive) (did : Id) : Res (Option (List SOp)) :=
  match AMap.get k.docs did with
  | none => .ok none
  | some d =>
    match d.cgka with
    | none => .error .notInitialized
    | some c =>
      match c.graph.topsortGraph with
      | .error e => .error e
      | .ok epochs => .ok (some epochs.flatten)

/-! Specification. -/

/-- The device receives the operations one after the other, and none of them is refused. -/
def TakesAll (E : Env) (did : Id) : Keyhive → List SOp → Prop
  | _, [] => True
  | w, op :: l => (w.receive E (.cgka did op)).2 = .ok () ∧ TakesAll E did (w.receive E (.cgka did op)).1 l

/-- The device after receiving the operations one after the other. -/
def takes (E : Env) (did : Id) : Keyhive → List SOp → Keyhive
  | w, [] => w
  | w, op :: l => takes E did (w.receive E (.cgka did op)).1 l

/-- Every operation stands after the operations it builds on. -/
def InOrder (E : Env) (did : Id) (l : List SOp) : Prop :=
  ∀ l1 op l2, l = l1 ++ op :: l2 → ∀ p ∈ op.payload.preds, ∃ o ∈ l1, E.hashCgka did o = p

end Verif.Keyhive
