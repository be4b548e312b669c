import Verif.Keyhive.Spec

/-! # What the properties about keeping keys and roles say -/

namespace Verif.Keyhive

open Verif.Group Verif.Cgka Verif.BeeKem

/-- The key of a document signs delegations without a proof only (it is thrown away once the document has been made). -/
def Env.OnlyRoots (E : Env) (did : Id) : Prop := ∀ s, E.validDlg s = true → s.issuer = did → s.proof = none

/-- The device after further calls, none of which makes a new document with this id. -/
inductive Onward (E : Env) (did : Id) (k : Keyhive) : Keyhive → Prop
  | refl : Onward E did k k
  | call {k' : Keyhive} (c : Call) (h : Onward E did k k') (hc : c.Honest E)
      (hn : ∀ L S co heads, c ≠ .newDoc L S did co heads) : Onward E did k (c.run E k')

/-- The device has recorded the group-key operation for the document. -/
def HasKeyOp (E : Env) (k : Keyhive) (did : Id) (op : SOp) : Prop :=
  ∃ d c, AMap.get k.docs did = some d ∧ d.cgka = some c ∧ AMap.get c.graph.ops (E.hashCgka did op) = some op

/-- The keys in `Ind` are those of individuals: they sign no delegation without a proof, as the key of a group or document does. -/
def Env.Individuals (E : Env) (Ind : Id → Prop) : Prop := ∀ s, E.validDlg s = true → s.proof = none → ¬ Ind s.issuer

/-- All individuals in the registry are in `Ind`, each under its own id. -/
def Listed (Ind : Id → Prop) (reg : Prekey.Registry) : Prop := ∀ p ∈ reg.indies, p.2.id = p.1 ∧ Ind p.1

/-- The call brings no prekeys of agents other than the individuals in `Ind`; if it makes a document, it does not fail half-way
and names content (`NonEmpty<T>`). (Batches are iterated in any order.) -/
def Call.Plain (E : Env) (Ind : Id → Prop) (k : Keyhive) : Call → Prop
  | .receive (.prekey op) => Ind op.issuer
  | .ingest ord events => (∀ l, (ord l).Perm l) ∧ ∀ op, .prekey op ∈ events → Ind op.issuer
  | .contactCard op => Ind op.issuer
  | .ingestArchive ord a => (∀ l, (ord l).Perm l) ∧ Listed Ind a.reg
  | .newDoc L S did coparents heads => (∃ i, (k.generateDoc E L S did coparents heads).2 = .ok i) ∧ heads ≠ []
  | _ => True

/-- The states a device gets into by such calls. -/
inductive ReachPlain (E : Env) (Ind : Id → Prop) : Keyhive → Prop
  | start (reg : Prekey.Registry) (pairs : ShareKeyMap) (h : Listed Ind reg) :
      ReachPlain E Ind (Keyhive.start reg pairs)
  | call {k : Keyhive} (c : Call) (h : ReachPlain E Ind k) (hc : c.Honest E) (hp : c.Plain E Ind k) : ReachPlain E Ind (c.run E k)

end Verif.Keyhive
