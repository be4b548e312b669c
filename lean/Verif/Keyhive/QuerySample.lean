import Verif.Keyhive.BulkLemmas
import Verif.Keyhive.LocalSample

/-! # Concrete devices for the queries -/

namespace Verif.Keyhive.Sample

open Verif.Group Verif.Cgka Verif.BeeKem

/-- The team with Bob taken out, after Bob added Carol to group 100 in its name. -/
noncomputable def q1 : Keyhive := feed E k0 [.dlg kAlice, .dlg kBob, .dlg gTeam, .dlg gCarol, .rev rBob]
/-- The key of group 100 takes the team out. -/
def rTeam : SRev := ⟨100, 100003, hashDlg gTeam, none, []⟩
/-- The key of group 100 takes Carol out. -/
def rCarol : SRev := ⟨100, 100002, hashDlg gCarol, none, []⟩
/-- Alice and Bob are in a team that is no longer in group 100. -/
noncomputable def q2 : Keyhive := feed E k0 [.dlg kAlice, .dlg kBob, .dlg gTeam, .rev rTeam]
/-- Carol is no longer in group 100; the team is. -/
noncomputable def q3 : Keyhive := feed E k0 [.dlg kAlice, .dlg kBob, .dlg gTeam, .dlg gCarol, .rev rCarol]
/-- Document 300 may read group 100. -/
def gDoc : SDlg := ⟨100, 100005, 300, .read, none, [], []⟩
/-- Carol may read group 100. -/
def gCarol' : SDlg := ⟨100, 100006, 3, .read, none, [], []⟩
/-- A document as a member of a group. -/
noncomputable def q4 : Keyhive := feed E k0 [.dlg docAlice, .dlg gDoc, .dlg gCarol']
/-- Bob is taken out of the team. -/
noncomputable def q5 : Keyhive := feed E k0 [.dlg kAlice, .dlg kBob, .rev rBob]

/-- Alice and Bob are in the team. -/
noncomputable def q6 : Keyhive := feed E k0 [.dlg kAlice, .dlg kBob]

/-- Individual 4 (Dave) hands over a contact card that replaces a prekey. -/
def card4 : Prekey.KeyOp := ⟨4, 4, .rotate 44 45⟩
/-- Alice lets Dave read the team. -/
def kDave : SDlg := ⟨1, 1004, 4, .read, some (hashDlg kAlice), [], []⟩
/-- The device after receiving the contact card. -/
noncomputable def k4 : Keyhive := { k0 with reg := (k0.reg.receiveContactCard E.hashKey E.validKey card4).1 }
/-- Alice and Dave are in the team. -/
noncomputable def q7 : Keyhive := feed E k4 [.dlg kAlice, .dlg kDave]

theorem reach_q7 : Reach E q7 := reach_feed (.call (.contactCard card4) reach_k0 trivial)

/-- Carol's device, new. -/
def c0 : Keyhive := Keyhive.start ⟨3, 0, [card 0, card 3], []⟩ [(⟨33⟩, 33)]
/-- Carol's device, with the contact cards of Alice and Bob. -/
def c1 : Keyhive := Keyhive.start ⟨3, 0, [card 0, card 3, card 1, card 2], []⟩ [(⟨33⟩, 33)]

/-- Carol. -/
def carol : Agent := ⟨.individual, 3⟩
/-- Alice. -/
def alice : Agent := ⟨.individual, 1⟩

/-- Different operations have different digests, for evaluation. -/
def apart (E : Env) (k : Keyhive) : Bool :=
  k.everyOp.all (fun a => k.everyOp.all (fun b => decide (E.opDigest a ≠ E.opDigest b) || decide (a = b)))

theorem known_every {k : Keyhive} {o : Op} (h : Known k o) : o ∈ k.everyOp := by
  refine Keyhive.mem_everyOp.2 ?_
  rcases h with ⟨i, g, hg, x, hx, hr⟩ | h
  · exact .inl ⟨i, g, x, AMap.mem_of_get hg, hx, hr⟩
  · exact .inr h

theorem distinct_of {E : Env} {k : Keyhive} (h : apart E k = true) : Distinct E k := by
  simp only [apart, List.all_eq_true, Bool.or_eq_true, decide_eq_true_eq] at h
  exact fun a b ha hb e => (h a (known_every ha) b (known_every hb)).resolve_left (fun hn => hn e)

/-- The members of a group with the access shown, for evaluation. -/
def shown (k : Keyhive) (i : Id) : List (Id × Access) :=
  match AMap.get k.world i with
  | none => []
  | some g => (k.listed g).map (fun p => (p.1, p.2.2))

/-- The signatures of the operations. -/
def tags (m : AMap Nat Op) : List Nat := (AMap.values m).map (fun o => match o with | .dlg d => d.sig | .rev r => r.sig)

end Verif.Keyhive.Sample
