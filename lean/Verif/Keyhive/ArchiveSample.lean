import Verif.Keyhive.AlikeLemmas
import Verif.Keyhive.QuerySample

/-! # Concrete devices for archives -/

namespace Verif.Keyhive.Sample

open Verif.Group Verif.Cgka Verif.BeeKem

/-- Agent 7, known as an individual, may write to group 100. -/
def gSeven : SDlg := ⟨100, 100007, 7, .edit, none, [], []⟩
/-- A device that then learns that agent 7 is a group. -/
noncomputable def a1 : Keyhive := feed E k0 [.dlg gSeven, .dlg x7]

/-- Alice is admin of group 100. -/
def gAlice : SDlg := ⟨100, 100008, 1, .admin, none, [], []⟩
/-- Carol is admin of team 200. -/
def kCarol : SDlg := ⟨200, 200003, 3, .admin, none, [], []⟩
/-- Alice makes the team admin of group 100. -/
def gTeam' : SDlg := ⟨1, 1003, 200, .admin, some (hashDlg gAlice), [], []⟩
/-- Carol, as a member of the team, takes Alice out of group 100. -/
def rAlice : SRev := ⟨3, 3001, hashDlg gAlice, some (hashDlg gTeam'), []⟩
/-- A device on which Carol, let in by Alice, has taken Alice out. -/
noncomputable def a2 : Keyhive := feed E k0 [.dlg gAlice, .dlg kCarol, .dlg gTeam', .rev rAlice]

/-- A device with a document that has a key tree, and with an event that waits for a missing delegation. -/
noncomputable def a3 : Keyhive := ((feed E k0 [.dlg docAlice, .cgka 300 s0]).ingest E id [.dlg gCarol]).1

/-- A device of agent 9. -/
def k9 : Keyhive := Keyhive.start ⟨9, 0, [card 0, card 9], []⟩ [(⟨99⟩, 99)]

/-- The members reported as taken out of the group or document. -/
def revokedIn (k : Keyhive) (i : Id) : List Id :=
  match AMap.get k.world i with
  | none => []
  | some g => AMap.keys g.revokedMembers

/-- The document has a key tree. -/
def hasTree (k : Keyhive) (i : Id) : Bool :=
  match AMap.get k.docs i with
  | some d => d.cgka.isSome
  | none => false

/-- The prekeys of the device's own agent. -/
def ownPrekeys (k : Keyhive) : List Nat :=
  match AMap.get k.reg.indies k.reg.me with
  | some i => i.prekeys
  | none => []

/-- Everything below the operations. -/
def downAll (l : List Op) : List Op := l.flatMap Op.down

theorem below_mem {l : List Op} {o : Op} (h : Below l o) : o ∈ downAll l := by
  obtain ⟨x, hx, hr⟩ := h
  exact List.mem_flatMap.2 ⟨x, hx, (Op.mem_down_iff _ _).2 hr⟩

theorem noClash_of {H : Op → Nat} {l : List Op}
    (h : (downAll l).all (fun a => (downAll l).all (fun b => decide (H a ≠ H b) || decide (a = b))) = true) : NoClash H l := by
  simp only [List.all_eq_true, Bool.or_eq_true, decide_eq_true_eq] at h
  exact fun a b ha hb e => (h a (below_mem ha) b (below_mem hb)).resolve_left (fun hn => hn e)

theorem direct_of {l : List Op} (h : (downAll l).all (fun o => match o with
    | .rev r => (match r.proof with | some p => decide (p = r.revoke) || decide (p ∈ r.revoke.lineage) | none => true)
    | .dlg _ => true) = true) : Direct l := by
  simp only [List.all_eq_true] at h
  intro r hr p hp
  have := h _ (below_mem hr)
  simp only [hp, Bool.or_eq_true, decide_eq_true_eq] at this
  exact this

/-- The agent is known as what it is and nothing else. -/
def knows (k : Keyhive) (a : Agent) : Bool :=
  match a with
  | ⟨.active, i⟩ => decide (i = k.reg.me)
  | ⟨.individual, i⟩ => decide (i ≠ k.reg.me) && (AMap.get k.reg.indies i).isSome
  | ⟨.group, i⟩ => decide (i ≠ k.reg.me) && (AMap.get k.reg.indies i).isNone && (AMap.get k.groups i).isSome
  | ⟨.document, i⟩ => decide (i ≠ k.reg.me) && (AMap.get k.reg.indies i).isNone && (AMap.get k.groups i).isNone && (AMap.get k.docs i).isSome

theorem knownAs_of {k : Keyhive} {a : Agent} (h : knows k a = true) : KnownAs k a := by
  obtain ⟨t, i⟩ := a
  cases t <;> simp only [knows, Bool.and_eq_true, decide_eq_true_eq, Option.isNone_iff_eq_none] at h
  · subst h; exact .active
  · exact .individual h.1 (by intro e; rw [e] at h; exact absurd h.2 (by simp))
  · exact .group h.1.1 h.1.2 (by intro e; rw [e] at h; exact absurd h.2 (by simp))
  · exact .document h.1.1.1 h.1.1.2 h.1.2 (by intro e; rw [e] at h; exact absurd h.2 (by simp))

example : NoClash E.opDigest q1.heads := noClash_of (by decide +kernel)
example : Acyclic q1.heads := acyclic_of_direct (noClash_of (by decide +kernel)) (direct_of (by decide +kernel))
example : ∀ d ∈ AMap.values q1.dlgs, KnownAs q1 d.delegate := by
  have h : (AMap.values q1.dlgs).all (fun d => knows q1 d.delegate) = true := by decide +kernel
  exact fun d hd => knownAs_of (List.all_eq_true.1 h d hd)
example : ownPrekeys (k9.ingestArchive E id (k0.intoArchive E)).1 = [99, 55] := by decide +kernel

end Verif.Keyhive.Sample
