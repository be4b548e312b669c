import Verif.Keyhive.Props
import Verif.Group.ForeignProps

/-! # C140 — What happens in one group does not decide who is a member of another: the counterexample -/

namespace Verif.Keyhive.ForeignProps

open Verif.Group Verif.Keyhive.Sample

/-- Bob (2) is admin of group 100. -/
def a0 : SDlg := ⟨100, 100001, 2, .admin, none, [], []⟩
/-- Bob lets 7 relay its events. -/
def a1 : SDlg := ⟨2, 2001, 7, .relay, some (hashDlg a0), [], []⟩
/-- Bob lets Alice (1) relay them too. -/
def a2 : SDlg := ⟨2, 2002, 1, .relay, some (hashDlg a0), [], []⟩
/-- Bob takes this back. -/
def a3 : SRev := ⟨2, 2003, hashDlg a2, some (hashDlg a0), []⟩

/-- Bob is admin of group 200 as well. -/
def b0 : SDlg := ⟨200, 200001, 2, .admin, none, [], []⟩
/-- Bob makes 7 admin of group 200. -/
def b1 : SDlg := ⟨2, 2004, 7, .admin, some (hashDlg b0), [], []⟩
/-- 7 makes Carol (3) admin of group 200, after the revocation in group 100. -/
def b2 : SDlg := ⟨7, 7001, 3, .admin, some (hashDlg b1), [hashRev a3], []⟩
/-- Carol lets Alice relay group 200. -/
def b3 : SDlg := ⟨3, 3001, 1, .relay, some (hashDlg b2), [], []⟩
/-- Carol takes this back. -/
def b4 : SRev := ⟨3, 3002, hashDlg b3, some (hashDlg b2), []⟩

/-- 7 lets Carol relay group 100, after the revocation in group 200. -/
def trick : SDlg := ⟨7, 7002, 3, .relay, some (hashDlg a1), [hashRev b4], []⟩

/-- What the device has received before that. -/
def before : List Event := [.dlg a0, .dlg a1, .dlg a2, .rev a3, .dlg b0, .dlg b1, .dlg b2, .dlg b3, .rev b4]

/-- The device then. -/
noncomputable def k1 : Keyhive := feed Sample.E k0 before
/-- The device after the last delegation. -/
noncomputable def k2 : Keyhive := (k1.receive Sample.E (.dlg trick)).1

/-- Each of these events was accepted: ingesting them leaves nothing pending. -/
example : (k0.ingest Sample.E id before).2 = some (.ok []) := by decide +kernel

theorem h1 : (AMap.get k1.groups 100).isSome = true := by decide +kernel
theorem h2 : (AMap.get k2.groups 100).isSome = true := by decide +kernel
theorem h3 : (AMap.get ((AMap.get k2.groups 100).get h2).members 3).isSome = true := by decide +kernel

/-- C140 fails: Bob is the only admin of group 100, where 7 may only relay events; in another group Bob has made 7 admin. In that other group 7 makes
Carol admin. Then 7 delegates relay access to group 100, naming a revocation of the other group as one it has seen. The delegation is accepted, and with
the revocation the whole history of the other group enters that of group 100: Carol is admin of group 100, by a delegation about the other group. -/
theorem C140_fails : ∃ (E : Env) (k k' : Keyhive) (g g' : Group) (e : SDlg), Reach E k ∧ E.NoClash ∧ Function.Injective E.hashEvent ∧
    AMap.get k.groups 100 = some g ∧ AMap.get k'.groups 100 = some g' ∧ g.id = 100 ∧ g'.id = 100 ∧
    (∀ m d, g.MemberBy m d → d.can = .admin → m = 2) ∧ (∀ d, g.MemberBy 7 d → d.can = .relay) ∧ (∀ d, ¬ g.MemberBy 3 d) ∧
    e.issuer = 7 ∧ e.can = .relay ∧ k.receive E (.dlg e) = (k', .ok ()) ∧
    ∃ d, g'.MemberBy 3 d ∧ d.can = .admin ∧ d.issuer = 7 ∧ d.subject = 200 := by
  have e1 : ((AMap.get k1.groups 100).get h1).members.map (fun p => (p.1, p.2.map Dlg.can)) = [(7, [Access.relay]), (2, [Access.admin])] := by
    decide +kernel
  have hm : ∀ m d, ((AMap.get k1.groups 100).get h1).MemberBy m d → (m = 7 ∧ d.can = .relay) ∨ (m = 2 ∧ d.can = .admin) := by
    rintro m d ⟨ds, hd, hmem⟩
    have : (m, ds.map Dlg.can) ∈ [(7, [Access.relay]), (2, [Access.admin])] := by
      rw [← e1]
      exact List.mem_map.2 ⟨(m, ds), AMap.mem_of_get hd, rfl⟩
    have hc : d.can ∈ ds.map Dlg.can := List.mem_map.2 ⟨d, hmem, rfl⟩
    simp only [List.mem_cons, Prod.mk.injEq, List.not_mem_nil, or_false] at this
    rcases this with ⟨rfl, h⟩ | ⟨rfl, h⟩
    · rw [h] at hc; exact .inl ⟨rfl, by simpa using hc⟩
    · rw [h] at hc; exact .inr ⟨rfl, by simpa using hc⟩
  have h4 : ∃ d ∈ (AMap.get ((AMap.get k2.groups 100).get h2).members 3).get h3, d.can = .admin ∧ d.issuer = 7 ∧ d.subject = 200 := by
    decide +kernel
  refine ⟨Sample.E, k1, k2, (AMap.get k1.groups 100).get h1, (AMap.get k2.groups 100).get h2, trick, reach_feed reach_k0, E_noClash, E_events,
    (Option.some_get h1).symm, (Option.some_get h2).symm, by decide +kernel, by decide +kernel, ?_, ?_, ?_, rfl, rfl, by decide +kernel, ?_⟩
  · intro m d h hd
    rcases hm m d h with ⟨_, hc⟩ | ⟨hc, _⟩
    · rw [hc] at hd; cases hd
    · exact hc
  · intro d h
    rcases hm 7 d h with ⟨_, hc⟩ | ⟨hc, _⟩
    · exact hc
    · exact absurd hc (by decide)
  · intro d h
    rcases hm 3 d h with ⟨hc, _⟩ | ⟨hc, _⟩ <;> exact absurd hc (by decide)
  · obtain ⟨d, hd, hr⟩ := h4
    exact ⟨d, ⟨_, (Option.some_get h3).symm, hd⟩, hr⟩

end Verif.Keyhive.ForeignProps
