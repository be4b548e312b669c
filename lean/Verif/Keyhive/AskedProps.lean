import Verif.Keyhive.Asked
import Verif.Keyhive.AccessProps
import Verif.Keyhive.StatsLemmas
import Verif.Keyhive.ArchiveSample
import Verif.Keyhive.ArchiveLemmas
import Verif.Keyhive.SettleLemmas
import Verif.Group.DownLemmas

/-!
# Property theorems: asking a group for the revocations of an agent (C128)

`k.agentRevocations i a` is what `get_agent_revocations(a)` of the group or document with id `i` gives on the device `k`. `g.Holds o` says that the
operation `o` is in the history of the group `g`.
-/

namespace Verif.Keyhive.AskedProps

open Verif.Group Verif.Cgka Verif.BeeKem Verif.Keyhive.AccessProps Relation

variable {E : Env}

/-- The revocation takes a delegation to this agent back. The device's own agent and the individual with its id are one agent. -/
def About (r : Rev) (a : Agent) : Prop :=
  r.revoke.delegate.id = a.id ∧
    (r.revoke.delegate.kind = a.kind ∨ r.revoke.delegate.isMembered = false ∧ a.isMembered = false)

theorem about_iff {r : Rev} {a : Agent} : r.revoke.delegate.sameAgentId a = true ↔ About r a := by
  unfold Agent.sameAgentId About
  simp

/-- C128, none is missing, and nothing invented: asked for the revocations of an agent, a group or document gives every one in its history,
and each one given is correctly signed, takes a delegation to the agent back, and is given once. Missing: that they are all revocations of this
group (`C128_fails`). -/
theorem C128_given_partial {k : Keyhive} (hr : Reach E k) (hc : NoClash E.opDigest k.heads) {i : Id} {g : Group}
    (hg : AMap.get k.world i = some g) (a : Agent) :
    (∀ r, g.Holds (.rev r) → About r a → r ∈ k.agentRevocations i a) ∧
    (∀ r ∈ k.agentRevocations i a, About r a ∧ E.validRev (E.srev r) = true) ∧ (k.agentRevocations i a).Nodup := by
  have hs := reach_storeOk hr
  have hk := reach_stocked hr
  have hgive : k.agentRevocations i a = k.revsAbout a := by unfold Keyhive.agentRevocations; rw [hg]
  have hmem : ∀ {r}, r ∈ AMap.values k.revs ↔ ∃ h, AMap.get k.revs h = some r := fun {r} => values_iff hk.wfr r
  rw [hgive]
  refine ⟨fun r hh ha => ?_, fun r h => ?_, ?_⟩
  · have hin : (i, g) ∈ k.world := AMap.mem_of_get hg
    have hfit : Fit E k g := by
      rw [get_world] at hg
      cases hgr : AMap.get k.groups i with
      | some g' => rw [hgr] at hg; cases hg; exact hk.groups hgr
      | none =>
        rw [hgr] at hg
        cases hd : AMap.get k.docs i with
        | none => rw [hd] at hg; cases hg
        | some doc => rw [hd] at hg; cases hg; exact hk.docs hd
    have h1 : AMap.get k.revs (E.revDigest r) ≠ none := hfit.1 _ hh
    obtain ⟨r', h2⟩ := Option.ne_none_iff_exists'.1 h1
    have h3 : r' ∈ AMap.values k.revs := hmem.2 ⟨_, h2⟩
    have hb : Below k.heads (.rev r') :=
      ⟨.rev r', List.mem_append_left _ (List.mem_append_right _ (List.mem_map.2 ⟨r', h3, rfl⟩)), .refl⟩
    have he : Op.rev r' = .rev r := hc _ _ hb (held_heads hin hh) (hs.rev _ _ h2).1
    cases he
    exact List.mem_filter.2 ⟨h3, about_iff.2 ha⟩
  · obtain ⟨h1, h2⟩ := List.mem_filter.1 h
    obtain ⟨x, hx⟩ := hmem.1 h1
    exact ⟨about_iff.1 h2, (hs.rev _ _ hx).2⟩
  · refine List.Nodup.filter _ (List.Nodup.of_map E.revDigest ?_)
    have he : (AMap.values k.revs).map E.revDigest = AMap.keys k.revs := by
      unfold AMap.values AMap.keys
      rw [List.map_map]
      refine List.map_congr_left fun p hp => ?_
      exact (hs.rev p.1 p.2 (AMap.get_of_mem hk.wfr hp)).1
    rw [he]
    exact hk.wfr

/-- Is the operation a revocation? -/
def isRev : Op → Bool
  | .rev _ => true
  | .dlg _ => false

-- Alice was revoked from document 300, and the hypotheses hold there.
example : Reach Sample.EL u3 ∧ NoClash Sample.EL.opDigest u3.heads ∧ AMap.get u3.world 300 ≠ none :=
  ⟨reach_u3, Sample.noClash_of (by decide +kernel), by decide +kernel⟩

example : (u3.agentRevocations 300 ⟨.individual, 1⟩).map (fun r => r.revoke.delegate.id) = [1] := by decide +kernel

/-- C128 fails: a group of which Alice is a member, and from which nobody was ever revoked, gives a revocation of Alice: that of another
group. -/
theorem C128_fails : ∃ (E : Env) (k : Keyhive) (i : Id) (g : Group) (a : Agent) (r : Rev), Reach E k ∧ AMap.get k.world i = some g ∧
    r ∈ k.agentRevocations i a ∧ (∀ r', ¬ g.Holds (.rev r')) ∧ ∃ d, g.MemberBy a.id d := by
  obtain ⟨g, hg⟩ : ∃ g, AMap.get u3.world 200 = some g :=
    Option.ne_none_iff_exists'.1 (by decide +kernel)
  obtain ⟨r, hr⟩ : ∃ r, r ∈ u3.agentRevocations 200 ⟨.individual, 1⟩ := by
    refine List.exists_mem_of_ne_nil _ fun h => ?_
    have h1 : (u3.agentRevocations 200 ⟨.individual, 1⟩).length = 1 := by decide +kernel
    rw [h] at h1
    cases h1
  have hno : ((AMap.get u3.world 200).map (fun g => (g.headOps.flatMap Op.down).all (fun o => !isRev o))) = some true := by decide +kernel
  have hin : ((AMap.get u3.world 200).map (fun g => ((AMap.get g.members 1).getD []).length)) = some 1 := by decide +kernel
  rw [hg] at hno hin
  refine ⟨_, u3, 200, g, ⟨.individual, 1⟩, r, reach_u3, hg, hr, fun r' h => ?_, ?_⟩
  · have h1 := Group.mem_allDown.2 h
    have h2 := List.all_eq_true.1 (Option.some.inj hno) _ h1
    cases h2
  · cases hm : AMap.get g.members 1 with
    | none => rw [Option.map_some, hm] at hin; cases hin
    | some ds =>
      cases ds with
      | nil => rw [Option.map_some, hm] at hin; cases hin
      | cons d ds => exact ⟨d, d :: ds, hm, List.mem_cons_self⟩

end Verif.Keyhive.AskedProps
