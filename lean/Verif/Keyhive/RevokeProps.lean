import Verif.Keyhive.RevokeSpec
import Verif.Keyhive.HeadsProps
import Verif.Keyhive.FleetProps
import Verif.Group.Props

/-! # Property theorems: revoking on a device (C31) -/

namespace Verif.Keyhive.RevokeProps

open Verif.Group Verif.Cgka Verif.BeeKem Verif.Keyhive.Sample

variable {E : Env}

theorem propagateRemoves_groups {L : Local} {gid : Id} {ids : List Id} : ∀ (dids : List Id) (k : Keyhive) (acc : List SOp),
    (Keyhive.propagateRemoves E L gid ids k dids acc).1.groups = k.groups
  | [], k, acc => rfl
  | did :: dids, k, acc => by
    have h1 : (k.propagateRemove E L gid ids did).1.groups = k.groups := by
      unfold Keyhive.propagateRemove
      repeat' split
      all_goals rfl
    unfold Keyhive.propagateRemoves
    split
    · rename_i heq; rw [heq] at h1; exact h1
    · rename_i k' ops heq
      rw [heq] at h1
      exact (propagateRemoves_groups dids k' (acc ++ ops)).trans h1

theorem removeCgkaMembers_group {H : SOp → Nat} {sign : Payload → Res SOp} : ∀ {ids : List Id} {d : Doc} {acc : List SOp},
    (d.removeCgkaMembers H sign ids acc).1.group = d.group := by
  intro ids
  induction ids with
  | nil => intro d acc; rfl
  | cons i l ih =>
    intro d acc
    unfold Doc.removeCgkaMembers
    split
    · rfl
    · split
      · rfl
      · exact ih

theorem storeAll_docs (revs : List Rev) (dlgs : List Dlg) (k : Keyhive) :
    (k.storeAll E revs dlgs).docs = k.docs ∧ (k.storeAll E revs dlgs).groups = k.groups := by
  unfold Keyhive.storeAll
  have h1 : ∀ (l : List Rev) (k : Keyhive), (l.foldl (Keyhive.storeRev E) k).docs = k.docs ∧ (l.foldl (Keyhive.storeRev E) k).groups = k.groups := by
    intro l
    induction l with
    | nil => intro k; exact ⟨rfl, rfl⟩
    | cons r l ih => intro k; exact ih _
  have h2 : ∀ (l : List Dlg) (k : Keyhive), (l.foldl (Keyhive.storeDlg E) k).docs = k.docs ∧ (l.foldl (Keyhive.storeDlg E) k).groups = k.groups := by
    intro l
    induction l with
    | nil => intro k; exact ⟨rfl, rfl⟩
    | cons r l ih => intro k; exact ih _
  exact ⟨(h2 _ _).1.trans (h1 _ _).1, (h2 _ _).2.trans (h1 _ _).2⟩

/-- What a successful revocation on a device consists of. -/
theorem revoke_inside {k k' : Keyhive} {L : Local} {resource member : Id} {retain : Bool} {ops : List SOp}
    (h : k.revokeMember E L resource member retain = (k', .ok ops)) {g : Group} (hg : At k resource g) :
    ∃ N g' revs dlgs, g.revokeMember E.opDigest N L.sign member retain k.reg.me k.reachableContent = (g', .ok (revs, dlgs)) ∧ At k' resource g' ∧
      k'.dlgs = (k.storeAll E revs dlgs).dlgs ∧ k'.revs = (k.storeAll E revs dlgs).revs := by
  unfold Keyhive.revokeMember at h
  rcases hg with hg | ⟨hn, doc, hd, rfl⟩
  · rw [if_pos (by rw [AMap.contains_iff, AMap.mem_keys_iff, hg]; exact fun h => by cases h)] at h
    unfold Keyhive.revokeFromGroup at h
    rw [hg] at h
    simp only at h
    split at h
    · cases h
    · split at h
      · cases h
      · rename_i ids _ _ g' revs dlgs heq
        refine ⟨_, g', revs, dlgs, heq, ?_⟩
        split at h
        · cases h
          exact ⟨.inl (AMap.get_insert_self _ _ _), rfl, rfl⟩
        · have hs := propagateRemoves_stores (E := E) (L := L) (gid := resource) (ids := ids)
            (AMap.keys ({ k.storeAll E revs dlgs with groups := AMap.insert k.groups resource g' } : Keyhive).docs)
            { k.storeAll E revs dlgs with groups := AMap.insert k.groups resource g' } []
          have hs' := propagateRemoves_groups (E := E) (L := L) (gid := resource) (ids := ids)
            (AMap.keys ({ k.storeAll E revs dlgs with groups := AMap.insert k.groups resource g' } : Keyhive).docs)
            { k.storeAll E revs dlgs with groups := AMap.insert k.groups resource g' } []
          rw [h] at hs hs'
          refine ⟨.inl ?_, hs.1, hs.2⟩
          rw [hs']
          exact AMap.get_insert_self _ _ _
  · rw [if_neg (by rw [AMap.contains_iff, AMap.mem_keys_iff, hn]; exact fun h => h rfl)] at h
    unfold Keyhive.revokeFromDoc at h
    rw [hd] at h
    simp only at h
    split at h
    · cases h
    · split at h
      · cases h
      · rename_i g' revs dlgs heq
        refine ⟨_, g', revs, dlgs, heq, ?_⟩
        have h0 : AMap.get (k.storeAll E revs dlgs).docs resource = some doc := by rw [(storeAll_docs revs dlgs k).1]; exact hd
        split at h
        · cases h
        · split at h
          · cases h
          · rename_i doc'' ops' hrm
            cases h
            refine ⟨.inr ⟨?_, doc'', ?_, ?_⟩, rfl, rfl⟩
            · show AMap.get (k.storeAll E revs dlgs).groups resource = none
              rw [(storeAll_docs revs dlgs k).2]; exact hn
            · rw [get_setDoc (d0 := { doc with group := g' }) (by rw [get_setDoc h0, if_pos rfl]), if_pos rfl]
            · have hgr := congrArg (fun p => p.1.group) hrm
              exact hgr.symm.trans removeCgkaMembers_group

theorem at_good {k : Keyhive} (hk : Reach E k) {resource : Id} {g : Group} (hg : At k resource g) : Good E resource g := by
  rcases hg with hg | ⟨_, doc, hd, rfl⟩
  · exact (reach_kept hk).groups hg
  · exact (reach_kept hk).docs hd

theorem recast_fields {a b : Dlg} (h : a.recast plainAgent = b.recast plainAgent) : a.issuer = b.issuer ∧ a.delegate.id = b.delegate.id ∧ a.can = b.can := by
  cases a <;> cases b <;> simp only [Dlg.recast, reduceCtorEq, Dlg.root.injEq, Dlg.link.injEq] at h
  · exact ⟨h.1, show (plainAgent _).id = (plainAgent _).id from congrArg Agent.id h.2.2.1, h.2.2.2.1⟩
  · exact ⟨h.1, show (plainAgent _).id = (plainAgent _).id from congrArg Agent.id h.2.2.1, h.2.2.2.1⟩

/-- C31 on a device, the flag: when `revoke_member` has removed a member from a group or document, the delegations that are new on the device are
from the device's own agent, and there are some only if the flag was set: one for each delegation that somebody other than the member had on the
strength of one to the member, to the same agent and with the same access.
Missing from the full property: that those granted again are members afterwards (`C30_fails`). -/
theorem C31_device_flag_partial (hE : E.NoClash) {k k' : Keyhive} (hk : Reach E k) {L : Local} (hL : Signs E L.sign) {resource member : Id} {retain : Bool}
    {ops : List SOp} (h : k.revokeMember E L resource member retain = (k', .ok ops)) {g : Group} (hg : At k resource g)
    (hm : ∃ d, g.MemberBy member d) :
    (∀ d, Keeps k' (.dlg d) → Keeps k (.dlg d) ∨ (retain = true ∧ d.issuer = k.reg.me ∧
      ∃ m e p, g.MemberBy m e ∧ m ≠ member ∧ e.proof = some p ∧ p.delegate.id = member ∧ e.delegate = d.delegate ∧ e.can = d.can)) ∧
    (retain = true → ∀ m e p, g.MemberBy m e → m ≠ member → e.proof = some p → p.delegate.id = member →
      ∃ d, Keeps k' (.dlg d) ∧ d.issuer = k.reg.me ∧ d.delegate.id = m ∧ d.can = e.can) := by
  obtain ⟨N, g', revs, dlgs, hr, hat, hd1, hr1⟩ := revoke_inside h hg
  have ht := (at_good hk hg).2.2.tidy
  obtain ⟨f1, f2, f3⟩ := Verif.Group.Props.C31_retain_partial ht hr hm
  have sf := storeAll_facts (E := E) revs dlgs k
  refine ⟨fun d hd => ?_, fun hret m e p hme hne hp hpm => ?_⟩
  · rw [keeps_iff] at hd ⊢
    rcases sf.2.2.2.2 _ (stored_of hd1 hr1 hd) with h1 | h1
    · exact .inl h1
    · have hmem : d ∈ dlgs := by
        unfold listed at h1
        rcases List.mem_append.1 h1 with h1 | h1
        · obtain ⟨r, _, hx⟩ := List.mem_map.1 h1; cases hx
        · obtain ⟨r, h2, hx⟩ := List.mem_map.1 h1; cases hx; exact h2
      cases hret : retain with
      | false => rw [f1 hret] at hmem; cases hmem
      | true =>
        obtain ⟨m, e, p, h2, h3, h4, h5, h6, h7⟩ := (f3 hret d.delegate d.can).1 ⟨d, hmem, rfl, rfl⟩
        refine .inr ⟨rfl, f2 d hmem, m, e, p, h2, ?_, h3, h4, h6, h7⟩
        rw [← ht.2.2 m e h2, h6]
        exact h5
  · obtain ⟨d, hd, hdd, hdc⟩ := (f3 hret e.delegate e.can).2 ⟨m, e, p, hme, hp, hpm, by rw [ht.2.2 m e hme]; exact hne, rfl, rfl⟩
    have hhas := (has_same hd1 hr1 (.dlg d)).2 (sf.2.2.2.1 (.dlg d) (List.mem_append_right _ (List.mem_map.2 ⟨d, hd, rfl⟩)))
    obtain ⟨d', hd'⟩ := Option.ne_none_iff_exists'.1 hhas
    have hok : StoreOk E k' := by
      have : k' = (k.revokeMember E L resource member retain).1 := by rw [h]
      rw [this]
      unfold Keyhive.revokeMember
      split
      · exact storeOk_revokeFromGroup (reach_storeOk hk) (reach_kept hk) hL _ _ _ _
      · exact storeOk_revokeFromDoc (reach_storeOk hk) (reach_kept hk) hL _ _ _ _
    have hsame := dlg_same hE _ _ (hok.dlg _ _ hd').1
    refine ⟨d', ⟨_, hd'⟩, ?_, ?_, ?_⟩
    · rw [(recast_fields hsame).1]; exact f2 d hd
    · rw [(recast_fields hsame).2.1, hdd]; exact ht.2.2 m e hme
    · rw [(recast_fields hsame).2.2]; exact hdc

open FleetSample

/-- Bob adds Carol to the team. -/
def kCarol : SDlg := ⟨2, 2002, 3, .edit, some (hashDlg kBob), [], []⟩
/-- Alice's device knows of the team. -/
noncomputable def team : Keyhive := feed Sample.E (Keyhive.start { regA with indies := [card 0, card 5, card 1, card 2, card 3] } [(⟨11⟩, 11)]) [.dlg kAlice, .dlg kBob, .dlg kCarol]
/-- Bob's delegation as the device has it. -/
def bobIn : Dlg := .link 1 1000 ⟨.individual, 2⟩ .admin (.root 200 200001 ⟨.active, 1⟩ .admin .nil []) .nil []
/-- Carol's. -/
def carolIn : Dlg := .link 2 2002 ⟨.individual, 3⟩ .edit bobIn .nil []

theorem team_has : (AMap.get team.groups 200).isSome = true := by decide +kernel
theorem team_revokes (b : Bool) : ∃ k', team.revokeMember Sample.E L 200 2 b = (k', .ok []) := by
  have h : (team.revokeMember Sample.E L 200 2 b).2 = .ok [] := by cases b <;> decide +kernel
  exact ⟨_, Prod.ext rfl h⟩

-- Alice removes Bob, who had added Carol, with the flag or without.
example (b : Bool) : Sample.E.NoClash ∧ Reach Sample.E team ∧ Signs Sample.E L.sign ∧ (∃ k', team.revokeMember Sample.E L 200 2 b = (k', .ok [])) ∧
    ∃ g, At team 200 g ∧ g.MemberBy 2 bobIn ∧ g.MemberBy 3 carolIn ∧ carolIn.proof = some bobIn ∧ bobIn.delegate.id = 2 := by
  refine ⟨E_noClash, reach_feed (.start _ _), sg_signs _, team_revokes b, (AMap.get team.groups 200).get team_has, .inl (by simp),
    ⟨[bobIn], by decide +kernel, by simp⟩, ⟨[carolIn], by decide +kernel, by simp⟩, rfl, rfl⟩

end Verif.Keyhive.RevokeProps
