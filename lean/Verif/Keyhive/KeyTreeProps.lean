import Verif.Keyhive.TreeLemmas
import Verif.Keyhive.NewDocLemmas
import Verif.Keyhive.LocalSample

/-!
# Property theorems: who is in the key tree of a document (C52)

`Behind W a j`: the individual `j` is the agent `a` or is reached from it through members of groups and documents.
-/

namespace Verif.Keyhive.KeyTreeProps

open Verif.Group Verif.Cgka Verif.BeeKem

variable {E : Env}

/-- C52 for a new document: its key tree consists of the document's own key and exactly the individuals behind its members, as the
device knows the groups at that time. Missing: two different kinds of agent behind one id. -/
theorem C52_new_document_partial {k k' : Keyhive} {L : Local} {S : Op → Option Nat} {did i : Id} {co : List Agent} {heads : List Nat}
    (hr : Reach E k) (hfresh : AMap.get k.world did = none) (h : k.generateDoc E L S did co heads = (k', .ok i))
    (hS : ∀ doc, AMap.get k'.docs did = some doc → Sound k'.world doc.group ∧
      ∀ d, Around k'.world doc.group d → d.delegate.id = k.reg.pub → d.delegate.isMembered = false) :
    i = did ∧ ∃ doc c, AMap.get k'.docs did = some doc ∧ doc.cgka = some c ∧
      ∀ j, c.tree.containsId j = true ↔ j = did ∨ ∃ m d, doc.group.MemberBy m d ∧ Behind k.world d.delegate j := by
  have hk := reach_kept hr
  unfold Keyhive.generateDoc at h
  split at h
  · cases h
  · rename_i g hg
    obtain ⟨s1, s2, s3⟩ := storeDlgs_same (E := E) (AMap.values g.dlgHeads) k
    have hgid : g.id = did := by
      obtain ⟨hs, rfl, _⟩ := generate_ok hg
      rfl
    have hw : ((AMap.values g.dlgHeads).foldl (Keyhive.storeDlg E) k).world = k.world := by unfold Keyhive.world; rw [s1, s2]
    simp only at h
    rw [hw] at h
    split at h
    · cases h
    · rename_i ms hms
      split at h
      · cases h
      · rename_i prekeys hpk
        split at h
        · cases h
        · rename_i c hc
          cases h
          have hget : AMap.get (Keyhive.insertDoc ((AMap.values g.dlgHeads).foldl (Keyhive.storeDlg E) k) ⟨g, heads, some c⟩).docs did =
              some ⟨g, heads, some c⟩ := by
            simp only [Keyhive.insertDoc, AMap.get_insert, hgid, if_true]
          obtain ⟨hsound', hpub⟩ := hS _ hget
          have hsound : Sound k.world g := sound_before (k' := Keyhive.insertDoc ((AMap.values g.dlgHeads).foldl (Keyhive.storeDlg E) k) ⟨g, heads, some c⟩)
            (d := ⟨g, heads, some c⟩) hfresh s1 (by simp only [Keyhive.insertDoc, s2, hgid]) hsound'
          refine ⟨hgid, _, c, hget, rfl, fun j => ?_⟩
          obtain ⟨t1, t2⟩ := transitive_spec hsound hms
          have hwf : AMap.WF ms := transitive_wf hms
          have hms' : ∀ p ∈ ms, p.2.1.id = p.1 ∧ ∃ links, Path k.world g p.2.1 links := by
            intro p hp
            obtain ⟨e, links, hl, _⟩ := t1 p.1 p.2.1 p.2.2 (AMap.get_of_mem hwf hp)
            exact ⟨e, links, hl⟩
          rw [newDocCgka_tree hc, ← show AMap.keys (prekeys.filter (fun p => decide (p.1 ≠ did))) =
            (prekeys.filter (fun p => decide (p.1 ≠ did))).map (·.1) from rfl]
          have hkeys : j ∈ AMap.keys prekeys ↔ ∃ p ∈ ms, Behind k.world p.2.1 j := by
            rw [pickForGroup_ids (E := E) ?_ ?_ hpk, hw]
            · simp [AMap.keys]
            · rw [hw]
              exact fun i h hh => (hk.tidy hh).1
            · intro p hp
              obtain ⟨e, links, hl⟩ := hms' p hp
              rw [hw, s3]
              refine ⟨e, oneKind_path hsound hl, fun hpp => ?_⟩
              obtain ⟨d, h1, h2⟩ := path_around hl
              rw [← h2]
              refine hpub d (around_before (k' := Keyhive.insertDoc ((AMap.values g.dlgHeads).foldl (Keyhive.storeDlg E) k) ⟨g, heads, some c⟩)
                (d := ⟨g, heads, some c⟩) hfresh s1 (by simp only [Keyhive.insertDoc, s2, hgid]) h1) ?_
              rw [h2, e, hpp]
          have hfil : j ∈ AMap.keys (prekeys.filter (fun p => decide (p.1 ≠ did))) ↔ j ≠ did ∧ j ∈ AMap.keys prekeys := by
            simp only [AMap.keys, List.mem_map, List.mem_filter, decide_eq_true_eq]
            constructor
            · rintro ⟨p, ⟨h1, h2⟩, rfl⟩; exact ⟨h2, p, h1, rfl⟩
            · rintro ⟨h2, p, h1, rfl⟩; exact ⟨p, ⟨h1, h2⟩, rfl⟩
          rw [hfil, hkeys]
          have hbe : (∃ p ∈ ms, Behind k.world p.2.1 j) → ∃ m d, g.MemberBy m d ∧ Behind k.world d.delegate j := by
            rintro ⟨p, hp, b, hb1, hb2⟩
            obtain ⟨_, links, hl⟩ := hms' p hp
            obtain ⟨l', hl'⟩ := path_walk (by rw [hgid]; exact hfresh) hl hb1
            obtain ⟨m, d, h1, h2⟩ := walk_path hl'
            exact ⟨m, d, h1, b, h2, hb2⟩
          constructor
          · rintro (h | ⟨_, h⟩)
            · exact .inl h
            · exact .inr (hbe h)
          · rintro (h | ⟨m, d, h1, b, h2, h3, rfl⟩)
            · exact .inl h
            · by_cases hj : b.id = did
              · exact .inl hj
              · refine .inr ⟨hj, ?_⟩
                obtain ⟨l', hl'⟩ := path_walk (by rw [hgid]; exact hfresh) (.direct h1) h2
                have hne := t2 b l' hl' (by rw [hgid]; exact hj)
                obtain ⟨⟨a, x⟩, hax⟩ := Option.ne_none_iff_exists'.1 hne
                obtain ⟨ea, la, hla, _⟩ := t1 b.id a x hax
                have : a = b := Trans.path_agree hsound hla hl' ea
                subst this
                exact ⟨_, AMap.mem_of_get hax, a, .refl, h3, rfl⟩

-- Agent 5 makes document 300 together with group 200.
open Sample in
example : Reach EL m1 ∧ AMap.get m1.world 300 = none ∧ isOk (m1.generateDoc EL L sg 300 [⟨.group, 200⟩] [1]).2 = true ∧
    (∀ doc, AMap.get (m1.generateDoc EL L sg 300 [⟨.group, 200⟩] [1]).1.docs 300 = some doc →
      Sound (m1.generateDoc EL L sg 300 [⟨.group, 200⟩] [1]).1.world doc.group ∧
      ∀ d, Around (m1.generateDoc EL L sg 300 [⟨.group, 200⟩] [1]).1.world doc.group d → d.delegate.id = m1.reg.pub → d.delegate.isMembered = false) ∧
    (treeOf (m1.generateDoc EL L sg 300 [⟨.group, 200⟩] [1]).1 300).map (fun c => AMap.keys c.tree.idToLeafIdx) = some [5, 300] := by
  have hr : Reach EL (m1.generateDoc EL L sg 300 [⟨.group, 200⟩] [1]).1 :=
    .call (.newDoc L sg 300 [⟨.group, 200⟩] [1]) reach_m1 ⟨sg_signs hcL, L_signs⟩
  refine ⟨reach_m1, by decide +kernel, by decide +kernel, fun doc h => ⟨neat_sound hr (a := ⟨.active, 5⟩) (by decide +kernel) h, ?_⟩, by decide +kernel⟩
  have hall : ∀ d ∈ allDlgs (m1.generateDoc EL L sg 300 [⟨.group, 200⟩] [1]).1, d.delegate.id = m1.reg.pub → d.delegate.isMembered = false := by
    decide +kernel
  intro d hd
  refine hall d ?_
  rcases hd with ⟨m, hm⟩ | ⟨i, g, m, h1, h2⟩
  · exact mem_allDlgs (i := 300) (by rw [get_world, h, show AMap.get (m1.generateDoc EL L sg 300 [⟨.group, 200⟩] [1]).1.groups 300 = none by decide +kernel]; rfl) hm
  · exact mem_allDlgs h1 h2

/-- C52 for a member added to a document whose key tree has nothing waiting to be replayed: if the access includes reading the tree
gains exactly the individuals behind the new member, otherwise it stays as it is. Missing: operations waiting (`C74_fails_for_add`). -/
theorem C52_add_to_document_partial {k k' : Keyhive} {L : Local} {did : Id} {who : Agent} {can : Access} {content : Content} {d : Dlg}
    {ops : List SOp} {doc : Doc} {c : Cgka} (hr : Reach E k) (hd : AMap.get k.docs did = some doc) (hc : doc.cgka = some c) (hcur : Current c)
    (h : k.addMemberToDoc E L did who can content = (k', .ok (d, ops))) (hK : OneKind k'.world who) :
    ∃ doc' c', AMap.get k'.docs did = some doc' ∧ doc'.cgka = some c' ∧ (can.isReader = false → c' = c) ∧
      (can.isReader = true → ∀ j, c'.tree.containsId j = true ↔ Behind k'.world who j ∨ c.tree.containsId j = true) := by
  have hk := reach_kept hr
  have hk' : Kept E k' := by
    have := kept_addToDoc hk L did who can content
    rw [h] at this
    exact this
  unfold Keyhive.addMemberToDoc at h
  rw [hd] at h
  simp only at h
  split at h
  · cases h
  · rename_i g' d' hadd
    have hg1 : AMap.get ((k.storeDlg E d').setDoc did { doc with group := g' }).docs did = some { doc with group := g' } := by
      rw [get_setDoc (k := k.storeDlg E d') hd, if_pos rfl]
    split at h
    · rename_i hread
      split at h
      · cases h
      · rename_i prekeys hpk
        split at h
        · cases h
        · rename_i doc'' ops' hm
          cases h
          have hwho : d.delegate = who := by
            obtain ⟨p, s, _, _, rfl, _⟩ := addMember_ok hadd
            cases p <;> rfl
          have hgrp : doc''.group = g' := by
            have := addCgkaMembers_group (H := E.hashCgka did) (sign := L.signCgka did) prekeys { doc with group := g' } []
            rw [hm] at this
            exact this
          have hw := world_setDoc (d := doc'') hg1 hgrp
          obtain ⟨c', b1, b2, b3⟩ := addCgkaMembers_tree (d := { doc with group := g' }) hc hcur hm
          refine ⟨doc'', c', by rw [get_setDoc hg1, if_pos rfl], b1, (by rw [hread]; intro h; cases h), fun _ j => ?_⟩
          rw [b3, pick_ids hw.symm (fun i h hh => (hk'.tidy hh).1) (by rw [hwho]; exact hK) hpk, hwho]
    · rename_i hread
      cases h
      exact ⟨_, c, hg1, hc, fun _ => rfl, fun h => absurd h hread⟩

-- Alice is added to the document as a reader, and taken out again.
open Sample in
example : Reach EL m2 ∧ Reach EL n3 ∧ (treeOf m2 300).any (fun c => decide (Current c) && !c.tree.containsId 1) = true ∧
    isOk (m2.addMemberToDoc EL L 300 ⟨.individual, 1⟩ .read []).2 = true ∧ OneKind n3.world ⟨.individual, 1⟩ ∧
    (treeOf n3 300).any (fun c => decide (Current c) && c.tree.containsId 1) = true :=
  ⟨reach_m2, reach_n3, by decide +kernel, by decide +kernel, neat_kind (by decide +kernel), by decide +kernel⟩

/-- C52 for a member revoked from a document whose key tree has nothing waiting to be replayed: the tree loses exactly the
individuals behind the revoked member that are not behind a remaining member. Missing: operations waiting (`C74_fails_for_remove`). -/
theorem C52_revoke_from_document_partial {k k' : Keyhive} {L : Local} {did member : Id} {retain : Bool} {content : Content} {ops : List SOp}
    {doc : Doc} {c : Cgka} (hr : Reach E k) (hd : AMap.get k.docs did = some doc) (hc : doc.cgka = some c) (hcur : Current c)
    (h : k.revokeFromDoc E L did member retain content = (k', .ok ops))
    (hK : ∀ d, doc.group.MemberBy member d → OneKind k.world d.delegate)
    (hK' : ∀ doc', AMap.get k'.docs did = some doc' → (∀ m d, doc'.group.MemberBy m d → OneKind k'.world d.delegate) ∧
      ∀ m d d', doc'.group.MemberBy m d → doc'.group.MemberBy m d' → d.delegate = d'.delegate) :
    ∃ doc' c', AMap.get k'.docs did = some doc' ∧ doc'.cgka = some c' ∧ ∀ j, c'.tree.containsId j = true ↔ c.tree.containsId j = true ∧
      ¬ ((∃ d, doc.group.MemberBy member d ∧ Behind k.world d.delegate j) ∧
        ¬ ∃ m d, doc'.group.MemberBy m d ∧ Behind k'.world d.delegate j) := by
  have hk := reach_kept hr
  have hk' : Kept E k' := by
    have := kept_revokeFromDoc hk L did member retain content
    rw [h] at this
    exact this
  unfold Keyhive.revokeFromDoc at h
  rw [hd] at h
  simp only at h
  split at h
  · cases h
  · rename_i ids hids
    split at h
    · cases h
    · rename_i g' revs dlgs hrev
      obtain ⟨s1, s2, _⟩ := storeAll_same (E := E) revs dlgs k
      have hd1 : AMap.get (k.storeAll E revs dlgs).docs did = some doc := by rw [s2]; exact hd
      have hg1 : AMap.get ((k.storeAll E revs dlgs).setDoc did { doc with group := g' }).docs did = some { doc with group := g' } := by
        rw [get_setDoc hd1, if_pos rfl]
      split at h
      · cases h
      · rename_i still hstill
        split at h
        · cases h
        · rename_i doc'' ops' hm
          cases h
          have hgrp : doc''.group = g' := by
            have := removeCgkaMembers_group (H := E.hashCgka did) (sign := L.signCgka did)
              (ids.filter (fun i => decide (i ∉ still))) { doc with group := g' } []
            rw [hm] at this
            exact this
          have hw := world_setDoc (d := doc'') hg1 hgrp
          have hfin : AMap.get (((k.storeAll E revs dlgs).setDoc did { doc with group := g' }).setDoc did doc'').docs did = some doc'' := by
            rw [get_setDoc hg1, if_pos rfl]
          obtain ⟨hK1, hK2⟩ := hK' doc'' hfin
          obtain ⟨c', b1, b2, b3⟩ := removeCgkaMembers_tree (d := { doc with group := g' }) hc hcur hm
          refine ⟨doc'', c', hfin, b1, fun j => ?_⟩
          rw [b3, List.mem_filter, decide_eq_true_eq]
          have e1 : j ∈ ids ↔ ∃ d, doc.group.MemberBy member d ∧ Behind k.world d.delegate j := by
            rw [idsBehind_spec (fun i h hh => (hk.tidy hh).1) ?_ hids]
            · simp only [List.not_mem_nil, false_or, List.mem_map]
              constructor
              · rintro ⟨a, ⟨d, h1, rfl⟩, h2⟩
                cases hg : AMap.get doc.group.members member with
                | none => rw [hg] at h1; cases h1
                | some ds => rw [hg] at h1; exact ⟨d, ⟨ds, hg, h1⟩, h2⟩
              · rintro ⟨d, ⟨ds, h1, h3⟩, h2⟩
                exact ⟨_, ⟨d, by rw [h1]; exact h3, rfl⟩, h2⟩
            · intro a ha
              obtain ⟨d, h1, rfl⟩ := List.mem_map.1 ha
              cases hg : AMap.get doc.group.members member with
              | none => rw [hg] at h1; cases h1
              | some ds => rw [hg] at h1; exact hK d ⟨ds, hg, h1⟩
          have htidy : g'.Tidy := by rw [← hgrp]; exact (hk'.docs hfin).2.2.tidy
          have hmem : ∀ a, a ∈ (AMap.values g'.members).filterMap (fun ds => ds.head?.map Dlg.delegate) →
              ∃ m d, g'.MemberBy m d ∧ d.delegate = a := by
            intro a ha
            obtain ⟨ds, h1, h2⟩ := List.mem_filterMap.1 ha
            obtain ⟨p, h3, rfl⟩ := List.mem_map.1 h1
            obtain ⟨d, h4, h5⟩ := Option.map_eq_some_iff.1 h2
            exact ⟨p.1, d, ⟨p.2, AMap.get_of_mem htidy.1 h3, List.mem_of_mem_head? h4⟩, h5⟩
          have e2 : j ∈ still ↔ ∃ m d, doc''.group.MemberBy m d ∧
              Behind (((k.storeAll E revs dlgs).setDoc did { doc with group := g' }).setDoc did doc'').world d.delegate j := by
            rw [hgrp]
            rw [hgrp] at hK1 hK2
            unfold groupIndividualIds at hstill
            rw [← hw] at hstill
            rw [idsBehind_spec (fun i h hh => (hk'.tidy hh).1) ?_ hstill]
            · simp only [List.not_mem_nil, false_or]
              constructor
              · rintro ⟨a, h1, h2⟩
                obtain ⟨m, d, h3, rfl⟩ := hmem a h1
                exact ⟨m, d, h3, h2⟩
              · rintro ⟨m, d, ⟨ds, h1, h3⟩, h2⟩
                cases ds with
                | nil => cases h3
                | cons d0 ds =>
                  have he : d.delegate = d0.delegate := hK2 m d d0 ⟨_, h1, h3⟩ ⟨_, h1, by simp⟩
                  refine ⟨d0.delegate, List.mem_filterMap.2 ⟨d0 :: ds, List.mem_map.2 ⟨(m, d0 :: ds), AMap.mem_of_get h1, rfl⟩, rfl⟩, ?_⟩
                  rw [← he]
                  exact h2
            · intro a ha
              obtain ⟨m, d, h1, rfl⟩ := hmem a ha
              exact hK1 m d h1
          rw [e1, e2]
          exact ⟨fun h => ⟨h.2, h.1⟩, fun h => ⟨h.2, h.1⟩⟩

open Sample in
example : Reach EL n3 ∧ (treeOf n3 300).any (fun c => decide (Current c) && c.tree.containsId 1) = true ∧
    isOk (n3.revokeFromDoc EL L 300 1 true []).2 = true ∧ OneKind n3.world ⟨.individual, 1⟩ ∧
    (∀ i doc, AMap.get (n3.revokeFromDoc EL L 300 1 true []).1.docs i = some doc → Sound (n3.revokeFromDoc EL L 300 1 true []).1.world doc.group) ∧
    (treeOf (n3.revokeFromDoc EL L 300 1 true []).1 300).any (fun c => !c.tree.containsId 1) = true :=
  ⟨reach_n3, by decide +kernel, by decide +kernel, neat_kind (by decide +kernel),
    fun _ _ h => neat_sound (.call (.revokeFromDoc L 300 1 true []) reach_n3 L_signs) (a := ⟨.individual, 1⟩) (by decide +kernel) h, by decide +kernel⟩

theorem addToGroup_trees {k k' : Keyhive} {L : Local} {gid : Id} {who : Agent} {can : Access} {content : Content} {d : Dlg}
    {ops : List SOp} (hk : Kept E k) (hno : AMap.get k.docs gid = none) (h : k.addMemberToGroup E L gid who can content = (k', .ok (d, ops)))
    (hS : ∀ i doc, AMap.get k'.docs i = some doc → Sound k'.world doc.group) (hK : OneKind k'.world who)
    {i : Id} {doc : Doc} {c : Cgka} (hd : AMap.get k.docs i = some doc) (hc : doc.cgka = some c) (hcur : Current c) :
    ∃ doc' c', AMap.get k'.docs i = some doc' ∧ doc'.cgka = some c' ∧ ∀ j, c'.tree.containsId j = true ↔
      c.tree.containsId j = true ∨ (can.isReader = true ∧ Within k'.world doc.group gid ∧ Behind k'.world who j) := by
  unfold Keyhive.addMemberToGroup at h
  split at h
  · cases h
  · rename_i g hg
    split at h
    · cases h
    · rename_i g' d' hadd
      have h1 : Kept E { k.storeDlg E d' with groups := AMap.insert k.groups gid g' } := hk.insertGroup ((hk.groups hg).add hadd) rfl rfl
      have hwho : d'.delegate = who := by
        obtain ⟨p, s, _, _, rfl, _⟩ := addMember_ok hadd
        cases p <;> rfl
      simp only at h
      split at h
      · rename_i hread
        split at h
        · cases h
        · rename_i k2 ops2 hp
          cases h
          have hn : gid ∉ AMap.keys k.docs := by rw [AMap.mem_keys_iff]; simpa using hno
          have hpre : SameGroups { k.storeDlg E d with groups := AMap.insert k.groups gid g' } k' := by
            have key : ∀ (dids : List Id) (k k' : Keyhive) (acc ops : List SOp), k.propagateAdds E L gid d.delegate dids acc = (k', .ok ops) →
                SameGroups k k' := by
              intro dids
              induction dids with
              | nil => intro k k' acc ops h; cases h; exact .refl k
              | cons did dids ih =>
                intro k k' acc ops h
                unfold Keyhive.propagateAdds at h
                split at h
                · cases h
                · rename_i k1 ops1 hk1
                  refine SameGroups.trans ?_ (ih _ _ _ _ h)
                  unfold Keyhive.propagateAdd at hk1
                  split at hk1
                  · cases hk1; exact .refl _
                  · rename_i doc hd
                    split at hk1
                    · cases hk1
                    · split at hk1
                      · cases hk1; exact .refl _
                      · split at hk1
                        · cases hk1
                        · rename_i prekeys _
                          split at hk1
                          · cases hk1
                          · rename_i doc' ops' hadd
                            cases hk1
                            have hg : doc'.group = doc.group := by
                              have := addCgkaMembers_group (H := E.hashCgka did) (sign := L.signCgka did) prekeys doc []
                              rw [hadd] at this
                              exact this
                            exact .setDoc hd hg
            exact key _ _ _ _ _ hp
          rw [hpre.world] at hS hK ⊢
          have hS' : ∀ i doc, AMap.get ({ k.storeDlg E d with groups := AMap.insert k.groups gid g' } : Keyhive).docs i = some doc →
              Sound ({ k.storeDlg E d with groups := AMap.insert k.groups gid g' } : Keyhive).world doc.group := by
            intro i doc hd
            obtain ⟨doc', h2, h3⟩ := hpre.doc hd
            rw [← h3]
            exact hS i doc' h2
          obtain ⟨_, hgain⟩ := propagateAdds_spec h1 hS' (by rw [hwho]; exact hK) hn hp
          obtain ⟨doc', c', a1, a2, _, a4⟩ := hgain i doc c hd hc hcur
          refine ⟨doc', c', a1, a2, fun j => ?_⟩
          rw [a4, hwho]
          constructor
          · rintro (⟨_, ⟨doc2, h5, h6⟩, h7⟩ | h5)
            · have : some doc2 = some doc := h5.symm.trans hd
              cases this
              exact .inr ⟨hread, h6, h7⟩
            · exact .inl h5
          · rintro (h5 | ⟨_, h6, h7⟩)
            · exact .inr h5
            · refine .inl ⟨?_, ⟨doc, hd, h6⟩, h7⟩
              exact (AMap.mem_keys_iff _ _).2 (by show AMap.get k.docs i ≠ none; rw [hd]; simp)
      · rename_i hread
        cases h
        exact ⟨doc, c, hd, hc, fun j => by simp [hread]⟩

/-- C52 for a member added to a group: every document with nothing waiting to be replayed gains exactly the individuals behind the
new member if the access includes reading and the group is among the members of the document, and nobody otherwise.
Missing: operations waiting, and memberships through which reading is not granted (`C52_fails`). -/
theorem C52_add_to_group_partial {k k' : Keyhive} {L : Local} {gid : Id} {who : Agent} {can : Access} {content : Content} {d : Dlg}
    {ops : List SOp} (hr : Reach E k) (hno : AMap.get k.docs gid = none) (h : k.addMemberToGroup E L gid who can content = (k', .ok (d, ops)))
    (hS : ∀ i doc, AMap.get k'.docs i = some doc → Sound k'.world doc.group) (hK : OneKind k'.world who)
    {i : Id} {doc : Doc} {c : Cgka} (hd : AMap.get k.docs i = some doc) (hc : doc.cgka = some c) (hcur : Current c) :
    ∃ doc' c', AMap.get k'.docs i = some doc' ∧ doc'.cgka = some c' ∧ ∀ j, c'.tree.containsId j = true ↔
      c.tree.containsId j = true ∨ (can.isReader = true ∧ Within k'.world doc.group gid ∧ Behind k'.world who j) :=
  addToGroup_trees (reach_kept hr) hno h hS hK hd hc hcur

open Sample in
example : Reach EL m3 ∧ AMap.get m3.docs 200 = none ∧ isOk (m3.addMemberToGroup EL L 200 ⟨.individual, 1⟩ .read []).2 = true ∧
    (∀ i doc, AMap.get m4.docs i = some doc → Sound m4.world doc.group) ∧ OneKind m4.world ⟨.individual, 1⟩ ∧
    (treeOf m3 300).any (fun c => decide (Current c) && !c.tree.containsId 1) = true ∧
    (treeOf m4 300).any (fun c => c.tree.containsId 1) = true :=
  ⟨reach_m3, by decide +kernel, by decide +kernel, fun _ _ h => neat_sound reach_m4 (a := ⟨.individual, 1⟩) (by decide +kernel) h,
    neat_kind (by decide +kernel), by decide +kernel, by decide +kernel⟩

/-- C52 for a member revoked from a group, one half: a document with nothing waiting to be replayed loses nobody but individuals that
were behind the revoked member of a group within the document, and that are no longer among its members, directly or through others.
Missing: operations waiting; that these are lost is `LostProps.C52_revoke_from_group_lost_partial`. -/
theorem C52_revoke_from_group_partial {k k' : Keyhive} {L : Local} {gid member : Id} {retain : Bool} {content : Content} {ops : List SOp}
    {g : Group} (hr : Reach E k) (hno : AMap.get k.docs gid = none) (hg : AMap.get k.groups gid = some g)
    (h : k.revokeFromGroup E L gid member retain content = (k', .ok ops))
    (hK : ∀ d, g.MemberBy member d → OneKind k.world d.delegate)
    (hS : ∀ i doc, AMap.get k'.docs i = some doc → Sound k'.world doc.group)
    {i : Id} {doc : Doc} {c : Cgka} (hd : AMap.get k.docs i = some doc) (hc : doc.cgka = some c) (hcur : Current c) :
    ∃ doc' c', AMap.get k'.docs i = some doc' ∧ doc'.cgka = some c' ∧ (∀ j, c'.tree.containsId j = true → c.tree.containsId j = true) ∧
      ∀ j, c.tree.containsId j = true → c'.tree.containsId j = false →
        (∃ d, g.MemberBy member d ∧ Behind k.world d.delegate j) ∧ Within k'.world doc.group gid ∧
        (j ≠ i → ¬ ∃ b links, Path k'.world doc.group b links ∧ b.isMembered = false ∧ b.id = j) := by
  have hk := reach_kept hr
  unfold Keyhive.revokeFromGroup at h
  rw [hg] at h
  simp only at h
  split at h
  · cases h
  · rename_i ids hids
    split at h
    · cases h
    · rename_i g' revs dlgs hrev
      obtain ⟨s1, s2, _⟩ := storeAll_same (E := E) revs dlgs k
      have hgood : Good E gid g' := by
        have := (hk.groups hg).revoke (membersOf k.world [gid]) L.sign member retain k.reg.me content
        rw [hrev] at this
        exact this
      have h1 : Kept E { k.storeAll E revs dlgs with groups := AMap.insert k.groups gid g' } := hk.insertGroup hgood rfl s2
      have hd1 : AMap.get ({ k.storeAll E revs dlgs with groups := AMap.insert k.groups gid g' } : Keyhive).docs i = some doc := by
        show AMap.get (k.storeAll E revs dlgs).docs i = some doc
        rw [s2]
        exact hd
      split at h
      · cases h
        exact ⟨doc, c, hd1, hc, fun _ h => h, fun j h1 h2 => by rw [h1] at h2; cases h2⟩
      · have hn : gid ∉ AMap.keys ({ k.storeAll E revs dlgs with groups := AMap.insert k.groups gid g' } : Keyhive).docs := by
          show gid ∉ AMap.keys (k.storeAll E revs dlgs).docs
          rw [s2, AMap.mem_keys_iff]
          simpa using hno
        have hpre : SameGroups { k.storeAll E revs dlgs with groups := AMap.insert k.groups gid g' } k' := by
          have key : ∀ (dids : List Id) (k k' : Keyhive) (acc ops : List SOp), k.propagateRemoves E L gid ids dids acc = (k', .ok ops) →
              SameGroups k k' := by
            intro dids
            induction dids with
            | nil => intro k k' acc ops h; cases h; exact .refl k
            | cons did dids ih =>
              intro k k' acc ops h
              unfold Keyhive.propagateRemoves at h
              split at h
              · cases h
              · rename_i k1 ops1 hk1
                refine SameGroups.trans ?_ (ih _ _ _ _ h)
                unfold Keyhive.propagateRemove at hk1
                split at hk1
                · cases hk1; exact .refl _
                · rename_i doc hd
                  split at hk1
                  · cases hk1
                  · split at hk1
                    · cases hk1; exact .refl _
                    · cases hk1
                      exact .setDoc hd (dropCgkaMembers_group _ doc [])
          exact key _ _ _ _ _ h
        rw [hpre.world] at hS ⊢
        have hS' : ∀ i doc, AMap.get ({ k.storeAll E revs dlgs with groups := AMap.insert k.groups gid g' } : Keyhive).docs i = some doc →
            Sound ({ k.storeAll E revs dlgs with groups := AMap.insert k.groups gid g' } : Keyhive).world doc.group := by
          intro i doc hd
          obtain ⟨doc', h2, h3⟩ := hpre.doc hd
          rw [← h3]
          exact hS i doc' h2
        obtain ⟨_, hlose⟩ := propagateRemoves_spec h1 hS' hn h
        obtain ⟨doc', c', a1, a2, _, a4, a5⟩ := hlose i doc c hd1 hc hcur
        refine ⟨doc', c', a1, a2, a4, fun j hj hj' => ?_⟩
        by_cases hq : j ∈ ids ∧ ∃ d, AMap.get ({ k.storeAll E revs dlgs with groups := AMap.insert k.groups gid g' } : Keyhive).docs i = some d ∧
            Within ({ k.storeAll E revs dlgs with groups := AMap.insert k.groups gid g' } : Keyhive).world d.group gid ∧
            (j ≠ i → ¬ ∃ b links, Path ({ k.storeAll E revs dlgs with groups := AMap.insert k.groups gid g' } : Keyhive).world d.group b links ∧
              b.isMembered = false ∧ b.id = j)
        · obtain ⟨q1, d2, q2, q3, q4⟩ := hq
          rw [hd1] at q2
          cases q2
          refine ⟨?_, q3, q4⟩
          have := (idsBehind_spec (fun i h hh => (hk.tidy hh).1) ?_ hids j).1 q1
          · simp only [List.not_mem_nil, false_or, List.mem_map] at this
            obtain ⟨a, ⟨d, h1, rfl⟩, h2⟩ := this
            cases hg2 : AMap.get g.members member with
            | none => rw [hg2] at h1; cases h1
            | some ds => rw [hg2] at h1; exact ⟨d, ⟨ds, hg2, h1⟩, h2⟩
          · intro a ha
            obtain ⟨d, h1, rfl⟩ := List.mem_map.1 ha
            cases hg2 : AMap.get g.members member with
            | none => rw [hg2] at h1; cases h1
            | some ds => rw [hg2] at h1; exact hK d ⟨ds, hg2, h1⟩
        · rw [a5 j hq hj] at hj'
          cases hj'

open Sample in
example : Reach EL m4 ∧ AMap.get m4.docs 200 = none ∧ isOk (m4.revokeFromGroup EL L 200 1 true []).2 = true ∧
    (∀ i doc, AMap.get (m4.revokeFromGroup EL L 200 1 true []).1.docs i = some doc →
      Sound (m4.revokeFromGroup EL L 200 1 true []).1.world doc.group) ∧ OneKind m4.world ⟨.individual, 1⟩ ∧
    (treeOf m4 300).any (fun c => decide (Current c) && c.tree.containsId 1) = true ∧
    (treeOf (m4.revokeFromGroup EL L 200 1 true []).1 300).any (fun c => !c.tree.containsId 1) = true :=
  ⟨reach_m4, by decide +kernel, by decide +kernel,
    fun _ _ h => neat_sound (.call (.revokeFromGroup L 200 1 true []) reach_m4 L_signs) (a := ⟨.individual, 1⟩) (by decide +kernel) h,
    neat_kind (by decide +kernel), by decide +kernel, by decide +kernel⟩

open Sample in
/-- C52 fails for groups that are members without reading: the group may only relay the document. Adding a reading member to the group
puts that member into the key tree of the document. -/
theorem C52_fails : ∃ E k doc c tm, Reach E k ∧ E.NoClash ∧ AMap.get k.docs 300 = some doc ∧ doc.cgka = some c ∧
    c.tree.containsId 1 = true ∧ transitiveMembers k.world [300] doc.group = .ok tm ∧ AMap.get tm 1 = some (⟨.individual, 1⟩, .relay) := by
  have h : (match AMap.get m4.docs 300 with
    | none => false
    | some doc => match doc.cgka with
      | none => false
      | some c => match transitiveMembers m4.world [300] doc.group with
        | .error _ => false
        | .ok tm => c.tree.containsId 1 && decide (AMap.get tm 1 = some (⟨.individual, 1⟩, .relay))) = true := by decide +kernel
  split at h
  · cases h
  · rename_i doc hd
    split at h
    · cases h
    · rename_i c hc
      split at h
      · cases h
      · rename_i tm ht
        rw [Bool.and_eq_true, decide_eq_true_eq] at h
        exact ⟨EL, m4, doc, c, tm, reach_m4, EL_noClash, hd, hc, h.1, ht, h.2⟩

end Verif.Keyhive.KeyTreeProps
