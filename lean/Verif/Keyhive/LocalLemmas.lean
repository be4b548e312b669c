import Verif.Keyhive.GroupsLemmas

/-! # What local calls put into the stores -/

namespace Verif.Keyhive

open Verif.Group Verif.Cgka Verif.BeeKem

variable {E : Env}

theorem withSig_dlg (i s s' : Nat) (a : Agent) (c : Access) (p : Option Dlg) (rs : List Rev) (x : Content) :
    withSig s (.dlg (.mk i s' a c p rs x)) = .dlg (.mk i s a c p rs x) := by cases p <;> rfl

theorem withSig_rev (i s s' : Nat) (d : Dlg) (p : Option Dlg) (x : Content) :
    withSig s (.rev (.mk i s' d p x)) = .rev (.mk i s d p x) := by cases p <;> rfl

variable {H : Op → Nat} {N : Nested} {S : Op → Option Nat}

theorem addMember_valid (hS : Signs E S) {g g' : Group} {who : Agent} {can : Access} {signer : Id} {content : Content} {d : Dlg}
    (h : g.addMember H N S who can signer content = .ok (g', d)) : E.validDlg (E.sdlg d) = true := by
  simp only [Group.addMember, bind, Except.bind] at h
  split at h
  · cases h
  · rename_i p hp
    split at h
    · cases h
    · rename_i s hs
      split at h
      · cases h
      · simp only [pure, Except.pure, Except.ok.injEq, Prod.mk.injEq] at h
        have := hS _ _ hs
        rw [withSig_dlg] at this
        rw [← h.2]
        exact this

theorem issueRevocation_valid (hS : Signs E S) {g g' : Group} {signer : Id} {revoke : Dlg} {proof : Option Dlg} {content : Content}
    {r : Rev} (h : g.issueRevocation H N S signer revoke proof content = .ok (g', r)) : E.validRev (E.srev r) = true := by
  simp only [Group.issueRevocation, bind, Except.bind] at h
  split at h
  · cases h
  · rename_i s hs
    split at h
    · cases h
    · simp only [pure, Except.pure, Except.ok.injEq, Prod.mk.injEq] at h
      have := hS _ _ hs
      rw [withSig_rev] at this
      rw [← h.2]
      exact this

theorem issueAll_valid (hS : Signs E S) {signer : Id} {revoke : Dlg} {content : Content} : ∀ {ps : List (Option Dlg)} {g g' : Group}
    {done revs : List Rev}, (∀ r ∈ done, E.validRev (E.srev r) = true) →
    Group.issueAll H N S signer revoke content g ps done = (g', .ok revs) → ∀ r ∈ revs, E.validRev (E.srev r) = true := by
  intro ps
  induction ps with
  | nil => intro g g' done revs hd h; cases h; exact hd
  | cons p ps ih =>
    intro g g' done revs hd h
    unfold Group.issueAll at h
    split at h
    · cases h
    · rename_i g1 r hr
      refine ih ?_ h
      intro r' hr'
      rcases List.mem_append.1 hr' with h1 | h1
      · exact hd r' h1
      · rw [List.mem_singleton.1 h1]; exact issueRevocation_valid hS hr

theorem revokeEach_valid (hS : Signs E S) {member signer : Id} {content : Content} : ∀ {ds : List Dlg} {g g' : Group}
    {done revs : List Rev}, (∀ r ∈ done, E.validRev (E.srev r) = true) →
    Group.revokeEach H N S member signer content g ds done = (g', .ok revs) → ∀ r ∈ revs, E.validRev (E.srev r) = true := by
  intro ds
  induction ds with
  | nil => intro g g' done revs hd h; cases h; exact hd
  | cons d ds ih =>
    intro g g' done revs hd h
    unfold Group.revokeEach at h
    simp only at h
    split at h
    · cases h
    · rename_i g1 done1 hr
      refine ih ?_ h
      split at hr
      · exact issueAll_valid hS hd hr
      · unfold Group.revokeOne at hr
        split at hr
        · split at hr
          · cases hr
          · cases hr
          · exact issueAll_valid hS hd hr
        · exact issueAll_valid hS hd hr

theorem redelegate_valid (hS : Signs E S) {member signer : Id} {content : Content} : ∀ {ds : List Dlg} {g g' : Group}
    {done dlgs : List Dlg}, (∀ d ∈ done, E.validDlg (E.sdlg d) = true) →
    Group.redelegate H N S member signer content g ds done = (g', .ok dlgs) → ∀ d ∈ dlgs, E.validDlg (E.sdlg d) = true := by
  intro ds
  induction ds with
  | nil => intro g g' done revs hd h; cases h; exact hd
  | cons d ds ih =>
    intro g g' done revs hd h
    unfold Group.redelegate at h
    split at h
    · exact ih hd h
    · split at h
      · exact ih hd h
      · split at h
        · split at h
          · cases h
          · rename_i g1 d' ha
            refine ih ?_ h
            intro r' hr'
            rcases List.mem_append.1 hr' with h1 | h1
            · exact hd r' h1
            · rw [List.mem_singleton.1 h1]; exact addMember_valid hS ha
        · exact ih hd h

theorem revokeMember_valid (hS : Signs E S) {g g' : Group} {member : Id} {retain : Bool} {signer : Id} {content : Content}
    {revs : List Rev} {dlgs : List Dlg} (h : g.revokeMember H N S member retain signer content = (g', .ok (revs, dlgs))) :
    (∀ r ∈ revs, E.validRev (E.srev r) = true) ∧ ∀ d ∈ dlgs, E.validDlg (E.sdlg d) = true := by
  unfold Group.revokeMember at h
  split at h
  · cases h; simp
  · simp only at h
    split at h
    · cases h
    · rename_i hr
      have h1 := revokeEach_valid hS (by simp) hr
      split at h
      · split at h
        · cases h
        · rename_i hd
          cases h
          exact ⟨h1, redelegate_valid hS (by simp) hd⟩
      · cases h
        exact ⟨h1, by simp⟩

theorem genHead_valid (hS : Signs E S) {id : Id} {content : Content} {acc acc' : CaMap Nat Dlg} {a : Agent}
    (hacc : ∀ d ∈ AMap.values acc, E.validDlg (E.sdlg d) = true) (h : Group.genHead H S id content acc a = .ok acc') :
    ∀ d ∈ AMap.values acc', E.validDlg (E.sdlg d) = true := by
  unfold Group.genHead at h
  split at h
  · cases h
  · rename_i s hs
    cases h
    have hv := hS _ _ hs
    rw [withSig_dlg] at hv
    intro d hd
    simp only [CaMap.insert, AMap.insert, AMap.values, AMap.erase, List.map_cons, List.mem_cons, List.mem_map, List.mem_filter] at hd
    rcases hd with h1 | ⟨p, ⟨h1, _⟩, h2⟩
    · rw [h1]; exact hv
    · rw [← h2]; exact hacc p.2 (List.mem_map.2 ⟨p, h1, rfl⟩)

theorem generate_valid (hS : Signs E S) {id : Id} {parents : List Agent} {content : Content} {g : Group}
    (h : Group.generate H S id parents content = .ok g) : ∀ d ∈ AMap.values g.dlgHeads, E.validDlg (E.sdlg d) = true := by
  have key : ∀ (ps : List Agent) (acc heads : CaMap Nat Dlg), (∀ d ∈ AMap.values acc, E.validDlg (E.sdlg d) = true) →
      ps.foldlM (Group.genHead H S id content) acc = .ok heads → ∀ d ∈ AMap.values heads, E.validDlg (E.sdlg d) = true := by
    intro ps
    induction ps with
    | nil => intro acc heads hacc he; simp only [List.foldlM, pure, Except.pure, Except.ok.injEq] at he; subst he; exact hacc
    | cons a ps ih =>
      intro acc heads hacc he
      simp only [List.foldlM, bind, Except.bind] at he
      split at he
      · cases he
      · rename_i acc' ha
        exact ih acc' heads (genHead_valid hS hacc ha) he
  simp only [Group.generate, bind, Except.bind, pure, Except.pure] at h
  split at h
  · cases h
  · rename_i heads hh
    cases h
    exact key parents [] heads (by simp [AMap.values]) hh

/-! ## The calls -/

theorem storeOk_setDoc {k : Keyhive} (h : StoreOk E k) (id : Id) (d : Doc) : StoreOk E (k.setDoc id d) := h.same rfl rfl

theorem storeOk_newGroup {k : Keyhive} (h : StoreOk E k) (hS : Signs E S) (gid : Id) (co : List Agent) :
    StoreOk E (k.generateGroup E S gid co).1 := by
  unfold Keyhive.generateGroup
  split
  · exact h
  · rename_i g hg
    exact (h.storeDlgs (generate_valid hS hg)).same rfl rfl

theorem storeOk_newDoc {k : Keyhive} (h : StoreOk E k) (L : Local) (hS : Signs E S) (did : Id) (co : List Agent) (heads : List Nat) :
    StoreOk E (k.generateDoc E L S did co heads).1 := by
  unfold Keyhive.generateDoc
  split
  · exact h
  · rename_i g hg
    have := h.storeDlgs (generate_valid hS hg)
    simp only
    repeat' split
    · exact this
    · exact this
    · exact this
    · exact this.same rfl rfl

theorem storeOk_addToDoc {k : Keyhive} (h : StoreOk E k) {L : Local} (hL : Signs E L.sign) (did : Id) (who : Agent) (can : Access)
    (content : Content) : StoreOk E (k.addMemberToDoc E L did who can content).1 := by
  unfold Keyhive.addMemberToDoc
  split
  · exact h
  · split
    · exact h
    · rename_i g' d hg
      have := h.storeDlg (addMember_valid hL hg)
      simp only
      repeat' split
      all_goals first
        | exact this
        | exact this.same rfl rfl

theorem storeOk_propagateAdds {L : Local} {gid : Id} {who : Agent} : ∀ {dids : List Id} {k : Keyhive} {acc : List SOp},
    StoreOk E k → StoreOk E (Keyhive.propagateAdds E L gid who k dids acc).1 := by
  intro dids
  induction dids with
  | nil => intro k acc h; exact h
  | cons did dids ih =>
    intro k acc h
    have h1 : StoreOk E (k.propagateAdd E L gid who did).1 := by
      unfold Keyhive.propagateAdd
      repeat' split
      all_goals first
        | exact h
        | exact h.same rfl rfl
    unfold Keyhive.propagateAdds
    split
    · rename_i heq; rw [heq] at h1; exact h1
    · rename_i heq; rw [heq] at h1; exact ih h1

theorem storeOk_addToGroup {k : Keyhive} (h : StoreOk E k) {L : Local} (hL : Signs E L.sign) (gid : Id) (who : Agent) (can : Access)
    (content : Content) : StoreOk E (k.addMemberToGroup E L gid who can content).1 := by
  unfold Keyhive.addMemberToGroup
  split
  · exact h
  · split
    · exact h
    · rename_i g _ g' d hg
      have h1 : StoreOk E { k.storeDlg E d with groups := AMap.insert k.groups gid g' } :=
        (h.storeDlg (addMember_valid hL hg)).same rfl rfl
      simp only
      split
      · have h2 := storeOk_propagateAdds (E := E) (L := L) (gid := gid) (who := d.delegate)
          (dids := AMap.keys ({ k.storeDlg E d with groups := AMap.insert k.groups gid g' } : Keyhive).docs) (acc := []) h1
        split
        · rename_i heq; rw [heq] at h2; exact h2
        · rename_i heq; rw [heq] at h2; exact h2
      · exact h1

theorem storeOk_storeAll {k : Keyhive} (h : StoreOk E k) {revs : List Rev} {dlgs : List Dlg}
    (hr : ∀ r ∈ revs, E.validRev (E.srev r) = true) (hd : ∀ d ∈ dlgs, E.validDlg (E.sdlg d) = true) :
    StoreOk E (k.storeAll E revs dlgs) := (h.storeRevs hr).storeDlgs hd

theorem makes (hS : Signs E S) : Makes S (fun o => E.validOp o = true) :=
  ⟨fun i s a c p rs x h => by have := hS _ _ h; rwa [withSig_dlg] at this,
   fun i s d p x h => by have := hS _ _ h; rwa [withSig_rev] at this⟩

theorem storeOk_storeNew {k : Keyhive} (h : StoreOk E k) (hS : Signs E S) {i : Id} {g g' : Group} (hg : Good E i g) {member : Id}
    {retain : Bool} {signer : Id} {content : Content} {out : Except Group.Err (List Rev × List Dlg)}
    (hr : g.revokeMember E.opDigest N S member retain signer content = (g', out)) : StoreOk E (k.storeNew E g g') := by
  obtain ⟨l, h1, -⟩ := revokeMember_issued (N := N) (makes hS) hg.2.1 hg.2.2 member retain signer content
  rw [hr] at h1
  have key : ∀ o ∈ g.newOps g', E.validOp o = true := by
    intro o ho
    obtain ⟨h2, h3⟩ := Group.mem_newOps.1 ho
    exact h1.track.good o ((h1.track.held o h2).resolve_left h3)
  refine storeOk_storeAll h ?_ ?_
  · intro r hr
    obtain ⟨o, ho, he⟩ := List.mem_filterMap.1 hr
    cases o <;> cases he
    exact key _ ho
  · intro r hr
    obtain ⟨o, ho, he⟩ := List.mem_filterMap.1 hr
    cases o <;> cases he
    exact key _ ho

theorem storeOk_revokeFromDoc {k : Keyhive} (h : StoreOk E k) (hk : Kept E k) {L : Local} (hL : Signs E L.sign) (did member : Id) (retain : Bool)
    (content : Content) : StoreOk E (k.revokeFromDoc E L did member retain content).1 := by
  unfold Keyhive.revokeFromDoc
  split
  · exact h
  · rename_i doc hdoc
    split
    · exact h
    · split
      · rename_i hg
        exact (storeOk_storeNew h hL (hk.docs hdoc) hg).same rfl rfl
      · rename_i hg
        obtain ⟨h1, h2⟩ := revokeMember_valid hL hg
        have := storeOk_storeAll h h1 h2
        simp only
        repeat' split
        all_goals exact this.same rfl rfl

theorem storeOk_propagateRemoves {L : Local} {gid : Id} {ids : List Id} : ∀ {dids : List Id} {k : Keyhive} {acc : List SOp},
    StoreOk E k → StoreOk E (Keyhive.propagateRemoves E L gid ids k dids acc).1 := by
  intro dids
  induction dids with
  | nil => intro k acc h; exact h
  | cons did dids ih =>
    intro k acc h
    have h1 : StoreOk E (k.propagateRemove E L gid ids did).1 := by
      unfold Keyhive.propagateRemove
      repeat' split
      all_goals first
        | exact h
        | exact h.same rfl rfl
    unfold Keyhive.propagateRemoves
    split
    · rename_i heq; rw [heq] at h1; exact h1
    · rename_i heq; rw [heq] at h1; exact ih h1

theorem storeOk_revokeFromGroup {k : Keyhive} (h : StoreOk E k) (hk : Kept E k) {L : Local} (hL : Signs E L.sign) (gid member : Id) (retain : Bool)
    (content : Content) : StoreOk E (k.revokeFromGroup E L gid member retain content).1 := by
  unfold Keyhive.revokeFromGroup
  split
  · exact h
  · rename_i g hg0
    split
    · exact h
    · split
      · rename_i hg
        exact (storeOk_storeNew h hL (hk.groups hg0) hg).same rfl rfl
      · rename_i g' revs dlgs hg
        obtain ⟨h1, h2⟩ := revokeMember_valid hL hg
        have h3 : StoreOk E { k.storeAll E revs dlgs with groups := AMap.insert k.groups gid g' } :=
          (storeOk_storeAll h h1 h2).same rfl rfl
        simp only
        split
        · exact h3
        · exact storeOk_propagateRemoves h3

/-! ## Content -/

theorem encryptContent_stores (k : Keyhive) (L : Local) (did : Id) (r ps x : Nat) :
    (k.encryptContent E L did r ps x).1.dlgs = k.dlgs ∧ (k.encryptContent E L did r ps x).1.revs = k.revs := by
  unfold Keyhive.encryptContent
  split <;> exact ⟨rfl, rfl⟩

theorem decryptContent_stores (k : Keyhive) (did : Id) (e : EncContent) :
    (k.decryptContent E did e).1.dlgs = k.dlgs ∧ (k.decryptContent E did e).1.revs = k.revs := by
  unfold Keyhive.decryptContent
  split <;> exact ⟨rfl, rfl⟩

theorem forcePcsUpdate_stores (k : Keyhive) (L : Local) (did : Id) :
    (k.forcePcsUpdate E L did).1.dlgs = k.dlgs ∧ (k.forcePcsUpdate E L did).1.revs = k.revs := by
  unfold Keyhive.forcePcsUpdate
  split <;> exact ⟨rfl, rfl⟩

theorem reach_storeOk {k : Keyhive} (h : Reach E k) : StoreOk E k := by
  induction h with
  | start reg pairs => exact ⟨by simp [Keyhive.start], by simp [Keyhive.start]⟩
  | call c h hc ih =>
    cases c with
    | receive e => exact storeOk_receive ih e
    | ingest ord events => exact ingest_keeps (P := StoreOk E) (fun k e h => storeOk_receive h e) (fun k p h => h.same rfl rfl) ord events ih
    | contactCard op => exact ih.same rfl rfl
    | newGroup S gid co => exact storeOk_newGroup ih hc gid co
    | newDoc L S did co heads => exact storeOk_newDoc ih L hc.1 did co heads
    | addToGroup L gid who can content => exact storeOk_addToGroup ih hc.1 gid who can content
    | addToDoc L did who can content => exact storeOk_addToDoc ih hc.1 did who can content
    | revokeFromGroup L gid member retain content => exact storeOk_revokeFromGroup ih (reach_kept h) hc.1 gid member retain content
    | revokeFromDoc L did member retain content => exact storeOk_revokeFromDoc ih (reach_kept h) hc.1 did member retain content
    | ingestArchive ord a =>
      exact ingestArchive_keeps (P := StoreOk E) (fun k e h => storeOk_receive h e) (fun k p h => h.same rfl rfl)
        (fun hs h => h.same hs.dlgs hs.revs) ord a ih
    | encrypt L did r ps x => exact ih.same (encryptContent_stores ..).1 (encryptContent_stores ..).2
    | decrypt did e => exact ih.same (decryptContent_stores ..).1 (decryptContent_stores ..).2
    | pcsUpdate L did => exact ih.same (forcePcsUpdate_stores ..).1 (forcePcsUpdate_stores ..).2

end Verif.Keyhive
