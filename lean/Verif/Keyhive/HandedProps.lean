import Verif.Keyhive.HandedLemmas
import Verif.Keyhive.KeptSample

/-!
# What calls record, they hand out

The operations a call returns are those it gives to the listener (keyhive.rs:541-549, 636-639, 683-686, 739-741).
-/

namespace Verif.Keyhive.HandedProps

open Verif.Group Verif.Cgka Verif.BeeKem

variable {E : Env}

/-! ## C87 -/

/-- C87 for encryption, successful or not: what is recorded is what is returned. -/
theorem C87_encrypt (hE : E.NoKeyClash) {k k' : Keyhive} {L : Local} {did : Id} {r ps x : Nat} {res : Except Err (EncContent × Option SOp)}
    (h : k.encryptContent E L did r ps x = (k', res)) :
    HandsOut E k k' (match (generalizing := false) res with | .ok (_, op) => op.toList | .error _ => []) := by
  unfold Keyhive.encryptContent at h
  split at h
  · cases h; exact handsOut_docs rfl
  · rename_i d hd
    dsimp only at h
    rcases hq : d.encryptContent (E.hashCgka did) (L.signCgka did) L.gen r ps x with ⟨d', res'⟩
    rw [hq] at h
    cases h
    exact handsOut_setDoc hd (handed_encryptContent (hE did) hq)

/-- C87 for a key update, successful or not. -/
theorem C87_update (hE : E.NoKeyClash) {k k' : Keyhive} {L : Local} {did : Id} {res : Except Err (SOp × Sk)}
    (h : k.forcePcsUpdate E L did = (k', res)) :
    HandsOut E k k' (match (generalizing := false) res with | .ok (op, _) => [op] | .error _ => []) := by
  unfold Keyhive.forcePcsUpdate at h
  split at h
  · cases h; exact handsOut_docs rfl
  · rename_i d hd
    dsimp only at h
    rcases hq : d.pcsUpdate (E.hashCgka did) (L.signCgka did) L.gen with ⟨d', res'⟩
    rw [hq] at h
    cases h
    exact handsOut_setDoc hd (handed_pcsUpdate (hE did) hq)

/-- C87 for adding to a document, when the call succeeds. Missing: failing calls (`C87_fails`). -/
theorem C87_add_to_document_partial (hE : E.NoKeyClash) {k k' : Keyhive} {L : Local} {did : Id} {who : Agent} {can : Access} {content : Content}
    {d : Dlg} {ops : List SOp} (h : k.addMemberToDoc E L did who can content = (k', .ok (d, ops))) : HandsOut E k k' ops := by
  unfold Keyhive.addMemberToDoc at h
  split at h
  · cases h
  · rename_i doc hd
    split at h
    · cases h
    · rename_i g' d' hadd
      have h1 : HandsOut E k ((k.storeDlg E d').setDoc did { doc with group := g' }) [] := by
        have : HandsOut E k (k.storeDlg E d') [] := handsOut_docs rfl
        exact this.trans (handsOut_setDoc (l := []) (k := k.storeDlg E d') hd (fun o => by simp [Doc.Keeps]))
      dsimp only at h
      split at h
      · split at h
        · cases h
        · split at h
          · cases h
          · rename_i doc'' ops' hm
            cases h
            obtain ⟨new, rfl, hn⟩ := handed_addCgkaMembers (hE did) hm
            refine h1.trans (handsOut_setDoc (d := { doc with group := g' }) ?_ (by simpa using hn))
            rw [get_setDoc (k := k.storeDlg E d) hd, if_pos rfl]
      · cases h
        exact h1

/-- C87 for adding to a group, when the call succeeds. -/
theorem C87_add_to_group_partial (hE : E.NoKeyClash) {k k' : Keyhive} {L : Local} {gid : Id} {who : Agent} {can : Access} {content : Content}
    {d : Dlg} {ops : List SOp} (h : k.addMemberToGroup E L gid who can content = (k', .ok (d, ops))) : HandsOut E k k' ops := by
  unfold Keyhive.addMemberToGroup at h
  split at h
  · cases h
  · split at h
    · cases h
    · rename_i g' d' hadd
      have h1 : HandsOut E k { k.storeDlg E d' with groups := AMap.insert k.groups gid g' } [] := handsOut_docs rfl
      dsimp only at h
      split at h
      · split at h
        · cases h
        · rename_i k2 ops2 hp
          cases h
          obtain ⟨new, rfl, hn⟩ := handsOut_propagateAdds hE hp
          exact h1.trans hn
      · cases h
        exact h1

/-- C87 for revoking from a document, when the call succeeds. -/
theorem C87_revoke_from_document_partial (hE : E.NoKeyClash) {k k' : Keyhive} {L : Local} {did member : Id} {retain : Bool} {content : Content}
    {ops : List SOp} (h : k.revokeFromDoc E L did member retain content = (k', .ok ops)) : HandsOut E k k' ops := by
  unfold Keyhive.revokeFromDoc at h
  split at h
  · cases h
  · rename_i doc hd
    split at h
    · cases h
    · split at h
      · cases h
      · rename_i g' revs dlgs hrev
        have hd' : AMap.get (k.storeAll E revs dlgs).docs did = some doc := by rw [(storeAll_same revs dlgs k).2.1]; exact hd
        have h1 : HandsOut E k ((k.storeAll E revs dlgs).setDoc did { doc with group := g' }) [] := by
          have : HandsOut E k (k.storeAll E revs dlgs) [] := handsOut_docs (storeAll_same revs dlgs k).2.1
          exact this.trans (handsOut_setDoc (l := []) hd' (fun o => by simp [Doc.Keeps]))
        dsimp only at h
        split at h
        · cases h
        · split at h
          · cases h
          · rename_i doc'' ops' hm
            cases h
            obtain ⟨new, rfl, hn⟩ := handed_removeCgkaMembers (hE did) hm
            refine h1.trans (handsOut_setDoc (d := { doc with group := g' }) ?_ (by simpa using hn))
            rw [get_setDoc hd', if_pos rfl]

/-- C87 for revoking from a group, when the call succeeds. -/
theorem C87_revoke_from_group_partial (hE : E.NoKeyClash) {k k' : Keyhive} {L : Local} {gid member : Id} {retain : Bool} {content : Content}
    {ops : List SOp} (h : k.revokeFromGroup E L gid member retain content = (k', .ok ops)) : HandsOut E k k' ops := by
  unfold Keyhive.revokeFromGroup at h
  split at h
  · cases h
  · split at h
    · cases h
    · split at h
      · cases h
      · rename_i g' revs dlgs hrev
        have h1 : HandsOut E k { k.storeAll E revs dlgs with groups := AMap.insert k.groups gid g' } [] :=
          handsOut_docs (storeAll_same revs dlgs k).2.1
        dsimp only at h
        split at h
        · cases h
          exact h1
        · obtain ⟨new, rfl, hn⟩ := handsOut_propagateRemoves hE h
          exact h1.trans hn

/-! ## Examples -/

theorem EL_noKeyClash : Sample.EL.NoKeyClash := fun _ => tableH_injective _

/-- Alice becomes a member of the document: `t3` is recorded and handed out. -/
example : ∃ k' d, Sample.m2.addMemberToDoc Sample.EL Sample.L 300 ⟨.individual, 1⟩ .read [] = (k', .ok (d, [Sample.t3])) ∧
    HasKeyOp Sample.EL k' 300 Sample.t3 := by
  have h : (Sample.m2.addMemberToDoc Sample.EL Sample.L 300 ⟨.individual, 1⟩ .read []).2.toOption.map Prod.snd = some [Sample.t3] := by
    decide +kernel
  rcases hq : Sample.m2.addMemberToDoc Sample.EL Sample.L 300 ⟨.individual, 1⟩ .read [] with ⟨k', e | ⟨d, ops⟩⟩
  · rw [hq] at h; cases h
  · rw [hq] at h
    cases Option.some.inj h
    obtain ⟨made, h1, h2⟩ := C87_add_to_document_partial EL_noKeyClash hq
    obtain ⟨did, hd⟩ := (h2 Sample.t3).1 (List.mem_singleton.2 rfl)
    have ht : AMap.get (treeGraph k' 300) (Sample.EL.hashCgka 300 Sample.t3) = some Sample.t3 := by
      have : k' = (Sample.m2.addMemberToDoc Sample.EL Sample.L 300 ⟨.individual, 1⟩ .read []).1 := by rw [hq]
      rw [this]
      decide +kernel
    exact ⟨k', d, rfl, hasKeyOp_of ht⟩

/-- Their removal too. -/
example : (Sample.n3.revokeFromDoc Sample.EL Sample.L 300 1 true []).2 = .ok [Sample.t4] := by decide +kernel

/-- Joining through a group: `t3` for the document that group 200 reads. -/
example : (Sample.m2.addMemberToDoc Sample.EL Sample.L 300 ⟨.group, 200⟩ .read []).1.addMemberToGroup Sample.EL Sample.L 200 ⟨.individual, 1⟩ .read []
    |>.2.toOption.map Prod.snd |> (· = some [Sample.t3]) := by decide +kernel

/-! ## Where it fails -/

/-- Document 301, received without its key tree: group 200 may read it. -/
def other : SDlg := ⟨301, 301200, 200, .read, none, [], [(301, [1])]⟩
/-- Agent 5, who made group 200, receives this. -/
noncomputable def h1 : Keyhive := (Sample.m1.receive Sample.EL (.dlg other)).1
/-- It makes document 300. -/
noncomputable def h2 : Keyhive := (h1.generateDoc Sample.EL Sample.L Sample.sg 300 [] [1]).1
/-- Group 200 reads it too. -/
noncomputable def h3 : Keyhive := (h2.addMemberToDoc Sample.EL Sample.L 300 ⟨.group, 200⟩ .read []).1
/-- Alice is added to the group. -/
noncomputable def h4 : Keyhive := (h3.addMemberToGroup Sample.EL Sample.L 200 ⟨.individual, 1⟩ .read []).1

theorem reach_h3 : Reach Sample.EL h3 :=
  .call (.addToDoc Sample.L 300 ⟨.group, 200⟩ .read []) (.call (.newDoc Sample.L Sample.sg 300 [] [1])
    (.call (.receive (.dlg other)) Sample.reach_m1 trivial) ⟨Sample.sg_signs Sample.hcL, Sample.L_signs⟩) Sample.L_signs

/-- C87 fails for calls that fail halfway. Adding Alice to a group adds them to the key tree of document 300 and then fails, because document 301
of the same group has not got its key tree yet. The operation for 300 is recorded, and nobody is told of it; adding Alice to 300 again
succeeds and hands out nothing, because they are there. -/
theorem C87_fails : ∃ (E : Env) (L : Local) (k k' k'' : Keyhive) (gid did : Id) (alice : Agent) (op : SOp) (e : Err) (d : Dlg),
    E.NoKeyClash ∧ Reach E k ∧ k.addMemberToGroup E L gid alice .read [] = (k', .error e) ∧
    ¬ HasKeyOp E k did op ∧ HasKeyOp E k' did op ∧
    k'.addMemberToDoc E L did alice .read [] = (k'', .ok (d, [])) := by
  have h : (h4.addMemberToDoc Sample.EL Sample.L 300 ⟨.individual, 1⟩ .read []).2.toOption.map Prod.snd = some [] := by decide +kernel
  rcases hq : h4.addMemberToDoc Sample.EL Sample.L 300 ⟨.individual, 1⟩ .read [] with ⟨k'', e | ⟨d, ops⟩⟩
  · rw [hq] at h; cases h
  · rw [hq] at h
    cases Option.some.inj h
    refine ⟨Sample.EL, Sample.L, h3, h4, k'', 200, 300, ⟨.individual, 1⟩, Sample.t3, .cgka .notInitialized, d, EL_noKeyClash, reach_h3,
      Prod.ext rfl ?_, ?_, hasKeyOp_of ?_, hq⟩
    · decide +kernel
    · intro hh
      have := treeGraph_of hh
      rw [show AMap.get (treeGraph h3 300) (Sample.EL.hashCgka 300 Sample.t3) = none by decide +kernel] at this
      cases this
    · decide +kernel

end Verif.Keyhive.HandedProps
