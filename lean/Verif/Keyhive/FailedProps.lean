import Verif.Keyhive.FailedSpec
import Verif.Keyhive.HandedProps
import Verif.Keyhive.StatsLemmas

/-!
# Calls that fail (C132)
-/

namespace Verif.Keyhive.FailedProps

open Verif.Group Verif.Cgka Verif.BeeKem

variable {E : Env}

theorem asBefore_refl (k : Keyhive) : AsBefore E k k := ⟨fun _ => rfl, fun _ => rfl, rfl, rfl, rfl, rfl, rfl, fun _ _ => Iff.rfl⟩

theorem sameOps {k k' : Keyhive} (h : HandsOut E k k' []) : ∀ did op, HasKeyOp E k' did op ↔ HasKeyOp E k did op := by
  obtain ⟨made, h1, h2⟩ := h
  intro did op
  rw [h1]
  refine or_iff_left (fun hm => ?_)
  exact absurd ((h2 op).2 ⟨did, hm⟩) (by simp)

theorem group_encryptContent {H : SOp → Nat} {sign : Payload → Res SOp} {g : BeeKem.Gen} (d : Doc) (r ps x : Nat) :
    (d.encryptContent H sign g r ps x).1.group = d.group := by
  unfold Doc.encryptContent
  split
  · rfl
  · split <;> rfl

theorem group_pcsUpdate {H : SOp → Nat} {sign : Payload → Res SOp} {g : BeeKem.Gen} (d : Doc) : (d.pcsUpdate H sign g).1.group = d.group := by
  unfold Doc.pcsUpdate
  split
  · rfl
  · split <;> rfl

theorem heads_encryptContent {H : SOp → Nat} {sign : Payload → Res SOp} {g : BeeKem.Gen} (d : Doc) (r ps x : Nat) :
    (d.encryptContent H sign g r ps x).1.heads = d.heads := by
  unfold Doc.encryptContent
  split
  · rfl
  · split <;> rfl

theorem heads_pcsUpdate {H : SOp → Nat} {sign : Payload → Res SOp} {g : BeeKem.Gen} (d : Doc) : (d.pcsUpdate H sign g).1.heads = d.heads := by
  unfold Doc.pcsUpdate
  split
  · rfl
  · split <;> rfl

theorem heads_setDoc {k : Keyhive} {did : Id} {d d' : Doc} (hd : AMap.get k.docs did = some d) (hh : d'.heads = d.heads) (i : Id) :
    (AMap.get (k.setDoc did d').docs i).map Doc.heads = (AMap.get k.docs i).map Doc.heads := by
  rw [get_setDoc hd]
  split
  · rename_i h
    rw [h, hd]
    exact congrArg some hh
  · rfl

/-! ## The properties -/

/-- C132 for making a group: a call that fails leaves the device as it was. -/
theorem C132_new_group {k k' : Keyhive} {S : Op → Option Nat} {gid : Id} {others : List Agent} {e : Err}
    (h : k.generateGroup E S gid others = (k', .error e)) : k' = k := by
  unfold Keyhive.generateGroup at h
  split at h
  · cases h; rfl
  · cases h

/-- C132 for making a document: a call that fails leaves everything as it was except that delegations of the document that does not come about
can be on record. Missing: that they are not. -/
theorem C132_new_document_partial {k k' : Keyhive} {L : Local} {S : Op → Option Nat} {did : Id} {others : List Agent} {heads : List Nat} {e : Err}
    (h : k.generateDoc E L S did others heads = (k', .error e)) :
    ∃ l : List Dlg, (∀ d ∈ l, d.issuer = did ∧ d.proof = none) ∧ k' = l.foldl (Keyhive.storeDlg E) k := by
  unfold Keyhive.generateDoc at h
  split at h
  · cases h; exact ⟨[], by simp, rfl⟩
  · rename_i g hg
    have hl : ∀ d ∈ AMap.values g.dlgHeads, d.issuer = did ∧ d.proof = none := by
      obtain ⟨hs, rfl, h1, -, h3⟩ := generate_ok hg
      intro d hd
      obtain ⟨key, hk⟩ := (values_iff h1 d).1 hd
      obtain ⟨-, a, -, s, rfl⟩ := h3 key d hk
      exact ⟨rfl, rfl⟩
    dsimp only at h
    refine ⟨_, hl, ?_⟩
    split at h
    · cases h; rfl
    · split at h
      · cases h; rfl
      · split at h
        · cases h; rfl
        · cases h

/-- C132 for writing. -/
theorem C132_write (hE : E.NoKeyClash) {k k' : Keyhive} {L : Local} {did : Id} {r ps x : Nat} {e : Err}
    (h : k.encryptContent E L did r ps x = (k', .error e)) : AsBefore E k k' := by
  have hk := sameOps (HandedProps.C87_encrypt hE h)
  unfold Keyhive.encryptContent at h
  split at h
  · cases h; exact asBefore_refl k
  · rename_i d hd
    cases (Prod.ext_iff.1 h).1
    exact ⟨fun i => congrArg (AMap.get · i) (world_setDoc hd (group_encryptContent ..)), heads_setDoc hd (heads_encryptContent ..), rfl, rfl, rfl, rfl, rfl, hk⟩

/-- C132 for a key update. -/
theorem C132_update (hE : E.NoKeyClash) {k k' : Keyhive} {L : Local} {did : Id} {e : Err}
    (h : k.forcePcsUpdate E L did = (k', .error e)) : AsBefore E k k' := by
  have hk := sameOps (HandedProps.C87_update hE h)
  unfold Keyhive.forcePcsUpdate at h
  split at h
  · cases h; exact asBefore_refl k
  · rename_i d hd
    cases (Prod.ext_iff.1 h).1
    exact ⟨fun i => congrArg (AMap.get · i) (world_setDoc hd (group_pcsUpdate ..)), heads_setDoc hd (heads_pcsUpdate ..), rfl, rfl, rfl, rfl, rfl, hk⟩

/-- C132 for adding to a document: a call that fails leaves the device as it was unless the agent can read with the access named. Missing: access
to read, where the delegation can stay although the call fails (`C132_fails`). -/
theorem C132_add_to_document_partial {k k' : Keyhive} {L : Local} {did : Id} {who : Agent} {can : Access} {content : Content} {e : Err}
    (hc : can = .relay) (h : k.addMemberToDoc E L did who can content = (k', .error e)) : k' = k := by
  subst hc
  unfold Keyhive.addMemberToDoc at h
  split at h
  · cases h; rfl
  · split at h
    · cases h; rfl
    · dsimp only at h
      split at h
      · rename_i hr
        cases hr
      · cases h

/-- C132 for adding to a group, as for documents. -/
theorem C132_add_to_group_partial {k k' : Keyhive} {L : Local} {gid : Id} {who : Agent} {can : Access} {content : Content} {e : Err}
    (hc : can = .relay) (h : k.addMemberToGroup E L gid who can content = (k', .error e)) : k' = k := by
  subst hc
  unfold Keyhive.addMemberToGroup at h
  split at h
  · cases h; rfl
  · split at h
    · cases h; rfl
    · dsimp only at h
      split at h
      · rename_i hr
        cases hr
      · cases h

/-- C132 for adding to a document with any access: a call that fails has done nothing, or it has made the delegation and left all other groups and
documents, the individuals, the revocations, the waiting events and the secrets as they were. -/
theorem C132_add_to_document_limits_partial {k k' : Keyhive} {L : Local} {did : Id} {who : Agent} {can : Access} {content : Content} {e : Err}
    (h : k.addMemberToDoc E L did who can content = (k', .error e)) :
    k' = k ∨ ∃ d : Dlg, d.issuer = k.reg.me ∧ d.delegate = who ∧ d.can = can ∧ k'.dlgs = (k.storeDlg E d).dlgs ∧
      (∀ i, i ≠ did → AMap.get k'.world i = AMap.get k.world i) ∧ k'.reg = k.reg ∧ k'.revs = k.revs ∧ k'.pending = k.pending ∧
      k'.pairs = k.pairs := by
  unfold Keyhive.addMemberToDoc at h
  split at h
  · cases h; exact .inl rfl
  · rename_i doc hd
    split at h
    · cases h; exact .inl rfl
    · rename_i g' d hadd
      right
      have hd1 : d.issuer = k.reg.me ∧ d.delegate = who ∧ d.can = can := by
        unfold Group.addMember at hadd
        simp only [bind, Except.bind] at hadd
        split at hadd
        · cases hadd
        · rename_i pf _
          split at hadd
          · cases hadd
          · split at hadd
            · cases hadd
            · cases hadd; cases pf <;> exact ⟨rfl, rfl, rfl⟩
      have key : ∀ x : Doc, ∀ i, i ≠ did → AMap.get ((k.storeDlg E d).setDoc did x).world i = AMap.get k.world i := by
        intro x i hi
        rw [get_world, get_world, get_setDoc (k := k.storeDlg E d) hd, if_neg hi]
        rfl
      have key2 : ∀ x y : Doc, ∀ i, i ≠ did → AMap.get (((k.storeDlg E d).setDoc did x).setDoc did y).world i = AMap.get k.world i := by
        intro x y i hi
        have hx : AMap.get ((k.storeDlg E d).setDoc did x).docs did = some x := by
          rw [get_setDoc (k := k.storeDlg E d) hd, if_pos rfl]
        rw [get_world, get_setDoc hx, if_neg hi, ← key x i hi, get_world]
        rfl
      dsimp only at h
      split at h
      · split at h
        · cases h
          exact ⟨d, hd1.1, hd1.2.1, hd1.2.2, rfl, key _, rfl, rfl, rfl, rfl⟩
        · split at h
          · cases h
            exact ⟨d, hd1.1, hd1.2.1, hd1.2.2, rfl, key2 _ _, rfl, rfl, rfl, rfl⟩
          · cases h
      · cases h

/-! ## Examples -/

/-- Agent 5 cannot make document 300 when no group-key operation can be signed, and then the device has the delegation on record. -/
def broken : Local := { Sample.L with signCgka := fun _ _ => .error .conversion }

example : (Sample.m1.generateDoc Sample.EL broken Sample.sg 300 [] [1]).2 = .error (.cgka .conversion) ∧
    (Sample.m1.generateDoc Sample.EL broken Sample.sg 300 [] [1]).1.dlgs.length = Sample.m1.dlgs.length + 1 := by decide +kernel

/-- Writing in document 301, which has not got its key tree, fails. -/
example : (HandedProps.h1.encryptContent Sample.EL Sample.L 301 1 2 3).2 = .error (.cgka .notInitialized) ∧
    AsBefore Sample.EL HandedProps.h1 (HandedProps.h1.encryptContent Sample.EL Sample.L 301 1 2 3).1 :=
  have h : (HandedProps.h1.encryptContent Sample.EL Sample.L 301 1 2 3).2 = .error (.cgka .notInitialized) := by decide +kernel
  ⟨h, C132_write HandedProps.EL_noKeyClash (e := .cgka .notInitialized) (by rw [← h])⟩

/-- Document 302 is Bob's: agent 5 cannot add Alice, and nothing changes. -/
def bobs : SDlg := ⟨302, 302002, 2, .admin, none, [], [(302, [1])]⟩
/-- Agent 5 receives this. -/
noncomputable def withBobs : Keyhive := (Sample.m1.receive Sample.EL (.dlg bobs)).1

example : (withBobs.addMemberToDoc Sample.EL Sample.L 302 ⟨.individual, 1⟩ .relay []).2 = .error (.group .noProof) ∧
    (withBobs.addMemberToDoc Sample.EL Sample.L 302 ⟨.individual, 1⟩ .relay []).1 = withBobs :=
  have h : (withBobs.addMemberToDoc Sample.EL Sample.L 302 ⟨.individual, 1⟩ .relay []).2 = .error (.group .noProof) := by decide +kernel
  ⟨h, C132_add_to_document_partial (e := .group .noProof) rfl (by rw [← h])⟩

/-! ## Where it fails -/

/-- Document 301 after agent 5 has tried to add Alice. -/
noncomputable def tried : Keyhive := (HandedProps.h1.addMemberToDoc Sample.EL Sample.L 301 ⟨.individual, 1⟩ .read []).1

/-- C132 fails: adding Alice to a document whose key tree has not come yet returns an error, and yet Alice is a member of the document, by a
delegation that the device has on record. -/
theorem C132_fails : ∃ (E : Env) (L : Local) (k k' : Keyhive) (did : Id) (alice : Agent) (e : Err) (d : Doc) (d' : Doc),
    E.NoKeyClash ∧ Reach E k ∧ k.addMemberToDoc E L did alice .read [] = (k', .error e) ∧
    AMap.get k.docs did = some d ∧ AMap.get k'.docs did = some d' ∧
    AMap.get d.group.members alice.id = none ∧ AMap.get d'.group.members alice.id ≠ none ∧ k'.dlgs ≠ k.dlgs := by
  have h1 : ∃ d, AMap.get HandedProps.h1.docs 301 = some d ∧ AMap.get d.group.members 1 = none := by
    have : ((AMap.get HandedProps.h1.docs 301).map (fun d => (AMap.get d.group.members 1).isNone)) = some true := by decide +kernel
    rcases hq : AMap.get HandedProps.h1.docs 301 with _ | d
    · rw [hq] at this; cases this
    · rw [hq] at this
      exact ⟨d, rfl, Option.isNone_iff_eq_none.1 (Option.some.inj this)⟩
  have h2 : ∃ d, AMap.get tried.docs 301 = some d ∧ AMap.get d.group.members 1 ≠ none := by
    have : ((AMap.get tried.docs 301).map (fun d => (AMap.get d.group.members 1).isSome)) = some true := by decide +kernel
    rcases hq : AMap.get tried.docs 301 with _ | d
    · rw [hq] at this; cases this
    · rw [hq] at this
      refine ⟨d, rfl, fun hn => ?_⟩
      simp only [Option.map_some, hn] at this
      cases this
  obtain ⟨d, hd, hn⟩ := h1
  obtain ⟨d', hd', hn'⟩ := h2
  refine ⟨Sample.EL, Sample.L, HandedProps.h1, tried, 301, ⟨.individual, 1⟩, .cgka .notInitialized, d, d', HandedProps.EL_noKeyClash,
    .call (.receive (.dlg HandedProps.other)) Sample.reach_m1 trivial, Prod.ext rfl (by decide +kernel), hd, hd', hn, hn', fun h => ?_⟩
  have : tried.dlgs.length ≠ HandedProps.h1.dlgs.length := by decide +kernel
  exact this (congrArg List.length h)

end Verif.Keyhive.FailedProps
