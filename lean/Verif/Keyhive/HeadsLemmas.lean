import Verif.Keyhive.RoleLemmas
import Verif.Keyhive.FadeLemmas
import Verif.Keyhive.HeadsSpec
import Verif.Keyhive.Api

/-! # Which content documents have and operations name -/

namespace Verif.Keyhive

open Verif.Group Verif.Cgka Verif.BeeKem

variable {E : Env} {Ind : Id → Prop}

/-- The same groups and documents, with the same heads. -/
structure Unmoved (k k' : Keyhive) : Prop where
  docs : ∀ i, (AMap.get k'.docs i).map Doc.heads = (AMap.get k.docs i).map Doc.heads
  groups : ∀ i, AMap.get k'.groups i = none ↔ AMap.get k.groups i = none

theorem Unmoved.of {k k' : Keyhive} (hg : k'.groups = k.groups) (hd : k'.docs = k.docs) : Unmoved k k' :=
  ⟨fun i => by rw [hd], fun i => by rw [hg]⟩

theorem Unmoved.refl (k : Keyhive) : Unmoved k k := .of rfl rfl

theorem Unmoved.trans {k k1 k2 : Keyhive} (h : Unmoved k k1) (h' : Unmoved k1 k2) : Unmoved k k2 :=
  ⟨fun i => (h'.docs i).trans (h.docs i), fun i => (h'.groups i).trans (h.groups i)⟩

theorem Unmoved.setDoc {k k' : Keyhive} (h : Unmoved k k') {i : Id} {d d0 : Doc} (h0 : AMap.get k.docs i = some d0) (hh : d.heads = d0.heads) :
    Unmoved k (k'.setDoc i d) := by
  refine ⟨fun j => ?_, h.groups⟩
  rw [← h.docs j]
  have h1 := h.docs i
  rw [h0] at h1
  unfold Keyhive.setDoc
  simp only
  rw [get_replace]
  split
  · rename_i hj
    rw [hj.1, h1]
    simp [hh]
  · rfl

theorem Unmoved.insertDoc {k k' : Keyhive} {i : Id} {d d0 : Doc} (h0 : AMap.get k.docs i = some d0) (hh : d.heads = d0.heads)
    (hg : k'.groups = k.groups) (hd : k'.docs = AMap.insert k.docs i d) : Unmoved k k' := by
  refine ⟨fun j => ?_, fun j => by rw [hg]⟩
  rw [hd, AMap.get_insert]
  split
  · rename_i hj
    subst hj
    rw [h0]
    simp [hh]
  · rfl

theorem Unmoved.insertGroup {k k' : Keyhive} {i : Id} {g g0 : Group} (h0 : AMap.get k.groups i = some g0)
    (hg : k'.groups = AMap.insert k.groups i g) (hd : k'.docs = k.docs) : Unmoved k k' := by
  refine ⟨fun j => by rw [hd], fun j => ?_⟩
  rw [hg, AMap.get_insert]
  split
  · rename_i hj
    subst hj
    rw [h0]
    simp
  · rfl

/-! ## Calls on documents -/

theorem addCgkaMembers_heads {H : SOp → Nat} {sign : Payload → Res SOp} : ∀ (l : List (Id × Pk)) (d : Doc) (acc : List SOp),
    (d.addCgkaMembers H sign l acc).1.heads = d.heads
  | [], _, _ => rfl
  | p :: l, d, acc => by
    unfold Doc.addCgkaMembers
    split
    · rfl
    · split
      · rfl
      · rw [addCgkaMembers_heads l]

theorem removeCgkaMembers_heads {H : SOp → Nat} {sign : Payload → Res SOp} : ∀ (l : List Id) (d : Doc) (acc : List SOp),
    (d.removeCgkaMembers H sign l acc).1.heads = d.heads
  | [], _, _ => rfl
  | p :: l, d, acc => by
    unfold Doc.removeCgkaMembers
    split
    · rfl
    · split
      · rfl
      · rw [removeCgkaMembers_heads l]

theorem dropCgkaMembers_heads {H : SOp → Nat} {sign : Payload → Res SOp} : ∀ (l : List Id) (d : Doc) (acc : List SOp),
    (d.dropCgkaMembers H sign l acc).1.heads = d.heads
  | [], _, _ => rfl
  | p :: l, d, acc => by
    unfold Doc.dropCgkaMembers
    split
    · rfl
    · split
      · rw [dropCgkaMembers_heads l]
      · rw [dropCgkaMembers_heads l]

theorem encryptContent_heads (H : SOp → Nat) (sign : Payload → Res SOp) (g : BeeKem.Gen) (d : Doc) (r ps x : Nat) :
    (d.encryptContent H sign g r ps x).1.heads = d.heads := by
  unfold Doc.encryptContent
  split
  · rfl
  · split <;> rfl

theorem decryptContent_heads (H : SOp → Nat) (d : Doc) (e : EncContent) : (d.decryptContent H e).1.heads = d.heads := by
  unfold Doc.decryptContent
  split
  · rfl
  · split <;> rfl

theorem pcsUpdate_heads (H : SOp → Nat) (sign : Payload → Res SOp) (g : BeeKem.Gen) (d : Doc) : (d.pcsUpdate H sign g).1.heads = d.heads := by
  unfold Doc.pcsUpdate
  split
  · rfl
  · split <;> rfl

/-! ## Calls on devices -/

theorem Unmoved.storeAll (k : Keyhive) (revs : List Rev) (dlgs : List Dlg) : Unmoved k (k.storeAll E revs dlgs) :=
  .of (storeAll_same ..).1 (storeAll_same ..).2.1

theorem unmoved_addToDoc (k : Keyhive) (L : Local) (did : Id) (who : Agent) (can : Access) (content : Content) :
    Unmoved k (k.addMemberToDoc E L did who can content).1 := by
  unfold Keyhive.addMemberToDoc
  split
  · exact .refl k
  · rename_i doc hd
    split
    · exact .refl k
    · rename_i g' d hg
      have h1 : Unmoved k ((k.storeDlg E d).setDoc did { doc with group := g' }) :=
        Unmoved.setDoc (k := k) (k' := k.storeDlg E d) (d := { doc with group := g' }) (.of rfl rfl) hd rfl
      simp only
      split
      · split
        · exact h1
        · rename_i prekeys _
          have hsame := addCgkaMembers_heads (H := E.hashCgka did) (sign := L.signCgka did) prekeys { doc with group := g' } []
          split
          all_goals
            rename_i doc'' e heq
            rw [heq] at hsame
            exact h1.setDoc hd hsame
      · exact h1

theorem unmoved_propagateAdd (k : Keyhive) (L : Local) (gid : Id) (who : Agent) (did : Id) : Unmoved k (k.propagateAdd E L gid who did).1 := by
  unfold Keyhive.propagateAdd
  split
  · exact .refl k
  · rename_i doc hd
    split
    · exact .refl k
    · split
      · exact .refl k
      · split
        · exact .refl k
        · rename_i prekeys _
          have hsame := addCgkaMembers_heads (H := E.hashCgka did) (sign := L.signCgka did) prekeys doc []
          split
          all_goals
            rename_i doc'' e heq
            rw [heq] at hsame
            exact (Unmoved.refl k).setDoc hd hsame

theorem unmoved_propagateAdds {L : Local} {gid : Id} {who : Agent} : ∀ (dids : List Id) (k : Keyhive) (acc : List SOp),
    Unmoved k (Keyhive.propagateAdds E L gid who k dids acc).1
  | [], k, acc => .refl k
  | did :: dids, k, acc => by
    have h1 := unmoved_propagateAdd (E := E) k L gid who did
    unfold Keyhive.propagateAdds
    split
    · rename_i heq; rw [heq] at h1; exact h1
    · rename_i heq; rw [heq] at h1; exact h1.trans (unmoved_propagateAdds dids _ _)

theorem unmoved_addToGroup (k : Keyhive) (L : Local) (gid : Id) (who : Agent) (can : Access) (content : Content) :
    Unmoved k (k.addMemberToGroup E L gid who can content).1 := by
  unfold Keyhive.addMemberToGroup
  split
  · exact .refl k
  · rename_i g hg0
    split
    · exact .refl k
    · rename_i g' d hg
      have h1 : Unmoved k { k.storeDlg E d with groups := AMap.insert k.groups gid g' } := .insertGroup hg0 rfl rfl
      simp only
      split
      · have h2 := h1.trans (unmoved_propagateAdds (E := E) (L := L) (gid := gid) (who := d.delegate)
          (AMap.keys ({ k.storeDlg E d with groups := AMap.insert k.groups gid g' } : Keyhive).docs) _ [])
        split
        · rename_i heq; rw [heq] at h2; exact h2
        · rename_i heq; rw [heq] at h2; exact h2
      · exact h1

theorem unmoved_revokeFromDoc (k : Keyhive) (L : Local) (did member : Id) (retain : Bool) (content : Content) :
    Unmoved k (k.revokeFromDoc E L did member retain content).1 := by
  unfold Keyhive.revokeFromDoc
  split
  · exact .refl k
  · rename_i doc hd
    split
    · exact .refl k
    · rename_i ids _
      split
      · exact (Unmoved.storeAll k _ _).setDoc hd rfl
      · rename_i g' revs dlgs heq
        have h1 : Unmoved k ((k.storeAll E revs dlgs).setDoc did { doc with group := g' }) := (Unmoved.storeAll k _ _).setDoc hd rfl
        simp only
        split
        · exact h1
        · rename_i still _
          have hsame := removeCgkaMembers_heads (H := E.hashCgka did) (sign := L.signCgka did)
            (List.filter (fun i => decide (i ∉ still)) ids) { doc with group := g' } []
          split
          all_goals
            rename_i heq2
            rw [heq2] at hsame
            exact h1.setDoc hd hsame

theorem unmoved_propagateRemoves {L : Local} {gid : Id} {ids : List Id} : ∀ (dids : List Id) (k : Keyhive) (acc : List SOp),
    Unmoved k (Keyhive.propagateRemoves E L gid ids k dids acc).1
  | [], k, acc => .refl k
  | did :: dids, k, acc => by
    have h1 : Unmoved k (k.propagateRemove E L gid ids did).1 := by
      unfold Keyhive.propagateRemove
      split
      · exact .refl k
      · rename_i doc hd
        split
        · exact .refl k
        · split
          · exact .refl k
          · exact (Unmoved.refl k).setDoc hd (dropCgkaMembers_heads ..)
    unfold Keyhive.propagateRemoves
    split
    · rename_i heq; rw [heq] at h1; exact h1
    · rename_i heq; rw [heq] at h1; exact h1.trans (unmoved_propagateRemoves dids _ _)

theorem unmoved_revokeFromGroup (k : Keyhive) (L : Local) (gid member : Id) (retain : Bool) (content : Content) :
    Unmoved k (k.revokeFromGroup E L gid member retain content).1 := by
  unfold Keyhive.revokeFromGroup
  split
  · exact .refl k
  · rename_i g hg0
    split
    · exact .refl k
    · split
      · rename_i g' e heq
        exact .insertGroup hg0 rfl (storeNew_same (E := E) g g' k).2.1
      · rename_i g' revs dlgs heq
        have h3 : Unmoved k { k.storeAll E revs dlgs with groups := AMap.insert k.groups gid g' } := .insertGroup hg0 rfl (storeAll_same (E := E) revs dlgs k).2.1
        simp only
        split
        · exact h3
        · exact h3.trans (unmoved_propagateRemoves _ _ _)

theorem unmoved_receiveCgkaOp (k : Keyhive) (id : Id) (op : SOp) : Unmoved k (k.receiveCgkaOp E id op).1 := by
  unfold Keyhive.receiveCgkaOp
  split
  · exact .refl k
  · split
    · exact .refl k
    · rename_i d hd
      split
      · split
        · split
          · exact .refl k
          · exact (Unmoved.refl k).setDoc hd (mergeCgkaInviteOp_heads ..)
        · split
          · unfold Keyhive.mergePublicInvite
            have hs := mergeCgkaInviteOp_heads (E.hashCgka id) d op publicSk
            split
            · rename_i heq; rw [heq] at hs; exact (Unmoved.refl k).setDoc hd hs
            · rename_i heq; rw [heq] at hs; exact (Unmoved.refl k).setDoc hd ((resetCgkaOwner_heads _ _).trans hs)
          · exact (Unmoved.refl k).setDoc hd (mergeCgkaOp_heads ..)
      · exact (Unmoved.refl k).setDoc hd (mergeCgkaOp_heads ..)

theorem unmoved_promote {k : Keyhive} (k0 : Keyhive) (hg : k.groups = k0.groups) (hd : k.docs = k0.docs) (d : Dlg) : Unmoved k0 (k.promote E d).1 := by
  unfold Keyhive.promote
  simp only
  split <;> exact .of hg hd

theorem unmoved_applyRev (k : Keyhive) (r : Rev) : Unmoved k (k.applyRev E r).1 := by
  unfold Keyhive.applyRev
  split
  · rename_i g hg
    split
    · exact .refl k
    · exact .insertGroup hg rfl rfl
  · split
    · rename_i doc hd
      split
      · exact .refl k
      · rename_i g' _
        exact Unmoved.insertDoc (d := { doc with group := g' }) hd rfl rfl rfl
    · split
      · have h1 := unmoved_promote (E := E) k (removeIndividual_groups k r.subject).1 (removeIndividual_groups k r.subject).2 r.revoke
        split
        · rename_i heq; rw [heq] at h1; exact h1
        · rename_i heq; rw [heq] at h1
          split
          · exact h1
          · exact h1.trans (.of rfl rfl)
      · exact .refl k

/-- A delegation either changes a known group or document, or makes a new one. -/
theorem applyDlg_cases (k : Keyhive) (d : Dlg) : Unmoved k (k.applyDlg E d).1 ∨
    AMap.get k.groups d.subject = none ∧ AMap.get k.docs d.subject = none ∧ (k.applyDlg E d).1 = k.adopt E d := by
  unfold Keyhive.applyDlg
  split
  · rename_i g hg
    split
    · exact .inl (.refl k)
    · exact .inl (.insertGroup hg rfl rfl)
  · rename_i hng
    split
    · rename_i doc hd
      split
      · exact .inl (.refl k)
      · rename_i g' _
        exact .inl (.insertDoc (d := { doc with group := g' }) hd rfl rfl rfl)
    · rename_i hnd
      split
      · have h1 := unmoved_promote (E := E) k (removeIndividual_groups k d.subject).1 (removeIndividual_groups k d.subject).2 d
        split
        · rename_i heq; rw [heq] at h1; exact .inl h1
        · rename_i heq; rw [heq] at h1; exact .inl h1
      · exact .inr ⟨hng, hnd, rfl⟩

/-- What a received event does to the groups and documents a device knows. -/
theorem receive_cases (k : Keyhive) (e : Event) : Unmoved k (k.receive E e).1 ∨
    ∃ s d, E.validDlg s = true ∧ k.toDlg s = .ok d ∧ AMap.get k.groups d.subject = none ∧ AMap.get k.docs d.subject = none ∧
      (k.receive E e).1 = k.adopt E d := by
  cases e with
  | prekey op => exact .inl (.of rfl rfl)
  | cgka i op => exact .inl (unmoved_receiveCgkaOp k i op)
  | dlg s =>
    show Unmoved k (k.receiveDelegation E s).1 ∨ ∃ s' d, _ ∧ _ ∧ _ ∧ _ ∧ (k.receiveDelegation E s).1 = _
    unfold Keyhive.receiveDelegation
    split
    · exact .inl (.refl k)
    · split
      · exact .inl (.refl k)
      · rename_i hv
        split
        · exact .inl (.refl k)
        · rename_i d hd
          refine (applyDlg_cases k d).imp (fun h => h) (fun h => ⟨s, d, ?_, hd, h⟩)
          simpa using hv
  | rev s =>
    refine .inl ?_
    show Unmoved k (k.receiveRevocation E s).1
    unfold Keyhive.receiveRevocation
    split
    · exact .refl k
    · split
      · exact .refl k
      · split
        · exact .refl k
        · exact unmoved_applyRev k _

/-- What adopting does, for a delegation by the key of the group or document itself and for others. -/
theorem adopt_docs (k : Keyhive) (d : Dlg) (i : Id) : AMap.get (k.adopt E d).docs i =
    if i = d.issuer ∧ headsIn d.content d.subject ≠ [] then some ⟨(Group.new E.opDigest d).rebuild E.opDigest, headsIn d.content d.subject, none⟩
    else AMap.get k.docs i := by
  unfold Keyhive.adopt headsIn
  dsimp only
  split
  · rename_i h hs heq
    rw [heq]
    show AMap.get (AMap.insert k.docs d.issuer _) i = _
    rw [AMap.get_insert]
    simp
  · rename_i hne
    rw [if_neg]
    · rfl
    · rintro ⟨-, h⟩
      cases hx : (d.content.find? (fun p => decide (p.1 = d.subject))).map (·.2) with
      | none => rw [hx] at h; exact h rfl
      | some l =>
        cases l with
        | nil => rw [hx] at h; exact h rfl
        | cons a l => exact hne _ _ hx

theorem adopt_groups (k : Keyhive) (d : Dlg) (i : Id) : AMap.get (k.adopt E d).groups i =
    if i = d.issuer ∧ headsIn d.content d.subject = [] then some (Group.new E.opDigest d) else AMap.get k.groups i := by
  unfold Keyhive.adopt headsIn
  dsimp only
  split
  · rename_i h hs heq
    rw [heq, if_neg (by simp)]
    rfl
  · rename_i hne
    have : ((d.content.find? (fun p => decide (p.1 = d.subject))).map (·.2)).getD [] = [] := by
      cases hx : (d.content.find? (fun p => decide (p.1 = d.subject))).map (·.2) with
      | none => rfl
      | some l =>
        cases l with
        | nil => rfl
        | cons a l => exact absurd hx (hne _ _)
    rw [this]
    show AMap.get (AMap.insert k.groups d.issuer _) i = _
    rw [AMap.get_insert]
    simp

/-! ## The heads of a known document -/

/-- The device has the document, with these heads. -/
def Headed (did : Id) (heads : List Nat) (k : Keyhive) : Prop := (AMap.get k.docs did).map Doc.heads = some heads

theorem toDlg_root {k : Keyhive} {s : SDlg} {d : Dlg} (hd : k.toDlg s = .ok d) (hs : s.proof = none) : d.subject = s.issuer := by
  unfold Keyhive.toDlg at hd
  rw [hs] at hd
  simp only [Keyhive.findProof] at hd
  repeat' split at hd
  all_goals
    cases hd
  all_goals rfl

theorem toDlg_content {k : Keyhive} {s : SDlg} {d : Dlg} (hd : k.toDlg s = .ok d) : d.content = s.content := by
  unfold Keyhive.toDlg at hd
  split at hd
  · cases hd
  · rename_i proof _
    split at hd
    · cases hd
    · split at hd
      · cases hd
      · cases hd
        cases proof <;> rfl

theorem headed_receive {did : Id} {heads : List Nat} (ho : E.OnlyRoots did) {k : Keyhive} (h : Headed did heads k) (e : Event) :
    Headed did heads (k.receive E e).1 := by
  rcases receive_cases (E := E) k e with h1 | ⟨s, d, hv, hd, h1, h2, h3⟩
  · exact (h1.docs did).trans h
  · rw [h3]
    unfold Headed
    rw [adopt_docs, if_neg]
    · exact h
    · rintro ⟨hi, -⟩
      have hi' := (toDlg_stored hd).1
      have hr := toDlg_root hd (ho s hv (hi'.symm.trans hi.symm))
      rw [hr, ← hi', ← hi] at h2
      rw [Headed, h2] at h
      cases h

theorem headed_call {did : Id} {heads : List Nat} (ho : E.OnlyRoots did) {k : Keyhive} (h : Headed did heads k) (c : Call)
    (hn : ∀ L S co hs, c ≠ .newDoc L S did co hs) : Headed did heads (c.run E k) := by
  have un : ∀ {k'}, Unmoved k k' → Headed did heads k' := fun hu => (hu.docs did).trans h
  have same : ∀ {k1 k2 : Keyhive}, k2.docs = k1.docs → Headed did heads k1 → Headed did heads k2 := by
    intro k1 k2 he h1
    unfold Headed
    rw [he]
    exact h1
  cases c with
  | receive e => exact headed_receive ho h e
  | ingest ord events => exact ingest_keeps (P := Headed did heads) (fun k e h => headed_receive ho h e) (fun k p h => h) ord events h
  | contactCard op => exact h
  | newGroup S gid co =>
    show Headed did heads (k.generateGroup E S gid co).1
    unfold Keyhive.generateGroup
    split
    · exact h
    · rename_i g hg
      exact same (storeDlgs_same (E := E) (AMap.values g.dlgHeads) k).2.1 h
  | newDoc L S did' co hs =>
    have hne : did' ≠ did := fun he => hn L S co hs (by rw [he])
    show Headed did heads (k.generateDoc E L S did' co hs).1
    unfold Keyhive.generateDoc
    split
    · exact h
    · rename_i g hg
      have h2 := (storeDlgs_same (E := E) (AMap.values g.dlgHeads) k).2.1
      simp only
      repeat' split
      · exact same h2 h
      · exact same h2 h
      · exact same h2 h
      · obtain ⟨_, rfl, -⟩ := generate_ok hg
        unfold Headed Keyhive.insertDoc
        dsimp only
        rw [AMap.get_insert, h2, if_neg (by exact fun he => hne he.symm)]
        exact h
  | addToGroup L gid who can content => exact un (unmoved_addToGroup k L gid who can content)
  | addToDoc L did who can content => exact un (unmoved_addToDoc k L did who can content)
  | revokeFromGroup L gid member retain content => exact un (unmoved_revokeFromGroup k L gid member retain content)
  | revokeFromDoc L did member retain content => exact un (unmoved_revokeFromDoc k L did member retain content)
  | ingestArchive ord a =>
    exact ingestArchive_keeps (P := Headed did heads) (fun k e h => headed_receive ho h e) (fun k p h => h) (fun hs h => same hs.docs h) ord a h
  | encrypt L did r ps x =>
    show Headed _ heads (k.encryptContent E L did r ps x).1
    unfold Keyhive.encryptContent
    split
    · exact h
    · rename_i hd
      exact un ((Unmoved.refl k).setDoc hd (encryptContent_heads ..))
  | decrypt did e =>
    show Headed _ heads (k.decryptContent E did e).1
    unfold Keyhive.decryptContent
    split
    · exact h
    · rename_i hd
      exact un ((Unmoved.refl k).setDoc hd (decryptContent_heads ..))
  | pcsUpdate L did =>
    show Headed _ heads (k.forcePcsUpdate E L did).1
    unfold Keyhive.forcePcsUpdate
    split
    · exact h
    · rename_i hd
      exact un ((Unmoved.refl k).setDoc hd (pcsUpdate_heads ..))

/-! ## What a group or document was made with -/

/-- What the device takes the group or document for. -/
def Found (i : Id) (heads : List Nat) (k : Keyhive) : Prop :=
  (∀ d, AMap.get k.docs i = some d → d.heads = heads ∧ heads ≠ []) ∧ (heads ≠ [] → AMap.get k.groups i = none)

theorem Found.unmoved {i : Id} {heads : List Nat} {k k' : Keyhive} (h : Found i heads k) (hu : Unmoved k k') : Found i heads k' := by
  refine ⟨fun d hd => ?_, fun hne => (hu.groups i).2 (h.2 hne)⟩
  have h1 := hu.docs i
  rw [hd] at h1
  cases h2 : AMap.get k.docs i with
  | none => rw [h2] at h1; cases h1
  | some d0 =>
    rw [h2] at h1
    have h3 : d.heads = d0.heads := by simpa using h1
    rw [h3]
    exact h.1 d0 h2

theorem found_receive {i : Id} {heads : List Nat} (hf : E.Founded i heads) {J : Id → Prop} {k : Keyhive} (hR : Roles Ind J k) (h : Found i heads k) (e : Event) :
    Found i heads (k.receive E e).1 := by
  rcases receive_cases (E := E) k e with h1 | ⟨s, d, hv, hd, h1, h2, h3⟩
  · exact h.unmoved h1
  · rw [h3]
    obtain ⟨hi, hsub⟩ := toDlg_stored hd
    have hsub : d.subject = s.issuer := by
      rcases hsub with h4 | ⟨x, p, h4, h5⟩
      · exact h4.2
      · have := hR.subj x p h4
        rw [← h5] at this
        rcases this with h6 | h6
        · exact absurd h1 h6
        · exact absurd h2 h6
    have hc : i = d.issuer → headsIn d.content d.subject = heads := by
      intro he
      rw [toDlg_content hd, hsub, ← hi, ← he]
      exact (hf s hv (hi.symm.trans he.symm)).2
    refine ⟨fun x hx => ?_, fun hne => ?_⟩
    · rw [adopt_docs] at hx
      split at hx
      · rename_i hcond
        cases hx
        rw [hc hcond.1] at hcond ⊢
        exact ⟨rfl, hcond.2⟩
      · exact h.1 x hx
    · rw [adopt_groups, if_neg]
      · exact h.2 hne
      · rintro ⟨h4, h5⟩
        rw [hc h4] at h5
        exact hne h5

theorem generate_content {S : Op → Option Nat} (hS : Signs E S) {id : Id} {a : Agent} {parents : List Agent} {content : Content} {g : Group}
    (h : Group.generate E.opDigest S id (a :: parents) content = .ok g) {heads : List Nat} (hf : E.Founded id heads) : headsIn content id = heads := by
  have hv := generate_valid hS h
  obtain ⟨hs, rfl, h1, h2, h3⟩ := generate_ok h
  have hne := h2 (by simp)
  cases hh : hs with
  | nil => exact absurd hh hne
  | cons p rest =>
    have hg : AMap.get hs p.1 = some p.2 := AMap.get_of_mem h1 (by rw [hh]; exact List.mem_cons_self)
    obtain ⟨-, a, -, s, he⟩ := h3 p.1 p.2 hg
    have hm : p.2 ∈ AMap.values hs := by rw [hh]; simp [AMap.values]
    have h4 := hv p.2 hm
    rw [he, sdlg_mk] at h4
    exact (hf _ h4 rfl).2

theorem found_call {i : Id} {heads : List Nat} (hI : E.Individuals Ind) (hf : E.Founded i heads) {k : Keyhive} (hk : ReachPlain E Ind k)
    (h : Found i heads k) (c : Call) (hc : c.Honest E) (hp : c.Plain E Ind k) : Found i heads (c.run E k) := by
  have hR := reach_roles hI hk
  have un : ∀ {k'}, Unmoved k k' → Found i heads k' := fun hu => h.unmoved hu
  have batch : ∀ {k : Keyhive}, Roles Ind (fun _ => False) k → Found i heads k → ∀ {ord : List Event → List Event}, (∀ l, (ord l).Perm l) →
      ∀ {events : List Event}, (∀ op, .prekey op ∈ events → Ind op.issuer) → Found i heads (k.ingest E ord events).1 := by
    intro k hR h ord hord events he
    refine (rounds_fine (P := fun k => Roles Ind (fun _ => False) k ∧ Found i heads k) (Q := Event.Fine Ind)
      (fun k e hq h => ⟨roles_receive hI h.1 hq, found_receive hf h.1 h.2 e⟩) ?_ ?_ ⟨hR, h⟩).2
    · rintro k p hp ⟨h, h'⟩
      refine ⟨⟨h.free, h.subj, h.reg, fun op ho => ?_, h.here, h.known⟩, h'⟩
      rcases hp _ ho with h1 | h1
      · exact h1 op rfl
      · exact h.pend op h1
    · intro e hm op ho
      subst ho
      have := mem_of_dedup ((hord _).mem_iff.1 hm)
      rcases List.mem_append.1 this with h1 | h1
      · exact he op h1
      · exact hR.pend op h1
  cases c with
  | receive e => exact found_receive hf hR h e
  | ingest ord events => exact batch hR h hp.1 hp.2
  | contactCard op => exact h
  | newGroup S gid co =>
    show Found i heads (k.generateGroup E S gid co).1
    unfold Keyhive.generateGroup
    split
    · exact h
    · rename_i g hg
      obtain ⟨h1, h2, -⟩ := storeDlgs_same (E := E) (AMap.values g.dlgHeads) k
      refine ⟨fun d hd => h.1 d ?_, fun hne => ?_⟩
      · rw [← h2]; exact hd
      · unfold Keyhive.insertGroup
        dsimp only
        rw [AMap.get_insert, h1, if_neg]
        · exact h.2 hne
        · intro he
          obtain ⟨_, rfl, -⟩ := generate_ok hg
          have he : i = gid := he
          subst he
          exact hne (generate_content hc hg hf).symm
  | newDoc L S did co hs =>
    have hp : (∃ i, _) ∧ hs ≠ [] := hp
    show Found i heads (k.generateDoc E L S did co hs).1
    have e : ∀ {k' : Keyhive}, k'.groups = k.groups → k'.docs = k.docs → Found i heads k' := fun h1 h2 => un (.of h1 h2)
    unfold Keyhive.generateDoc
    split
    · exact h
    · rename_i g hg
      obtain ⟨h1, h2, -⟩ := storeDlgs_same (E := E) (AMap.values g.dlgHeads) k
      simp only
      repeat' split
      · exact e h1 h2
      · exact e h1 h2
      · exact e h1 h2
      · have hid : g.id = did := by obtain ⟨_, rfl, -⟩ := generate_ok hg; rfl
        refine ⟨fun d hd => ?_, fun hne => ?_⟩
        · unfold Keyhive.insertDoc at hd
          dsimp only at hd
          rw [AMap.get_insert, h2] at hd
          split at hd
          · rename_i he
            cases hd
            rw [hid] at he
            subst he
            have := generate_content hc.1 hg hf
            simp only [headsIn, List.find?_cons, decide_true, Option.map_some, Option.getD_some] at this
            exact ⟨this, by rw [← this]; exact hp.2⟩
          · exact h.1 d hd
        · exact (congrArg (fun m => AMap.get m i) h1).trans (h.2 hne)
  | addToGroup L gid who can content => exact un (unmoved_addToGroup k L gid who can content)
  | addToDoc L did who can content => exact un (unmoved_addToDoc k L did who can content)
  | revokeFromGroup L gid member retain content => exact un (unmoved_revokeFromGroup k L gid member retain content)
  | revokeFromDoc L did member retain content => exact un (unmoved_revokeFromDoc k L did member retain content)
  | ingestArchive ord a =>
    refine batch (roles_merge hR hp.2) (un (.of (merged_same k a).groups (merged_same k a).docs)) hp.1 (fun op ho => ?_)
    obtain ⟨x, _, hx⟩ := List.mem_map.1 ho
    cases x <;> cases hx
  | encrypt L did r ps x =>
    show Found i heads (k.encryptContent E L did r ps x).1
    unfold Keyhive.encryptContent
    split
    · exact h
    · rename_i hd
      exact un ((Unmoved.refl k).setDoc hd (encryptContent_heads ..))
  | decrypt did e =>
    show Found i heads (k.decryptContent E did e).1
    unfold Keyhive.decryptContent
    split
    · exact h
    · rename_i hd
      exact un ((Unmoved.refl k).setDoc hd (decryptContent_heads ..))
  | pcsUpdate L did =>
    show Found i heads (k.forcePcsUpdate E L did).1
    unfold Keyhive.forcePcsUpdate
    split
    · exact h
    · rename_i hd
      exact un ((Unmoved.refl k).setDoc hd (pcsUpdate_heads ..))

theorem reach_found {i : Id} {heads : List Nat} (hI : E.Individuals Ind) (hf : E.Founded i heads) {k : Keyhive} (hk : ReachPlain E Ind k) : Found i heads k := by
  induction hk with
  | start reg pairs h => exact ⟨fun d hd => (by cases hd), fun _ => rfl⟩
  | call c hk hc hp ih => exact found_call hI hf hk ih c hc hp

/-! ## The content that operations name -/

section

variable {H : Op → Nat} {N : Nested} {S : Op → Option Nat}

theorem addMember_content {g g' : Group} {who : Agent} {can : Access} {signer : Id} {content : Content} {d : Dlg}
    (h : g.addMember H N S who can signer content = .ok (g', d)) : d.content = content := by
  obtain ⟨proof, _, _, _, rfl, _⟩ := addMember_ok h
  cases proof <;> rfl

theorem issueRevocation_content {g g' : Group} {signer : Id} {revoke : Dlg} {proof : Option Dlg} {content : Content}
    {r : Rev} (h : g.issueRevocation H N S signer revoke proof content = .ok (g', r)) : r.content = content := by
  simp only [Group.issueRevocation, bind, Except.bind] at h
  split at h
  · cases h
  · rename_i s hs
    split at h
    · cases h
    · simp only [pure, Except.pure, Except.ok.injEq, Prod.mk.injEq] at h
      rw [← h.2]
      cases proof <;> rfl

theorem issueAll_content {signer : Id} {revoke : Dlg} {content : Content} : ∀ {ps : List (Option Dlg)} {g g' : Group}
    {done revs : List Rev}, (∀ r ∈ done, r.content = content) →
    Group.issueAll H N S signer revoke content g ps done = (g', .ok revs) → ∀ r ∈ revs, r.content = content := by
  intro ps
  induction ps with
  | nil => intro g g' done revs hd h; cases h; exact hd
  | cons p ps ih =>
    intro g g' done revs hd h
    unfold Group.issueAll at h
    split at h
    · cases h
    · rename_i g1 r hr
      refine ih ?_ h
      intro r' hr'
      rcases List.mem_append.1 hr' with h1 | h1
      · exact hd r' h1
      · rw [List.mem_singleton.1 h1]; exact issueRevocation_content hr

theorem revokeEach_content {member signer : Id} {content : Content} : ∀ {ds : List Dlg} {g g' : Group}
    {done revs : List Rev}, (∀ r ∈ done, r.content = content) →
    Group.revokeEach H N S member signer content g ds done = (g', .ok revs) → ∀ r ∈ revs, r.content = content := by
  intro ds
  induction ds with
  | nil => intro g g' done revs hd h; cases h; exact hd
  | cons d ds ih =>
    intro g g' done revs hd h
    unfold Group.revokeEach at h
    simp only at h
    split at h
    · cases h
    · rename_i g1 done1 hr
      refine ih ?_ h
      split at hr
      · exact issueAll_content hd hr
      · unfold Group.revokeOne at hr
        split at hr
        · split at hr
          · cases hr
          · cases hr
          · exact issueAll_content hd hr
        · exact issueAll_content hd hr

theorem redelegate_content {member signer : Id} {content : Content} : ∀ {ds : List Dlg} {g g' : Group}
    {done dlgs : List Dlg}, (∀ d ∈ done, d.content = content) →
    Group.redelegate H N S member signer content g ds done = (g', .ok dlgs) → ∀ d ∈ dlgs, d.content = content := by
  intro ds
  induction ds with
  | nil => intro g g' done revs hd h; cases h; exact hd
  | cons d ds ih =>
    intro g g' done revs hd h
    unfold Group.redelegate at h
    split at h
    · exact ih hd h
    · split at h
      · exact ih hd h
      · split at h
        · split at h
          · cases h
          · rename_i g1 d' ha
            refine ih ?_ h
            intro r' hr'
            rcases List.mem_append.1 hr' with h1 | h1
            · exact hd r' h1
            · rw [List.mem_singleton.1 h1]; exact addMember_content ha
        · exact ih hd h

theorem revokeMember_content {g g' : Group} {member : Id} {retain : Bool} {signer : Id} {content : Content}
    {revs : List Rev} {dlgs : List Dlg} (h : g.revokeMember H N S member retain signer content = (g', .ok (revs, dlgs))) :
    ∀ o ∈ listed revs dlgs, opContent o = content := by
  have main : (∀ r ∈ revs, r.content = content) ∧ ∀ d ∈ dlgs, d.content = content := by
    unfold Group.revokeMember at h
    split at h
    · cases h; simp
    · simp only at h
      split at h
      · cases h
      · rename_i hr
        have h1 := revokeEach_content (by simp) hr
        split at h
        · split at h
          · cases h
          · rename_i hd
            cases h
            exact ⟨h1, redelegate_content (by simp) hd⟩
        · cases h
          exact ⟨h1, by simp⟩
  intro o ho
  rcases List.mem_append.1 ho with h1 | h1
  · obtain ⟨r, hr, rfl⟩ := List.mem_map.1 h1
    exact main.1 r hr
  · obtain ⟨d, hd, rfl⟩ := List.mem_map.1 h1
    exact main.2 d hd

end

theorem keeps_iff (k : Keyhive) (o : Op) : Keeps k o ↔ Stored k o := by cases o <;> exact Iff.rfl

theorem propagateAdds_stores {L : Local} {gid : Id} {who : Agent} : ∀ (dids : List Id) (k : Keyhive) (acc : List SOp),
    (Keyhive.propagateAdds E L gid who k dids acc).1.dlgs = k.dlgs ∧ (Keyhive.propagateAdds E L gid who k dids acc).1.revs = k.revs
  | [], k, acc => ⟨rfl, rfl⟩
  | did :: dids, k, acc => by
    have h1 : (k.propagateAdd E L gid who did).1.dlgs = k.dlgs ∧ (k.propagateAdd E L gid who did).1.revs = k.revs := by
      unfold Keyhive.propagateAdd
      repeat' split
      all_goals exact ⟨rfl, rfl⟩
    unfold Keyhive.propagateAdds
    split
    · rename_i heq; rw [heq] at h1; exact h1
    · rename_i k' ops heq
      rw [heq] at h1
      have := propagateAdds_stores (L := L) (gid := gid) (who := who) dids k' (acc ++ ops)
      exact ⟨this.1.trans h1.1, this.2.trans h1.2⟩

theorem propagateRemoves_stores {L : Local} {gid : Id} {ids : List Id} : ∀ (dids : List Id) (k : Keyhive) (acc : List SOp),
    (Keyhive.propagateRemoves E L gid ids k dids acc).1.dlgs = k.dlgs ∧ (Keyhive.propagateRemoves E L gid ids k dids acc).1.revs = k.revs
  | [], k, acc => ⟨rfl, rfl⟩
  | did :: dids, k, acc => by
    have h1 : (k.propagateRemove E L gid ids did).1.dlgs = k.dlgs ∧ (k.propagateRemove E L gid ids did).1.revs = k.revs := by
      unfold Keyhive.propagateRemove
      repeat' split
      all_goals exact ⟨rfl, rfl⟩
    unfold Keyhive.propagateRemoves
    split
    · rename_i heq; rw [heq] at h1; exact h1
    · rename_i k' ops heq
      rw [heq] at h1
      have := propagateRemoves_stores (L := L) (gid := gid) (ids := ids) dids k' (acc ++ ops)
      exact ⟨this.1.trans h1.1, this.2.trans h1.2⟩

theorem stored_of {k k' : Keyhive} (hd : k'.dlgs = k.dlgs) (hr : k'.revs = k.revs) {o : Op} (h : Stored k' o) : Stored k o := by
  cases o with
  | dlg d => unfold Stored at *; rw [← hd]; exact h
  | rev r => unfold Stored at *; rw [← hr]; exact h

theorem revokeFromDoc_content {L : Local} {k k' : Keyhive} {did member : Id} {retain : Bool} {content : Content} {ops : List SOp}
    (h : k.revokeFromDoc E L did member retain content = (k', .ok ops)) {o : Op} (ho : Stored k' o) : Stored k o ∨ opContent o = content := by
  unfold Keyhive.revokeFromDoc at h
  split at h
  · cases h
  · split at h
    · cases h
    · split at h
      · cases h
      · rename_i g' revs dlgs heq
        simp only at h
        split at h
        · cases h
        · split at h
          · cases h
          · cases h
            have h1 : Stored (k.storeAll E revs dlgs) o := stored_of rfl rfl ho
            exact ((storeAll_facts (E := E) revs dlgs k).2.2.2.2 o h1).imp (fun h => h) (revokeMember_content heq o)

theorem revokeFromGroup_content {L : Local} {k k' : Keyhive} {gid member : Id} {retain : Bool} {content : Content} {ops : List SOp}
    (h : k.revokeFromGroup E L gid member retain content = (k', .ok ops)) {o : Op} (ho : Stored k' o) : Stored k o ∨ opContent o = content := by
  unfold Keyhive.revokeFromGroup at h
  split at h
  · cases h
  · split at h
    · cases h
    · split at h
      · cases h
      · rename_i g' revs dlgs heq
        simp only at h
        have fin : Stored (k.storeAll E revs dlgs) o → Stored k o ∨ opContent o = content := fun h1 =>
          ((storeAll_facts (E := E) revs dlgs k).2.2.2.2 o h1).imp (fun h => h) (revokeMember_content heq o)
        split at h
        · cases h
          exact fin (stored_of rfl rfl ho)
        · have hs := propagateRemoves_stores (E := E) (L := L) (gid := gid) (ids := ‹List Id›)
            (AMap.keys ({ k.storeAll E revs dlgs with groups := AMap.insert k.groups gid g' } : Keyhive).docs)
            { k.storeAll E revs dlgs with groups := AMap.insert k.groups gid g' } []
          rw [h] at hs
          exact fin (stored_of hs.1 hs.2 ho)

end Verif.Keyhive
