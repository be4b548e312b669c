import Verif.Keyhive.FadeLemmas
import Verif.Group.DownLemmas

/-! # The groups and documents of a device -/

namespace Verif.Keyhive

open Verif.Group Verif.Cgka Verif.BeeKem

variable {E : Env}

/-- The group listed under an id: its own id, heads under their digests, members rebuilt from the heads. -/
def Good (E : Env) (i : Id) (g : Group) : Prop := g.id = i ∧ HeadsOk E.opDigest g ∧ Rebuilt E.opDigest g

theorem Good.run {i : Id} {g g' : Group} {l : List Op} (h : Good E i g) (hr : Run E.opDigest g l g') : Good E i g' := by
  obtain ⟨h1, h2, h3⟩ := Run.good h.2.1 h.2.2 hr
  exact ⟨h3.trans h.1, h1, h2⟩

theorem Good.dlg {i : Id} {g g' : Group} {N : Nested} {d : Dlg} (h : Good E i g) (hd : g.receiveDelegation E.opDigest N d = .ok g') :
    Good E i g' := by
  obtain ⟨h1, h2, h3⟩ := accepts_step (.dlg N hd) h.2.1
  exact ⟨h3.trans h.1, h1, h2⟩

theorem Good.rev {i : Id} {g g' : Group} {N : Nested} {r : Rev} (h : Good E i g) (hd : g.receiveRevocation E.opDigest N r = .ok g') :
    Good E i g' := by
  obtain ⟨h1, h2, h3⟩ := accepts_step (.rev N hd) h.2.1
  exact ⟨h3.trans h.1, h1, h2⟩

theorem Good.add {i : Id} {g g' : Group} {N : Nested} {S : Op → Option Nat} {who : Agent} {can : Access} {signer : Id} {content : Content}
    {d : Dlg} (h : Good E i g) (ha : g.addMember E.opDigest N S who can signer content = .ok (g', d)) : Good E i g' := by
  obtain ⟨_, _, _, _, _, h3⟩ := addMember_ok ha
  exact h.dlg h3

theorem Good.revoke {i : Id} {g : Group} (h : Good E i g) (N : Nested) (S : Op → Option Nat) (member : Id) (retain : Bool) (signer : Id)
    (content : Content) : Good E i (g.revokeMember E.opDigest N S member retain signer content).1 := by
  obtain ⟨l, hl⟩ := revokeMember_run (H := E.opDigest) (N := N) (S := S) g member retain signer content
  exact h.run hl

theorem good_new (d : Dlg) : Good E (Group.new E.opDigest d).id (Group.new E.opDigest d) := ⟨rfl, (new_ok d).1, rebuilt_rebuild _⟩

theorem good_adopt (d : Dlg) : Good E (Group.new E.opDigest d).id ((Group.new E.opDigest d).rebuild E.opDigest) :=
  ⟨rfl, headsOk_rebuild (new_ok d).1, rebuilt_rebuild _⟩

theorem good_generate {S : Op → Option Nat} {id : Id} {parents : List Agent} {content : Content} {g : Group}
    (h : Group.generate E.opDigest S id parents content = .ok g) : Good E g.id g := ⟨rfl, (generate_good h).1, (generate_good h).2⟩

/-- All groups of the device are good. -/
structure Kept (E : Env) (k : Keyhive) : Prop where
  groups : ∀ {i g}, AMap.get k.groups i = some g → Good E i g
  docs : ∀ {i d}, AMap.get k.docs i = some d → Good E i d.group

theorem Kept.same {k k' : Keyhive} (h : Kept E k) (hg : k'.groups = k.groups) (hd : k'.docs = k.docs) : Kept E k' :=
  ⟨fun hi => h.groups (by rw [← hg]; exact hi), fun hi => h.docs (by rw [← hd]; exact hi)⟩

theorem Kept.insertGroup {k k' : Keyhive} (h : Kept E k) {i : Id} {g : Group} (hi : Good E i g)
    (hg : k'.groups = AMap.insert k.groups i g) (hd : k'.docs = k.docs) : Kept E k' := by
  refine ⟨fun {j x} hj => ?_, fun hj => h.docs (by rw [← hd]; exact hj)⟩
  rw [hg, AMap.get_insert] at hj
  split at hj
  · rename_i he; cases hj; rw [he]; exact hi
  · exact h.groups hj

theorem Kept.insertDoc {k k' : Keyhive} (h : Kept E k) {i : Id} {d : Doc} (hi : Good E i d.group)
    (hg : k'.groups = k.groups) (hd : k'.docs = AMap.insert k.docs i d) : Kept E k' := by
  refine ⟨fun hj => h.groups (by rw [← hg]; exact hj), fun {j x} hj => ?_⟩
  rw [hd, AMap.get_insert] at hj
  split at hj
  · rename_i he; cases hj; rw [he]; exact hi
  · exact h.docs hj

theorem Kept.setDoc {k k' : Keyhive} (h : Kept E k) {i : Id} {d : Doc} (hi : Good E i d.group)
    (hg : k'.groups = k.groups) (hd : k'.docs = Keyhive.replace i d k.docs) : Kept E k' := by
  refine ⟨fun hj => h.groups (by rw [← hg]; exact hj), fun {j x} hj => ?_⟩
  rw [hd, get_replace] at hj
  split at hj
  · rename_i he; cases hj; rw [he.1]; exact hi
  · exact h.docs hj

theorem Kept.good {k : Keyhive} (h : Kept E k) {i : Id} {g : Group} (hi : AMap.get k.world i = some g) : Good E i g := by
  have key : ∀ (l : AMap Id Group) (m : AMap Id Group), AMap.get (l ++ m) i = some g → AMap.get l i = some g ∨ AMap.get m i = some g := by
    intro l m
    induction l with
    | nil => exact fun h => Or.inr h
    | cons p l ih =>
      intro hp
      rw [List.cons_append, AMap.get_cons] at hp
      rw [AMap.get_cons]
      split at hp
      · rename_i he; rw [if_pos he]; exact Or.inl hp
      · rename_i he; rw [if_neg he]; exact ih hp
  rcases key _ _ hi with h1 | h1
  · exact h.groups h1
  · have : ∀ m : AMap Id Doc, AMap.get (m.map (fun p => (p.1, p.2.group))) i = some g → ∃ d, AMap.get m i = some d ∧ d.group = g := by
      intro m
      induction m with
      | nil => intro h; cases h
      | cons p m ih =>
        intro hp
        rw [List.map_cons, AMap.get_cons] at hp
        rw [AMap.get_cons]
        split at hp
        · rename_i he; rw [if_pos he]; cases hp; exact ⟨_, rfl, rfl⟩
        · rename_i he; rw [if_neg he]; exact ih hp
    obtain ⟨d, h2, rfl⟩ := this _ h1
    exact h.docs h2

theorem Kept.tidy {k : Keyhive} (h : Kept E k) {i : Id} {g : Group} (hi : AMap.get k.world i = some g) : g.Tidy := (h.good hi).2.2.tidy

theorem removeIndividual_groups (k : Keyhive) (i : Id) :
    (k.removeIndividual i).groups = k.groups ∧ (k.removeIndividual i).docs = k.docs := by
  unfold Keyhive.removeIndividual
  split <;> exact ⟨rfl, rfl⟩

theorem kept_adopt {k : Keyhive} (h : Kept E k) (d : Dlg) : Kept E (k.adopt E d) := by
  unfold Keyhive.adopt
  simp only
  split
  · exact h.insertDoc (good_adopt d) rfl rfl
  · exact h.insertGroup (good_new d) rfl rfl

theorem kept_applyDlg {k : Keyhive} (h : Kept E k) (d : Dlg) : Kept E (k.applyDlg E d).1 := by
  have hr := removeIndividual_groups k d.subject
  unfold Keyhive.applyDlg
  split
  · rename_i g hg
    split
    · exact h
    · rename_i g' hg'
      exact h.insertGroup ((h.groups hg).dlg hg') rfl rfl
  · split
    · rename_i doc hd
      split
      · exact h
      · rename_i g' hg'
        exact h.insertDoc (d := { doc with group := g' }) ((h.docs hd).dlg hg') rfl rfl
    · split
      · have hp := promote_fst (E := E) (k.removeIndividual d.subject) d
        split
        · rename_i k' e heq
          rw [heq] at hp
          subst hp
          exact h.same hr.1 hr.2
        · rename_i k' e heq
          rw [heq] at hp
          subst hp
          exact h.same hr.1 hr.2
      · exact kept_adopt h d

theorem kept_applyRev {k : Keyhive} (h : Kept E k) (r : Rev) : Kept E (k.applyRev E r).1 := by
  have hr := removeIndividual_groups k r.subject
  unfold Keyhive.applyRev
  split
  · rename_i g hg
    split
    · exact h
    · rename_i g' hg'
      exact h.insertGroup ((h.groups hg).rev hg') rfl rfl
  · split
    · rename_i doc hd
      split
      · exact h
      · rename_i g' hg'
        exact h.insertDoc (d := { doc with group := g' }) ((h.docs hd).rev hg') rfl rfl
    · split
      · have hp := promote_fst (E := E) (k.removeIndividual r.subject) r.revoke
        split
        · rename_i k' e heq
          rw [heq] at hp
          subst hp
          exact h.same hr.1 hr.2
        · rename_i k' e heq
          rw [heq] at hp
          subst hp
          split
          · exact h.same hr.1 hr.2
          · exact h.same hr.1 hr.2
      · exact h

theorem kept_closeDoc {α : Type} {k : Keyhive} (h : Kept E k) {i : Id} {d : Doc} (hd : AMap.get k.docs i = some d) (r : Doc × Res α)
    (hr : r.1.group = d.group) : Kept E (k.closeDoc i r).1 :=
  h.setDoc (i := i) (d := r.1) (by rw [hr]; exact h.docs hd) rfl rfl

theorem kept_receiveCgkaOp {k : Keyhive} (h : Kept E k) (i : Id) (op : SOp) : Kept E (k.receiveCgkaOp E i op).1 := by
  unfold Keyhive.receiveCgkaOp
  split
  · exact h
  · split
    · exact h
    · rename_i d hd
      split
      · split
        · split
          · exact h
          · exact kept_closeDoc h hd _ (mergeCgkaInviteOp_group ..)
        · split
          · unfold Keyhive.mergePublicInvite
            have hm := mergeCgkaInviteOp_group (E.hashCgka i) d op publicSk
            split
            · rename_i d' e heq
              rw [heq] at hm
              exact kept_closeDoc h hd _ hm
            · rename_i d' x heq
              rw [heq] at hm
              exact kept_closeDoc h hd _ ((resetCgkaOwner_group ..).trans hm)
          · exact kept_closeDoc h hd _ (mergeCgkaOp_group ..)
      · exact kept_closeDoc h hd _ (mergeCgkaOp_group ..)

theorem kept_receive {k : Keyhive} (h : Kept E k) (e : Event) : Kept E (k.receive E e).1 := by
  cases e with
  | prekey op => exact h.same rfl rfl
  | cgka i op => exact kept_receiveCgkaOp h i op
  | dlg s =>
    show Kept E (k.receiveDelegation E s).1
    unfold Keyhive.receiveDelegation
    repeat' split
    all_goals first | exact h | exact kept_applyDlg h _
  | rev s =>
    show Kept E (k.receiveRevocation E s).1
    unfold Keyhive.receiveRevocation
    repeat' split
    all_goals first | exact h | exact kept_applyRev h _

theorem storeDlgs_same : ∀ (ds : List Dlg) (k : Keyhive), (ds.foldl (Keyhive.storeDlg E) k).groups = k.groups ∧
    (ds.foldl (Keyhive.storeDlg E) k).docs = k.docs ∧ (ds.foldl (Keyhive.storeDlg E) k).reg = k.reg
  | [], _ => ⟨rfl, rfl, rfl⟩
  | d :: ds, k => by
    obtain ⟨h1, h2, h3⟩ := storeDlgs_same ds (k.storeDlg E d)
    exact ⟨h1, h2, h3⟩

theorem storeRevs_same : ∀ (rs : List Rev) (k : Keyhive), (rs.foldl (Keyhive.storeRev E) k).groups = k.groups ∧
    (rs.foldl (Keyhive.storeRev E) k).docs = k.docs ∧ (rs.foldl (Keyhive.storeRev E) k).reg = k.reg
  | [], _ => ⟨rfl, rfl, rfl⟩
  | r :: rs, k => by
    obtain ⟨h1, h2, h3⟩ := storeRevs_same rs (k.storeRev E r)
    exact ⟨h1, h2, h3⟩

theorem storeAll_same (revs : List Rev) (dlgs : List Dlg) (k : Keyhive) : (k.storeAll E revs dlgs).groups = k.groups ∧
    (k.storeAll E revs dlgs).docs = k.docs ∧ (k.storeAll E revs dlgs).reg = k.reg := by
  obtain ⟨h1, h2, h3⟩ := storeDlgs_same (E := E) dlgs (revs.foldl (Keyhive.storeRev E) k)
  obtain ⟨h4, h5, h6⟩ := storeRevs_same (E := E) revs k
  exact ⟨h1.trans h4, h2.trans h5, h3.trans h6⟩

theorem storeNew_same (g g' : Group) (k : Keyhive) : (k.storeNew E g g').groups = k.groups ∧
    (k.storeNew E g g').docs = k.docs ∧ (k.storeNew E g g').reg = k.reg := storeAll_same ..

theorem addCgkaMembers_group {H : SOp → Nat} {sign : Payload → Res SOp} : ∀ (l : List (Id × Pk)) (d : Doc) (acc : List SOp),
    (d.addCgkaMembers H sign l acc).1.group = d.group
  | [], _, _ => rfl
  | p :: l, d, acc => by
    unfold Doc.addCgkaMembers
    split
    · rfl
    · split
      · rfl
      · rw [addCgkaMembers_group l]

theorem removeCgkaMembers_group {H : SOp → Nat} {sign : Payload → Res SOp} : ∀ (l : List Id) (d : Doc) (acc : List SOp),
    (d.removeCgkaMembers H sign l acc).1.group = d.group
  | [], _, _ => rfl
  | p :: l, d, acc => by
    unfold Doc.removeCgkaMembers
    split
    · rfl
    · split
      · rfl
      · rw [removeCgkaMembers_group l]

theorem dropCgkaMembers_group {H : SOp → Nat} {sign : Payload → Res SOp} : ∀ (l : List Id) (d : Doc) (acc : List SOp),
    (d.dropCgkaMembers H sign l acc).1.group = d.group
  | [], _, _ => rfl
  | p :: l, d, acc => by
    unfold Doc.dropCgkaMembers
    split
    · rfl
    · split
      · rw [dropCgkaMembers_group l]
      · rw [dropCgkaMembers_group l]

theorem kept_newGroup {k : Keyhive} (h : Kept E k) (S : Op → Option Nat) (gid : Id) (co : List Agent) :
    Kept E (k.generateGroup E S gid co).1 := by
  unfold Keyhive.generateGroup
  split
  · exact h
  · rename_i g hg
    obtain ⟨h1, h2, _⟩ := storeDlgs_same (E := E) (AMap.values g.dlgHeads) k
    exact h.insertGroup (good_generate hg) (by simp only [Keyhive.insertGroup, h1]) h2

theorem kept_newDoc {k : Keyhive} (h : Kept E k) (L : Local) (S : Op → Option Nat) (did : Id) (co : List Agent) (heads : List Nat) :
    Kept E (k.generateDoc E L S did co heads).1 := by
  unfold Keyhive.generateDoc
  split
  · exact h
  · rename_i g hg
    obtain ⟨h1, h2, _⟩ := storeDlgs_same (E := E) (AMap.values g.dlgHeads) k
    simp only
    repeat' split
    · exact h.same h1 h2
    · exact h.same h1 h2
    · exact h.same h1 h2
    · rename_i c _
      exact h.insertDoc (i := g.id) (d := ⟨g, heads, some c⟩) (good_generate hg) h1 (by simp only [Keyhive.insertDoc, h2])

theorem kept_addToDoc {k : Keyhive} (h : Kept E k) (L : Local) (did : Id) (who : Agent) (can : Access) (content : Content) :
    Kept E (k.addMemberToDoc E L did who can content).1 := by
  unfold Keyhive.addMemberToDoc
  split
  · exact h
  · rename_i doc hd
    split
    · exact h
    · rename_i g' d hg
      have hgood := (h.docs hd).add hg
      have h1 : Kept E ((k.storeDlg E d).setDoc did { doc with group := g' }) := h.setDoc (i := did) (d := { doc with group := g' }) hgood rfl rfl
      simp only
      split
      · split
        · exact h1
        · rename_i prekeys _
          have hsame := addCgkaMembers_group (H := E.hashCgka did) (sign := L.signCgka did) prekeys { doc with group := g' } []
          split
          · rename_i doc'' e heq
            rw [heq] at hsame
            exact h1.setDoc (i := did) (d := doc'') (by rw [hsame]; exact hgood) rfl rfl
          · rename_i doc'' e heq
            rw [heq] at hsame
            exact h1.setDoc (i := did) (d := doc'') (by rw [hsame]; exact hgood) rfl rfl
      · exact h1

theorem kept_propagateAdd {k : Keyhive} (h : Kept E k) (L : Local) (gid : Id) (who : Agent) (did : Id) :
    Kept E (k.propagateAdd E L gid who did).1 := by
  unfold Keyhive.propagateAdd
  split
  · exact h
  · rename_i doc hd
    split
    · exact h
    · split
      · exact h
      · split
        · exact h
        · rename_i prekeys _
          have hsame := addCgkaMembers_group (H := E.hashCgka did) (sign := L.signCgka did) prekeys doc []
          split
          · rename_i doc'' e heq
            rw [heq] at hsame
            exact h.setDoc (i := did) (d := doc'') (by rw [hsame]; exact h.docs hd) rfl rfl
          · rename_i doc'' e heq
            rw [heq] at hsame
            exact h.setDoc (i := did) (d := doc'') (by rw [hsame]; exact h.docs hd) rfl rfl

theorem kept_propagateAdds {L : Local} {gid : Id} {who : Agent} : ∀ {dids : List Id} {k : Keyhive} {acc : List SOp},
    Kept E k → Kept E (Keyhive.propagateAdds E L gid who k dids acc).1 := by
  intro dids
  induction dids with
  | nil => intro k acc h; exact h
  | cons did dids ih =>
    intro k acc h
    have h1 := kept_propagateAdd h L gid who did
    unfold Keyhive.propagateAdds
    split
    · rename_i heq; rw [heq] at h1; exact h1
    · rename_i heq; rw [heq] at h1; exact ih h1

theorem kept_addToGroup {k : Keyhive} (h : Kept E k) (L : Local) (gid : Id) (who : Agent) (can : Access) (content : Content) :
    Kept E (k.addMemberToGroup E L gid who can content).1 := by
  unfold Keyhive.addMemberToGroup
  split
  · exact h
  · rename_i g hg0
    split
    · exact h
    · rename_i g' d hg
      have h1 : Kept E { k.storeDlg E d with groups := AMap.insert k.groups gid g' } := h.insertGroup ((h.groups hg0).add hg) rfl rfl
      simp only
      split
      · have h2 := kept_propagateAdds (E := E) (L := L) (gid := gid) (who := d.delegate)
          (dids := AMap.keys ({ k.storeDlg E d with groups := AMap.insert k.groups gid g' } : Keyhive).docs) (acc := []) h1
        split
        · rename_i heq; rw [heq] at h2; exact h2
        · rename_i heq; rw [heq] at h2; exact h2
      · exact h1

theorem kept_revokeFromDoc {k : Keyhive} (h : Kept E k) (L : Local) (did member : Id) (retain : Bool) (content : Content) :
    Kept E (k.revokeFromDoc E L did member retain content).1 := by
  unfold Keyhive.revokeFromDoc
  split
  · exact h
  · rename_i doc hd
    split
    · exact h
    · rename_i ids _
      have hgood := (h.docs hd).revoke (membersOf k.world [did]) L.sign member retain k.reg.me content
      split
      · rename_i g' e heq
        rw [heq] at hgood
        obtain ⟨s1, s2, _⟩ := storeNew_same (E := E) doc.group g' k
        exact h.setDoc (i := did) (d := { doc with group := g' }) hgood s1 (by simp only [Keyhive.setDoc, s2])
      · rename_i g' revs dlgs heq
        rw [heq] at hgood
        obtain ⟨s1, s2, _⟩ := storeAll_same (E := E) revs dlgs k
        have h1 : Kept E ((k.storeAll E revs dlgs).setDoc did { doc with group := g' }) :=
          h.setDoc (i := did) (d := { doc with group := g' }) hgood s1 (by simp only [Keyhive.setDoc, s2])
        simp only
        split
        · exact h1
        · rename_i still _
          split
          · rename_i doc'' e heq2
            have hsame : doc''.group = g' := by
              have := removeCgkaMembers_group (H := E.hashCgka did) (sign := L.signCgka did)
                (List.filter (fun i => decide (i ∉ still)) ids) { doc with group := g' } []
              rw [heq2] at this
              exact this
            exact h1.setDoc (i := did) (d := doc'') (by rw [hsame]; exact hgood) rfl rfl
          · rename_i doc'' e heq2
            have hsame : doc''.group = g' := by
              have := removeCgkaMembers_group (H := E.hashCgka did) (sign := L.signCgka did)
                (List.filter (fun i => decide (i ∉ still)) ids) { doc with group := g' } []
              rw [heq2] at this
              exact this
            exact h1.setDoc (i := did) (d := doc'') (by rw [hsame]; exact hgood) rfl rfl

theorem kept_propagateRemove {k : Keyhive} (h : Kept E k) (L : Local) (gid : Id) (ids : List Id) (did : Id) :
    Kept E (k.propagateRemove E L gid ids did).1 := by
  unfold Keyhive.propagateRemove
  split
  · exact h
  · rename_i doc hd
    split
    · exact h
    · split
      · exact h
      · exact h.setDoc (i := did) (by rw [dropCgkaMembers_group]; exact h.docs hd) rfl rfl

theorem kept_propagateRemoves {L : Local} {gid : Id} {ids : List Id} : ∀ {dids : List Id} {k : Keyhive} {acc : List SOp},
    Kept E k → Kept E (Keyhive.propagateRemoves E L gid ids k dids acc).1 := by
  intro dids
  induction dids with
  | nil => intro k acc h; exact h
  | cons did dids ih =>
    intro k acc h
    have h1 := kept_propagateRemove h L gid ids did
    unfold Keyhive.propagateRemoves
    split
    · rename_i heq; rw [heq] at h1; exact h1
    · rename_i heq; rw [heq] at h1; exact ih h1

theorem kept_revokeFromGroup {k : Keyhive} (h : Kept E k) (L : Local) (gid member : Id) (retain : Bool) (content : Content) :
    Kept E (k.revokeFromGroup E L gid member retain content).1 := by
  unfold Keyhive.revokeFromGroup
  split
  · exact h
  · rename_i g hg0
    split
    · exact h
    · have hgood := (h.groups hg0).revoke (membersOf k.world [gid]) L.sign member retain k.reg.me content
      split
      · rename_i g' e heq
        rw [heq] at hgood
        exact h.insertGroup hgood rfl (storeNew_same (E := E) g g' k).2.1
      · rename_i g' revs dlgs heq
        rw [heq] at hgood
        obtain ⟨s1, s2, _⟩ := storeAll_same (E := E) revs dlgs k
        have h3 : Kept E { k.storeAll E revs dlgs with groups := AMap.insert k.groups gid g' } := h.insertGroup hgood rfl s2
        simp only
        split
        · exact h3
        · exact kept_propagateRemoves h3

theorem encryptContent_group (H : SOp → Nat) (sign : Payload → Res SOp) (g : BeeKem.Gen) (d : Doc) (r ps x : Nat) :
    (d.encryptContent H sign g r ps x).1.group = d.group := by
  unfold Doc.encryptContent
  repeat' split
  all_goals rfl

theorem decryptContent_group (H : SOp → Nat) (d : Doc) (e : EncContent) : (d.decryptContent H e).1.group = d.group := by
  unfold Doc.decryptContent
  split
  · rfl
  · split <;> rfl

theorem pcsUpdate_group (H : SOp → Nat) (sign : Payload → Res SOp) (g : BeeKem.Gen) (d : Doc) :
    (d.pcsUpdate H sign g).1.group = d.group := by
  unfold Doc.pcsUpdate
  repeat' split
  all_goals rfl

theorem kept_encryptContent {k : Keyhive} (h : Kept E k) (L : Local) (did : Id) (r ps x : Nat) :
    Kept E (k.encryptContent E L did r ps x).1 := by
  unfold Keyhive.encryptContent
  split
  · exact h
  · rename_i hd
    exact h.setDoc (i := did) (by rw [encryptContent_group]; exact h.docs hd) rfl rfl

theorem kept_decryptContent {k : Keyhive} (h : Kept E k) (did : Id) (e : EncContent) : Kept E (k.decryptContent E did e).1 := by
  unfold Keyhive.decryptContent
  split
  · exact h
  · rename_i hd
    exact h.setDoc (i := did) (by rw [decryptContent_group]; exact h.docs hd) rfl rfl

theorem kept_forcePcsUpdate {k : Keyhive} (h : Kept E k) (L : Local) (did : Id) : Kept E (k.forcePcsUpdate E L did).1 := by
  unfold Keyhive.forcePcsUpdate
  split
  · exact h
  · rename_i hd
    exact h.setDoc (i := did) (by rw [pcsUpdate_group]; exact h.docs hd) rfl rfl

theorem reach_kept {k : Keyhive} (h : Reach E k) : Kept E k := by
  induction h with
  | start reg pairs => exact ⟨(by intro i g h; cases h), (by intro i g h; cases h)⟩
  | call c h hc ih =>
    cases c with
    | receive e => exact kept_receive ih e
    | ingest ord events => exact ingest_keeps (P := Kept E) (fun k e h => kept_receive h e) (fun k p h => h.same rfl rfl) ord events ih
    | contactCard op => exact ih.same rfl rfl
    | newGroup S gid co => exact kept_newGroup ih S gid co
    | newDoc L S did co heads => exact kept_newDoc ih L S did co heads
    | addToGroup L gid who can content => exact kept_addToGroup ih L gid who can content
    | addToDoc L did who can content => exact kept_addToDoc ih L did who can content
    | revokeFromGroup L gid member retain content => exact kept_revokeFromGroup ih L gid member retain content
    | revokeFromDoc L did member retain content => exact kept_revokeFromDoc ih L did member retain content
    | ingestArchive ord a =>
      exact ingestArchive_keeps (P := Kept E) (fun k e h => kept_receive h e) (fun k p h => h.same rfl rfl)
        (fun hs h => h.same hs.groups hs.docs) ord a ih
    | encrypt L did r ps x => exact kept_encryptContent ih L did r ps x
    | decrypt did e => exact kept_decryptContent ih did e
    | pcsUpdate L did => exact kept_forcePcsUpdate ih L did

end Verif.Keyhive
