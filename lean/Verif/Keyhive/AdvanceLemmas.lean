import Verif.Keyhive.BridgeLemmas
import Verif.Keyhive.KeptSpec

/-! # The key tree of a document stays, and only moves on -/

namespace Verif.Keyhive

open Verif.Group Verif.Cgka Verif.BeeKem

variable {E : Env}

/-- What a call does to a key tree that is there keeps `P`. -/
structure Stays (H : SOp → Nat) (P : Cgka → Prop) : Prop where
  owner : ∀ {c} me sks, P c → P (c.withNewOwner me sks)
  add : ∀ {c sign} id pk, HonestSigner sign → P c → P (c.add H sign id pk).1
  remove : ∀ {c sign} id, HonestSigner sign → P c → P (c.remove H sign id).1
  update : ∀ {c sign} g n sk, HonestSigner sign → P c → P (c.update H sign g n sk).1
  encrypt : ∀ {c sign} g n r ps, HonestSigner sign → P c → P (c.newAppSecretFor H sign g n r ps).1
  decrypt : ∀ {c} e, P c → P (c.decryptionKeyFor H e).1
  receive : ∀ {c} op, P c → P (c.mergeConcurrentOperation H op).1

theorem stays_later (H : SOp → Nat) (c0 : Cgka) : Stays H (Later H c0) :=
  ⟨fun me sks h => .owner me sks h, fun id pk hq h => .call (cmd := .add _ id pk) h hq,
   fun id hq h => .call (cmd := .remove _ id) h hq, fun g n sk hq h => .call (cmd := .update _ g n sk) h hq,
   fun g n r ps hq h => .call (cmd := .encrypt _ g n r ps) h hq, fun e h => .call (cmd := .decrypt e) h trivial,
   fun op h => .call (cmd := .receive op) h trivial⟩

/-- The document has a key tree, and it satisfies `P`. -/
def Doc.Holds (P : Cgka → Prop) (d : Doc) : Prop := ∃ c, d.cgka = some c ∧ P c

section doc

variable {H : SOp → Nat} {P : Cgka → Prop} (C : Stays H P)

include C

theorem holds_mergeCgkaOp {d : Doc} (h : d.Holds P) (op : SOp) : (d.mergeCgkaOp H op).1.Holds P := by
  obtain ⟨c, hc, hp⟩ := h
  unfold Doc.mergeCgkaOp
  rw [hc]
  exact ⟨_, rfl, C.receive op hp⟩

theorem holds_mergeCgkaInviteOp {d : Doc} (h : d.Holds P) (op : SOp) (sk : Sk) : (d.mergeCgkaInviteOp H op sk).1.Holds P := by
  obtain ⟨c, hc, hp⟩ := h
  unfold Doc.mergeCgkaInviteOp
  split
  · rw [hc]
    dsimp only
    split
    · exact ⟨c, hc, hp⟩
    · refine holds_mergeCgkaOp C (d := { d with cgka := some _ }) ?_ op
      exact ⟨_, rfl, C.owner _ _ (C.owner _ _ hp)⟩
  · exact ⟨c, hc, hp⟩

theorem holds_resetCgkaOwner {d : Doc} (h : d.Holds P) (owner : Id) : (d.resetCgkaOwner owner).1.Holds P := by
  obtain ⟨c, hc, hp⟩ := h
  unfold Doc.resetCgkaOwner
  rw [hc]
  exact ⟨_, rfl, C.owner _ _ (C.owner _ _ hp)⟩

theorem holds_addCgkaMembers {sign : Payload → Res SOp} (hq : HonestSigner sign) : ∀ {l : List (Id × Pk)} {d : Doc} {acc : List SOp}, d.Holds P →
    (d.addCgkaMembers H sign l acc).1.Holds P := by
  intro l
  induction l with
  | nil => intro d acc h; exact h
  | cons p l ih =>
    intro d acc h
    obtain ⟨c, hc, hp⟩ := h
    unfold Doc.addCgkaMembers
    rw [hc]
    have := C.add p.1 p.2 hq hp
    dsimp only
    split
    · rename_i heq
      rw [heq] at this
      exact ⟨_, rfl, this⟩
    · rename_i heq
      rw [heq] at this
      exact ih ⟨_, rfl, this⟩

theorem holds_removeCgkaMembers {sign : Payload → Res SOp} (hq : HonestSigner sign) : ∀ {l : List Id} {d : Doc} {acc : List SOp}, d.Holds P →
    (d.removeCgkaMembers H sign l acc).1.Holds P := by
  intro l
  induction l with
  | nil => intro d acc h; exact h
  | cons p l ih =>
    intro d acc h
    obtain ⟨c, hc, hp⟩ := h
    unfold Doc.removeCgkaMembers
    rw [hc]
    have := C.remove p hq hp
    dsimp only
    split
    · rename_i heq
      rw [heq] at this
      exact ⟨_, rfl, this⟩
    · rename_i heq
      rw [heq] at this
      exact ih ⟨_, rfl, this⟩

theorem holds_dropCgkaMembers {sign : Payload → Res SOp} (hq : HonestSigner sign) : ∀ {l : List Id} {d : Doc} {acc : List SOp}, d.Holds P →
    (d.dropCgkaMembers H sign l acc).1.Holds P := by
  intro l
  induction l with
  | nil => intro d acc h; exact h
  | cons p l ih =>
    intro d acc h
    obtain ⟨c, hc, hp⟩ := h
    unfold Doc.dropCgkaMembers
    rw [hc]
    have := C.remove p hq hp
    dsimp only
    split
    · rename_i heq
      rw [heq] at this
      exact ih ⟨_, rfl, this⟩
    · rename_i heq
      rw [heq] at this
      exact ih ⟨_, rfl, this⟩

theorem holds_encryptContent {sign : Payload → Res SOp} (hq : HonestSigner sign) (g : BeeKem.Gen) {d : Doc} (h : d.Holds P) (r ps x : Nat) :
    (d.encryptContent H sign g r ps x).1.Holds P := by
  obtain ⟨c, hc, hp⟩ := h
  unfold Doc.encryptContent
  rw [hc]
  have := C.encrypt g 0 r ps hq hp
  dsimp only
  split
  all_goals
    rename_i heq
    rw [heq] at this
    exact ⟨_, rfl, this⟩

theorem holds_decryptContent {d : Doc} (h : d.Holds P) (e : EncContent) :
    (d.decryptContent H e).1.Holds P := by
  obtain ⟨c, hc, hp⟩ := h
  unfold Doc.decryptContent
  rw [hc]
  have := C.decrypt e hp
  dsimp only
  split
  all_goals
    rename_i heq
    rw [heq] at this
    exact ⟨_, rfl, this⟩

theorem holds_pcsUpdate {sign : Payload → Res SOp} (hq : HonestSigner sign) (g : BeeKem.Gen) {d : Doc} (h : d.Holds P) :
    (d.pcsUpdate H sign g).1.Holds P := by
  obtain ⟨c, hc, hp⟩ := h
  unfold Doc.pcsUpdate
  rw [hc]
  have := C.update g 1 (g 0) hq hp
  dsimp only
  split
  all_goals
    rename_i heq
    rw [heq] at this
    exact ⟨_, rfl, this⟩

end doc

/-- The documents in `D` are known, and their key trees satisfy `P`. -/
def Advance (D : Id → Prop) (P : Id → Cgka → Prop) (k : Keyhive) : Prop := ∀ i, D i → ∃ d, AMap.get k.docs i = some d ∧ d.Holds (P i)

variable {D : Id → Prop} {P : Id → Cgka → Prop}

theorem Advance.same {k k' : Keyhive} (h : Advance D P k) (hd : k'.docs = k.docs) : Advance D P k' := by
  unfold Advance; rw [hd]; exact h

theorem Advance.set {k k' : Keyhive} (h : Advance D P k) {i : Id} {d d0 : Doc} (h0 : AMap.get k.docs i = some d0)
    (hi : d0.Holds (P i) → d.Holds (P i)) (hd : k'.docs = Keyhive.replace i d k.docs) : Advance D P k' := by
  intro j hj
  obtain ⟨e, he, hp⟩ := h j hj
  have := get_setDoc (k := k) (d := d) h0 j
  unfold Keyhive.setDoc at this
  rw [hd, this]
  split
  · rename_i hji
    subst hji
    rw [h0] at he
    cases he
    exact ⟨d, rfl, hi hp⟩
  · exact ⟨e, he, hp⟩

theorem Advance.insert {k k' : Keyhive} (h : Advance D P k) {i : Id} {d : Doc} (hi : D i → d.Holds (P i))
    (hd : k'.docs = AMap.insert k.docs i d) : Advance D P k' := by
  intro j hj
  rw [hd, AMap.get_insert]
  split
  · rename_i hji
    subst hji
    exact ⟨d, rfl, hi hj⟩
  · exact h j hj

theorem advance_applyDlg {k : Keyhive} (h : Advance D P k) {d : Dlg} (hd : D d.issuer → d.subject = d.issuer) : Advance D P (k.applyDlg E d).1 := by
  unfold Keyhive.applyDlg
  split
  · split
    · exact h
    · exact h.same rfl
  · split
    · rename_i doc hdoc
      split
      · exact h
      · rename_i g' hg
        refine h.insert (i := d.subject) (d := { doc with group := g' }) ?_ rfl
        intro hD
        obtain ⟨e, he, c, hc, hp⟩ := h _ hD
        rw [hdoc] at he
        cases he
        exact ⟨c, hc, hp⟩
    · rename_i hnone
      split
      · have := (promote_docs (E := E) (k.removeIndividual d.subject) d).trans (removeIndividual_docs k d.subject)
        split
        all_goals
          rename_i heq
          rw [heq] at this
          exact h.same this
      · unfold Keyhive.adopt
        simp only
        split
        · refine h.insert (i := d.issuer) ?_ rfl
          intro hD
          obtain ⟨e, he, _⟩ := h _ hD
          rw [← hd hD, hnone] at he
          cases he
        · exact h.same rfl

theorem advance_applyRev {k : Keyhive} (h : Advance D P k) (r : Rev) : Advance D P (k.applyRev E r).1 := by
  unfold Keyhive.applyRev
  split
  · split
    · exact h
    · exact h.same rfl
  · split
    · rename_i doc hdoc
      split
      · exact h
      · rename_i g' hg
        refine h.insert (i := r.subject) (d := { doc with group := g' }) ?_ rfl
        intro hD
        obtain ⟨e, he, c, hc, hp⟩ := h _ hD
        rw [hdoc] at he
        cases he
        exact ⟨c, hc, hp⟩
    · split
      · have := (promote_docs (E := E) (k.removeIndividual r.subject) r.revoke).trans (removeIndividual_docs k r.subject)
        split
        · rename_i heq
          rw [heq] at this
          exact h.same this
        · rename_i heq
          rw [heq] at this
          split
          · exact h.same this
          · exact h.same this
      · exact h

variable (C : ∀ i, Stays (E.hashCgka i) (P i)) (hD : ∀ i, D i → E.OnlyRoots i)

include C

theorem advance_receiveCgkaOp {k : Keyhive} (h : Advance D P k) (i : Id) (op : SOp) : Advance D P (k.receiveCgkaOp E i op).1 := by
  unfold Keyhive.receiveCgkaOp
  split
  · exact h
  · split
    · exact h
    · rename_i d hd
      split
      · split
        · split
          · exact h
          · exact h.set hd (fun h0 => holds_mergeCgkaInviteOp (C i) h0 op _) rfl
        · split
          · unfold Keyhive.mergePublicInvite
            have := fun h0 => holds_mergeCgkaInviteOp (C i) (d := d) h0 op publicSk
            split
            · rename_i heq
              rw [heq] at this
              exact h.set hd this rfl
            · rename_i heq
              rw [heq] at this
              exact h.set hd (fun h0 => holds_resetCgkaOwner (C i) (this h0) _) rfl
          · exact h.set hd (fun h0 => holds_mergeCgkaOp (C i) h0 op) rfl
      · exact h.set hd (fun h0 => holds_mergeCgkaOp (C i) h0 op) rfl

omit C in
theorem toDlg_proof {k : Keyhive} {s : SDlg} {d : Dlg} (hd : k.toDlg s = .ok d) : d.issuer = s.issuer ∧ (s.proof = none → d.proof = none) := by
  unfold Keyhive.toDlg at hd
  split at hd
  · cases hd
  · rename_i proof hp
    split at hd
    · cases hd
    · split at hd
      · cases hd
      · cases hd
        cases proof with
        | none => exact ⟨rfl, fun _ => rfl⟩
        | some p =>
          refine ⟨rfl, fun h => ?_⟩
          rw [h] at hp
          cases hp

include hD

theorem advance_receive {k : Keyhive} (h : Advance D P k) (e : Event) : Advance D P (k.receive E e).1 := by
  cases e with
  | prekey op => exact h.same rfl
  | cgka i op => exact advance_receiveCgkaOp C h i op
  | dlg s =>
    show Advance D P (k.receiveDelegation E s).1
    unfold Keyhive.receiveDelegation
    repeat' split
    · exact h
    · exact h
    · exact h
    · rename_i hv _ d hd
      refine advance_applyDlg h ?_
      intro hi
      obtain ⟨h1, h2⟩ := toDlg_proof hd
      rw [h1] at hi
      have := h2 (hD _ hi s (by simpa using hv) rfl)
      cases d with
      | root => rfl
      | link => cases this
  | rev s =>
    show Advance D P (k.receiveRevocation E s).1
    unfold Keyhive.receiveRevocation
    repeat' split
    · exact h
    · exact h
    · exact h
    · exact advance_applyRev h _

omit hD

omit C in
theorem advance_newDoc {k : Keyhive} (h : Advance D P k) {L : Local} (S : Op → Option Nat) (did : Id) (co : List Agent) (heads : List Nat)
    (hn : ¬ D did) : Advance D P (k.generateDoc E L S did co heads).1 := by
  unfold Keyhive.generateDoc
  split
  · exact h
  · rename_i g hg
    have hid : g.id = did := by obtain ⟨_, rfl, _⟩ := generate_ok hg; rfl
    have h1 : Advance D P ((AMap.values g.dlgHeads).foldl (Keyhive.storeDlg E) k) := h.same (storeDlgs_docs _ _)
    simp only
    split
    · exact h1
    · split
      · exact h1
      · split
        · exact h1
        · rename_i c hc
          refine h1.insert (i := g.id) (d := { group := g, heads, cgka := some c }) ?_ rfl
          intro h
          rw [hid] at h
          exact absurd h hn

theorem advance_addToDoc {k : Keyhive} (h : Advance D P k) {L : Local} (hq : ∀ doc, HonestSigner (L.signCgka doc)) (did : Id) (who : Agent) (can : Access)
    (content : Content) : Advance D P (k.addMemberToDoc E L did who can content).1 := by
  unfold Keyhive.addMemberToDoc
  split
  · exact h
  · rename_i doc hdoc
    split
    · exact h
    · rename_i g' d hg
      have h1 : Advance D P ((k.storeDlg E d).setDoc did { doc with group := g' }) := h.set (d := { doc with group := g' }) hdoc (fun h0 => h0) rfl
      have hdoc' : AMap.get ((k.storeDlg E d).setDoc did { doc with group := g' }).docs did = some { doc with group := g' } := by
        rw [get_setDoc (k := k.storeDlg E d) hdoc, if_pos rfl]
      simp only
      split
      · split
        · exact h1
        · rename_i prekeys _
          have := holds_addCgkaMembers (C did) (hq did) (l := prekeys) (acc := []) (d := { doc with group := g' })
          split
          all_goals
            rename_i heq
            rw [heq] at this
            exact h1.set hdoc' this rfl
      · exact h1

theorem advance_propagateAdd {k : Keyhive} (h : Advance D P k) {L : Local} (hq : ∀ doc, HonestSigner (L.signCgka doc)) (gid : Id) (who : Agent) (did : Id) :
    Advance D P (k.propagateAdd E L gid who did).1 := by
  unfold Keyhive.propagateAdd
  split
  · exact h
  · rename_i doc hdoc
    split
    · exact h
    · split
      · exact h
      · split
        · exact h
        · rename_i prekeys _
          have := holds_addCgkaMembers (C did) (hq did) (l := prekeys) (acc := []) (d := doc)
          split
          all_goals
            rename_i heq
            rw [heq] at this
            exact h.set hdoc this rfl

theorem advance_propagateAdds {L : Local} (hq : ∀ doc, HonestSigner (L.signCgka doc)) {gid : Id} {who : Agent} : ∀ {dids : List Id} {k : Keyhive} {acc : List SOp},
    Advance D P k → Advance D P (Keyhive.propagateAdds E L gid who k dids acc).1 := by
  intro dids
  induction dids with
  | nil => intro k acc h; exact h
  | cons did dids ih =>
    intro k acc h
    have h1 := advance_propagateAdd C h hq gid who did
    unfold Keyhive.propagateAdds
    split
    · rename_i heq; rw [heq] at h1; exact h1
    · rename_i heq; rw [heq] at h1; exact ih h1

theorem advance_addToGroup {k : Keyhive} (h : Advance D P k) {L : Local} (hq : ∀ doc, HonestSigner (L.signCgka doc)) (gid : Id) (who : Agent) (can : Access)
    (content : Content) : Advance D P (k.addMemberToGroup E L gid who can content).1 := by
  unfold Keyhive.addMemberToGroup
  split
  · exact h
  · split
    · exact h
    · rename_i g _ g' d hg
      have h1 : Advance D P { k.storeDlg E d with groups := AMap.insert k.groups gid g' } := h.same rfl
      simp only
      split
      · have h2 := advance_propagateAdds C (L := L) hq (gid := gid) (who := d.delegate)
          (dids := AMap.keys ({ k.storeDlg E d with groups := AMap.insert k.groups gid g' } : Keyhive).docs) (acc := []) h1
        split
        · rename_i heq; rw [heq] at h2; exact h2
        · rename_i heq; rw [heq] at h2; exact h2
      · exact h1

theorem advance_revokeFromDoc {k : Keyhive} (h : Advance D P k) {L : Local} (hq : ∀ doc, HonestSigner (L.signCgka doc)) (did member : Id) (retain : Bool)
    (content : Content) : Advance D P (k.revokeFromDoc E L did member retain content).1 := by
  unfold Keyhive.revokeFromDoc
  split
  · exact h
  · rename_i doc hdoc
    split
    · exact h
    · split
      · rename_i g' e heq
        refine h.set (i := did) (d := { doc with group := g' }) hdoc (fun h0 => h0) ?_
        simp only [Keyhive.setDoc, (storeNew_same (E := E) doc.group g' k).2.1]
      · rename_i g' revs dlgs heq
        have h1 : Advance D P ((k.storeAll E revs dlgs).setDoc did { doc with group := g' }) := by
          refine h.set (i := did) (d := { doc with group := g' }) hdoc (fun h0 => h0) ?_
          simp only [Keyhive.setDoc, (storeAll_same (E := E) revs dlgs k).2.1]
        have hdoc' : AMap.get ((k.storeAll E revs dlgs).setDoc did { doc with group := g' }).docs did = some { doc with group := g' } := by
          rw [get_setDoc (k := k.storeAll E revs dlgs) (by rw [(storeAll_same (E := E) revs dlgs k).2.1]; exact hdoc), if_pos rfl]
        simp only
        split
        · exact h1
        · split
          all_goals
            rename_i heq
            refine h1.set hdoc' (fun h0 => ?_) rfl
            have := congrArg Prod.fst heq
            dsimp only at this
            rw [← this]
            exact holds_removeCgkaMembers (C did) (hq did) h0

theorem advance_propagateRemoves {L : Local} (hq : ∀ doc, HonestSigner (L.signCgka doc)) {gid : Id} {ids : List Id} : ∀ {dids : List Id} {k : Keyhive} {acc : List SOp},
    Advance D P k → Advance D P (Keyhive.propagateRemoves E L gid ids k dids acc).1 := by
  intro dids
  induction dids with
  | nil => intro k acc h; exact h
  | cons did dids ih =>
    intro k acc h
    have h1 : Advance D P (k.propagateRemove E L gid ids did).1 := by
      unfold Keyhive.propagateRemove
      split
      · exact h
      · rename_i doc hdoc
        split
        · exact h
        · split
          · exact h
          · exact h.set hdoc (fun h0 => holds_dropCgkaMembers (C did) (hq did) h0) rfl
    unfold Keyhive.propagateRemoves
    split
    · rename_i heq; rw [heq] at h1; exact h1
    · rename_i heq; rw [heq] at h1; exact ih h1

theorem advance_revokeFromGroup {k : Keyhive} (h : Advance D P k) {L : Local} (hq : ∀ doc, HonestSigner (L.signCgka doc)) (gid member : Id) (retain : Bool)
    (content : Content) : Advance D P (k.revokeFromGroup E L gid member retain content).1 := by
  unfold Keyhive.revokeFromGroup
  split
  · exact h
  · rename_i g hg0
    split
    · exact h
    · split
      · rename_i g' e hg
        exact h.same (storeNew_same (E := E) g g' k).2.1
      · rename_i g' revs dlgs hg
        have h3 : Advance D P { k.storeAll E revs dlgs with groups := AMap.insert k.groups gid g' } :=
          h.same (storeAll_same (E := E) revs dlgs k).2.1
        simp only
        split
        · exact h3
        · exact advance_propagateRemoves C hq h3

theorem advance_encryptContent {k : Keyhive} (h : Advance D P k) {L : Local} (hq : ∀ doc, HonestSigner (L.signCgka doc)) (did : Id) (r ps x : Nat) :
    Advance D P (k.encryptContent E L did r ps x).1 := by
  unfold Keyhive.encryptContent
  split
  · exact h
  · rename_i hd
    exact h.set hd (fun h0 => holds_encryptContent (C did) (hq did) _ h0 _ _ _) rfl

theorem advance_decryptContent {k : Keyhive} (h : Advance D P k) (did : Id) (e : EncContent) : Advance D P (k.decryptContent E did e).1 := by
  unfold Keyhive.decryptContent
  split
  · exact h
  · rename_i hd
    exact h.set hd (fun h0 => holds_decryptContent (C did) h0 e) rfl

theorem advance_forcePcsUpdate {k : Keyhive} (h : Advance D P k) {L : Local} (hq : ∀ doc, HonestSigner (L.signCgka doc)) (did : Id) :
    Advance D P (k.forcePcsUpdate E L did).1 := by
  unfold Keyhive.forcePcsUpdate
  split
  · exact h
  · rename_i hd
    exact h.set hd (fun h0 => holds_pcsUpdate (C did) (hq did) _ h0) rfl

/-- The call does not create a document in `D`. -/
def Call.Outside (D : Id → Prop) : Call → Prop
  | .newDoc _ _ did _ _ => ¬ D did
  | _ => True

include hD in
/-- Every call keeps the key trees of documents whose keys are not misused. -/
theorem advance_call {k : Keyhive} (ih : Advance D P k) (c : Call) (hc : c.Honest E) (ho : c.Outside D) : Advance D P (c.run E k) := by
  cases c with
  | receive e => exact advance_receive C hD ih e
  | ingest ord events => exact ingest_keeps (P := Advance D P) (fun k e h => advance_receive C hD h e) (fun k p h => h.same rfl) ord events ih
  | contactCard op => exact ih.same rfl
  | newGroup S gid co =>
    show Advance D P (k.generateGroup E S gid co).1
    unfold Keyhive.generateGroup
    split
    · exact ih
    · exact ih.same (storeDlgs_docs _ _)
  | newDoc L S did co heads => exact advance_newDoc ih S did co heads ho
  | addToGroup L gid who can content => exact advance_addToGroup C ih hc.2 gid who can content
  | addToDoc L did who can content => exact advance_addToDoc C ih hc.2 did who can content
  | revokeFromGroup L gid member retain content => exact advance_revokeFromGroup C ih hc.2 gid member retain content
  | revokeFromDoc L did member retain content => exact advance_revokeFromDoc C ih hc.2 did member retain content
  | ingestArchive ord a =>
    exact ingestArchive_keeps (P := Advance D P) (fun k e h => advance_receive C hD h e) (fun k p h => h.same rfl) (fun hs h => h.same hs.docs) ord a ih
  | encrypt L did r ps x => exact advance_encryptContent C ih hc.2 did r ps x
  | decrypt did e => exact advance_decryptContent C ih did e
  | pcsUpdate L did => exact advance_forcePcsUpdate C ih hc.2 did

end Verif.Keyhive
