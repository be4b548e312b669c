import Verif.Keyhive.StockLemmas
import Verif.Keyhive.TreeLemmas

/-! # The key trees of a device are those of `Verif.Cgka` -/

namespace Verif.Keyhive

open Verif.Group Verif.Cgka Verif.BeeKem

variable {E : Env}

/-- What a call of the owner's does to a key tree keeps `P`, provided the signers satisfy `Q`. -/
structure Closed0 (H : SOp → Nat) (Q : (Payload → Res SOp) → BeeKem.Gen → Prop) (P : Cgka → Prop) : Prop where
  made : ∀ {id pk op c sign g} me, Q sign g → pk = shareKey (g 0) → First op.payload id pk → Cgka.newFromInitAdd H id pk op = .ok c →
    P (withPublic ((withPublic c).withNewOwner me (AMap.insert [] (shareKey (g 0)) (g 0))))
  add : ∀ {c sign g} id pk, Q sign g → P c → P (c.add H sign id pk).1
  remove : ∀ {c sign g} id, Q sign g → P c → P (c.remove H sign id).1
  update : ∀ {c sign g}, Q sign g → P c → P (c.update H sign g 1 (g 0)).1
  encrypt : ∀ {c sign g} r ps, Q sign g → P c → P (c.newAppSecretFor H sign g 0 r ps).1
  decrypt : ∀ {c} e, P c → P (c.decryptionKeyFor H e).1

/-- What a call does to a key tree keeps `P`, provided the signers satisfy `Q`. -/
structure Closed1 (H : SOp → Nat) (Q : (Payload → Res SOp) → BeeKem.Gen → Prop) (P : Cgka → Prop) : Prop where
  new : ∀ {id pk op c}, First op.payload id pk → Cgka.newFromInitAdd H id pk op = .ok c → P (withPublic c)
  owner : ∀ {c} me sks, P c → P (withPublic (c.withNewOwner me sks))
  add : ∀ {c sign g} id pk, Q sign g → P c → P (c.add H sign id pk).1
  remove : ∀ {c sign g} id, Q sign g → P c → P (c.remove H sign id).1
  update : ∀ {c sign g}, Q sign g → P c → P (c.update H sign g 1 (g 0)).1
  encrypt : ∀ {c sign g} r ps, Q sign g → P c → P (c.newAppSecretFor H sign g 0 r ps).1
  decrypt : ∀ {c} e, P c → P (c.decryptionKeyFor H e).1
  receive : ∀ {c} op, P c → P (c.mergeConcurrentOperation H op).1

theorem Closed1.base {H : SOp → Nat} {Q : (Payload → Res SOp) → BeeKem.Gen → Prop} {P : Cgka → Prop} (C : Closed1 H Q P) : Closed0 H Q P :=
  ⟨fun me _ _ h1 h2 => C.owner me _ (C.new h1 h2), C.add, C.remove, C.update, C.encrypt, C.decrypt⟩

theorem closed_reach (H : SOp → Nat) : Closed1 H (fun s _ => HonestSigner s) (Cgka.Reach H) :=
  ⟨fun h1 h2 => .owner _ _ (.new h1 h2), fun me _ h => .owner me _ (.owner me _ h), fun id pk hq h => .call (cmd := .add _ id pk) h hq,
   fun id hq h => .call (cmd := .remove _ id) h hq, fun {_ _ g} hq h => .call (cmd := .update _ g 1 (g 0)) h hq,
   fun {_ _ g} r ps hq h => .call (cmd := .encrypt _ g 0 r ps) h hq, fun e h => .call (cmd := .decrypt e) h trivial,
   fun op h => .call (cmd := .receive op) h trivial⟩

theorem closed_reachOk (H : SOp → Nat) : Closed1 H (fun s _ => GoodSigner s) (Cgka.ReachOk H) :=
  ⟨fun h1 h2 => .owner _ _ (.new h1 h2), fun me _ h => .owner me _ (.owner me _ h), fun id pk hq h => .call (cmd := .add _ id pk) h hq,
   fun id hq h => .call (cmd := .remove _ id) h hq, fun {_ _ g} hq h => .call (cmd := .update _ g 1 (g 0)) h hq,
   fun {_ _ g} r ps hq h => .call (cmd := .encrypt _ g 0 r ps) h hq, fun e h => .call (cmd := .decrypt e) h trivial,
   fun op h => .call (cmd := .receive op) h trivial⟩

/-- The key tree of the document, if there is one, satisfies `P`. -/
def Doc.Has (P : Cgka → Prop) (d : Doc) : Prop := ∀ c, d.cgka = some c → P c

section doc

variable {H : SOp → Nat} {Q : (Payload → Res SOp) → BeeKem.Gen → Prop} {P : Cgka → Prop} (C : Closed1 H Q P)

include C

theorem has_mergeCgkaOp {d : Doc} (h : d.Has P) (op : SOp) : (d.mergeCgkaOp H op).1.Has P := by
  unfold Doc.mergeCgkaOp
  split
  · rename_i c hc
    intro c' h'
    cases h'
    exact C.receive op (h c hc)
  · split
    · rename_i id pk n preds ps hp
      split
      · exact h
      · rename_i he
        split
        · exact h
        · rename_i c hc
          intro c' h'
          cases h'
          refine C.new ⟨n, ps, ?_⟩ hc
          cases preds with
          | nil => exact hp
          | cons a l => simp at he
    · exact h

theorem has_mergeCgkaInviteOp {d : Doc} (h : d.Has P) (op : SOp) (sk : Sk) : (d.mergeCgkaInviteOp H op sk).1.Has P := by
  unfold Doc.mergeCgkaInviteOp
  split
  · split
    · exact h
    · rename_i c hc
      split
      · exact h
      · refine has_mergeCgkaOp C ?_ op
        intro c' h'
        cases h'
        exact C.owner _ _ (h c hc)
  · exact h

theorem has_resetCgkaOwner {d : Doc} (h : d.Has P) (owner : Id) : (d.resetCgkaOwner owner).1.Has P := by
  unfold Doc.resetCgkaOwner
  split
  · exact h
  · rename_i c hc
    intro c' h'
    cases h'
    exact C.owner _ _ (h c hc)

end doc

section own

variable {H : SOp → Nat} {Q : (Payload → Res SOp) → BeeKem.Gen → Prop} {P : Cgka → Prop} (C : Closed0 H Q P)

include C

theorem has_addCgkaMembers {sign : Payload → Res SOp} {g : BeeKem.Gen} (hq : Q sign g) : ∀ {l : List (Id × Pk)} {d : Doc} {acc : List SOp}, d.Has P →
    (d.addCgkaMembers H sign l acc).1.Has P := by
  intro l
  induction l with
  | nil => intro d acc h; exact h
  | cons p l ih =>
    intro d acc h
    unfold Doc.addCgkaMembers
    split
    · exact h
    · rename_i c hc
      have := C.add p.1 p.2 hq (h c hc)
      split
      · rename_i c' e heq
        rw [heq] at this
        intro c'' h'
        cases h'
        exact this
      · rename_i c' op heq
        rw [heq] at this
        apply ih
        intro c'' h'
        cases h'
        exact this

theorem has_removeCgkaMembers {sign : Payload → Res SOp} {g : BeeKem.Gen} (hq : Q sign g) : ∀ {l : List Id} {d : Doc} {acc : List SOp}, d.Has P →
    (d.removeCgkaMembers H sign l acc).1.Has P := by
  intro l
  induction l with
  | nil => intro d acc h; exact h
  | cons i l ih =>
    intro d acc h
    unfold Doc.removeCgkaMembers
    split
    · exact h
    · rename_i c hc
      have := C.remove i hq (h c hc)
      split
      · rename_i c' e heq
        rw [heq] at this
        intro c'' h'
        cases h'
        exact this
      · rename_i c' op heq
        rw [heq] at this
        apply ih
        intro c'' h'
        cases h'
        exact this

theorem has_dropCgkaMembers {sign : Payload → Res SOp} {g : BeeKem.Gen} (hq : Q sign g) : ∀ {l : List Id} {d : Doc} {acc : List SOp}, d.Has P →
    (d.dropCgkaMembers H sign l acc).1.Has P := by
  intro l
  induction l with
  | nil => intro d acc h; exact h
  | cons i l ih =>
    intro d acc h
    unfold Doc.dropCgkaMembers
    split
    · exact h
    · rename_i c hc
      have := C.remove i hq (h c hc)
      split
      · rename_i c' e heq
        rw [heq] at this
        apply ih
        intro c'' h'
        cases h'
        exact this
      · rename_i c' op heq
        rw [heq] at this
        apply ih
        intro c'' h'
        cases h'
        exact this

theorem has_encryptContent {sign : Payload → Res SOp} {g : BeeKem.Gen} (hq : Q sign g) {d : Doc} (h : d.Has P) (r ps x : Nat) :
    (d.encryptContent H sign g r ps x).1.Has P := by
  unfold Doc.encryptContent
  split
  · exact h
  · rename_i c hc
    have := C.encrypt r ps hq (h c hc)
    split
    all_goals
      rename_i heq
      rw [heq] at this
      intro c'' h'
      cases h'
      exact this

theorem has_decryptContent {d : Doc} (h : d.Has P) (e : EncContent) : (d.decryptContent H e).1.Has P := by
  unfold Doc.decryptContent
  split
  · exact h
  · rename_i c hc
    have := C.decrypt e (h c hc)
    split
    all_goals
      rename_i heq
      rw [heq] at this
      intro c'' h'
      cases h'
      exact this

theorem has_pcsUpdate {sign : Payload → Res SOp} {g : BeeKem.Gen} (hq : Q sign g) {d : Doc} (h : d.Has P) : (d.pcsUpdate H sign g).1.Has P := by
  unfold Doc.pcsUpdate
  split
  · exact h
  · rename_i c hc
    have := C.update hq (h c hc)
    split
    all_goals
      rename_i heq
      rw [heq] at this
      intro c'' h'
      cases h'
      exact this

end own

/-- The key trees of all documents satisfy `P`. -/
def Trees (P : Id → Cgka → Prop) (k : Keyhive) : Prop := ∀ i d, AMap.get k.docs i = some d → d.Has (P i)

variable {Q : (Payload → Res SOp) → BeeKem.Gen → Prop} {P : Id → Cgka → Prop}

theorem Trees.same {k k' : Keyhive} (h : Trees P k) (hd : k'.docs = k.docs) : Trees P k' := by
  unfold Trees; rw [hd]; exact h

theorem Trees.set {k k' : Keyhive} (h : Trees P k) {i : Id} {d : Doc} (hi : d.Has (P i)) (hd : k'.docs = Keyhive.replace i d k.docs) :
    Trees P k' := by
  intro j e he
  rw [hd] at he
  have : j = i ∧ e = d ∨ AMap.get k.docs j = some e := by
    clear hd h
    generalize k.docs = m at he
    induction m with
    | nil => cases he
    | cons p m ih =>
      obtain ⟨x, y⟩ := p
      unfold Keyhive.replace at he
      split at he
      · rename_i hx
        dsimp only at hx he
        subst hx
        rw [AMap.get_cons] at he
        split at he
        · rename_i hj
          cases he
          exact .inl ⟨hj.symm, rfl⟩
        · rename_i hj
          exact .inr (by rw [AMap.get_cons, if_neg hj]; exact he)
      · rename_i hx
        rw [AMap.get_cons] at he
        split at he
        · rename_i hj
          exact .inr (by rw [AMap.get_cons, if_pos hj]; exact he)
        · rename_i hj
          rcases ih he with h | h
          · exact .inl h
          · exact .inr (by rw [AMap.get_cons, if_neg hj]; exact h)
  rcases this with ⟨rfl, rfl⟩ | h'
  · exact hi
  · exact h j e h'

theorem Trees.insert {k k' : Keyhive} (h : Trees P k) {i : Id} {d : Doc} (hi : d.Has (P i)) (hd : k'.docs = AMap.insert k.docs i d) :
    Trees P k' := by
  intro j e he
  rw [hd, AMap.get_insert] at he
  split at he
  · rename_i hj
    cases he
    subst hj
    exact hi
  · exact h j e he

/-- For every document. -/
def ClosedAll (E : Env) (Q : (Payload → Res SOp) → BeeKem.Gen → Prop) (P : Id → Cgka → Prop) : Prop := ∀ i, Closed1 (E.hashCgka i) Q (P i)

/-- For every document, by the owner. -/
def ClosedOwn (E : Env) (Q : (Payload → Res SOp) → BeeKem.Gen → Prop) (P : Id → Cgka → Prop) : Prop := ∀ i, Closed0 (E.hashCgka i) Q (P i)

section receiving

variable (C : ClosedAll E Q P)

include C

theorem trees_receiveCgkaOp {k : Keyhive} (h : Trees P k) (i : Id) (op : SOp) : Trees P (k.receiveCgkaOp E i op).1 := by
  unfold Keyhive.receiveCgkaOp
  split
  · exact h
  · split
    · exact h
    · rename_i d hd
      have h0 := h i d hd
      split
      · split
        · split
          · exact h
          · exact h.set (has_mergeCgkaInviteOp (C i) h0 op _) rfl
        · split
          · unfold Keyhive.mergePublicInvite
            have := has_mergeCgkaInviteOp (C i) h0 op publicSk
            split
            · rename_i heq
              rw [heq] at this
              exact h.set this rfl
            · rename_i heq
              rw [heq] at this
              exact h.set (has_resetCgkaOwner (C i) this _) rfl
          · exact h.set (has_mergeCgkaOp (C i) h0 op) rfl
      · exact h.set (has_mergeCgkaOp (C i) h0 op) rfl

omit C in
theorem removeIndividual_docs (k : Keyhive) (i : Id) : (k.removeIndividual i).docs = k.docs := by
  unfold Keyhive.removeIndividual
  split <;> rfl

omit C in
theorem promote_docs (k : Keyhive) (d : Dlg) : (k.promote E d).1.docs = k.docs := by
  unfold Keyhive.promote
  simp only
  split <;> rfl

omit C in
theorem trees_applyDlg {k : Keyhive} (h : Trees P k) (d : Dlg) : Trees P (k.applyDlg E d).1 := by
  unfold Keyhive.applyDlg
  split
  · split
    · exact h
    · exact h.same rfl
  · split
    · rename_i doc hdoc
      split
      · exact h
      · rename_i g' hg
        exact h.insert (i := d.subject) (d := { doc with group := g' }) (fun c hc => h _ _ hdoc c hc) rfl
    · split
      · have := (promote_docs (E := E) (k.removeIndividual d.subject) d).trans (removeIndividual_docs k d.subject)
        split
        all_goals
          rename_i heq
          rw [heq] at this
          exact h.same this
      · unfold Keyhive.adopt
        simp only
        split
        · exact h.insert (i := (Group.new E.opDigest d).rebuild E.opDigest |>.id) (by intro c hc; cases hc) rfl
        · exact h.same rfl

omit C in
theorem trees_applyRev {k : Keyhive} (h : Trees P k) (r : Rev) : Trees P (k.applyRev E r).1 := by
  unfold Keyhive.applyRev
  split
  · split
    · exact h
    · exact h.same rfl
  · split
    · rename_i doc hdoc
      split
      · exact h
      · rename_i g' hg
        exact h.insert (i := r.subject) (d := { doc with group := g' }) (fun c hc => h _ _ hdoc c hc) rfl
    · split
      · have := (promote_docs (E := E) (k.removeIndividual r.subject) r.revoke).trans (removeIndividual_docs k r.subject)
        split
        · rename_i heq
          rw [heq] at this
          exact h.same this
        · rename_i heq
          rw [heq] at this
          split
          · exact h.same this
          · exact h.same this
      · exact h

theorem trees_receive {k : Keyhive} (h : Trees P k) (e : Event) : Trees P (k.receive E e).1 := by
  cases e with
  | prekey op => exact h.same rfl
  | cgka i op => exact trees_receiveCgkaOp C h i op
  | dlg s =>
    show Trees P (k.receiveDelegation E s).1
    unfold Keyhive.receiveDelegation
    repeat' split
    · exact h
    · exact h
    · exact h
    · exact trees_applyDlg h _
  | rev s =>
    show Trees P (k.receiveRevocation E s).1
    unfold Keyhive.receiveRevocation
    repeat' split
    · exact h
    · exact h
    · exact h
    · exact trees_applyRev h _

end receiving

theorem storeDlgs_docs (l : List Dlg) : ∀ k : Keyhive, (l.foldl (Keyhive.storeDlg E) k).docs = k.docs := by
  induction l with
  | nil => intro k; rfl
  | cons d l ih => intro k; rw [List.foldl_cons, ih]; rfl

section calls

variable (C : ClosedOwn E Q P)

include C

theorem newDocCgka_has {L : Local} (hq : ∀ doc, Q (L.signCgka doc) L.gen) (hh : HonestSigner (L.signCgka did)) {others : List (Id × Pk)} {c : Cgka}
    (h : Keyhive.newDocCgka E L did others = .ok c) : P did c := by
  unfold Keyhive.newDocCgka at h
  dsimp only at h
  split at h
  · cases h
  · rename_i c0 h0
    have h1 : P did (withPublic ((withPublic c0).withNewOwner did (AMap.insert [] (shareKey (L.gen 0)) (L.gen 0)))) := by
      unfold Cgka.new at h0
      simp only [bind, Except.bind] at h0
      split at h0
      · cases h0
      · rename_i op hop
        exact (C did).made did (hq did) rfl ⟨0, [], hh _ _ hop⟩ h0
    have h2 := has_addCgkaMembers (C did) (hq did) (l := others) (acc := [])
      (d := { group := ⟨0, [], [], [], []⟩, heads := [], cgka := some (withPublic (c0.withNewOwner did (AMap.insert [] (shareKey (L.gen 0)) (L.gen 0)))) })
      (by intro c' hc; cases hc; exact h1)
    split at h
    · cases h
    · rename_i d ops heq
      rw [heq] at h2
      split at h
      · cases h
      · rename_i c1 hc1
        have h3 := (C did).update (hq did) (h2 c1 hc1)
        split at h
        · cases h
        · rename_i heq'
          rw [heq'] at h3
          cases h
          exact h3

theorem trees_newDoc {k : Keyhive} (h : Trees P k) {L : Local} (hq : ∀ doc, Q (L.signCgka doc) L.gen) (hh : ∀ doc, HonestSigner (L.signCgka doc))
    (S : Op → Option Nat) (did : Id) (co : List Agent) (heads : List Nat) : Trees P (k.generateDoc E L S did co heads).1 := by
  unfold Keyhive.generateDoc
  split
  · exact h
  · rename_i g hg
    have hid : g.id = did := by obtain ⟨_, rfl, _⟩ := generate_ok hg; rfl
    have h1 : Trees P ((AMap.values g.dlgHeads).foldl (Keyhive.storeDlg E) k) := h.same (storeDlgs_docs _ _)
    simp only
    split
    · exact h1
    · split
      · exact h1
      · split
        · exact h1
        · rename_i c hc
          refine h1.insert (i := g.id) (d := { group := g, heads, cgka := some c }) ?_ rfl
          intro c' hc'
          cases hc'
          rw [hid]
          exact newDocCgka_has C hq (hh did) hc

theorem trees_addToDoc {k : Keyhive} (h : Trees P k) {L : Local} (hq : ∀ doc, Q (L.signCgka doc) L.gen) (did : Id) (who : Agent) (can : Access)
    (content : Content) : Trees P (k.addMemberToDoc E L did who can content).1 := by
  unfold Keyhive.addMemberToDoc
  split
  · exact h
  · rename_i doc hdoc
    split
    · exact h
    · rename_i g' d hg
      have h0 : Doc.Has (P did) { doc with group := g' } := h did doc hdoc
      have h1 : Trees P ((k.storeDlg E d).setDoc did { doc with group := g' }) := h.set h0 rfl
      simp only
      split
      · split
        · exact h1
        · rename_i prekeys _
          have := has_addCgkaMembers (C did) (hq did) (l := prekeys) (acc := []) h0
          split
          all_goals
            rename_i heq
            rw [heq] at this
            exact h1.set this rfl
      · exact h1

theorem trees_propagateAdd {k : Keyhive} (h : Trees P k) {L : Local} (hq : ∀ doc, Q (L.signCgka doc) L.gen) (gid : Id) (who : Agent) (did : Id) :
    Trees P (k.propagateAdd E L gid who did).1 := by
  unfold Keyhive.propagateAdd
  split
  · exact h
  · rename_i doc hdoc
    split
    · exact h
    · split
      · exact h
      · split
        · exact h
        · rename_i prekeys _
          have := has_addCgkaMembers (C did) (hq did) (l := prekeys) (acc := []) (h did doc hdoc)
          split
          all_goals
            rename_i heq
            rw [heq] at this
            exact h.set this rfl

theorem trees_propagateAdds {L : Local} (hq : ∀ doc, Q (L.signCgka doc) L.gen) {gid : Id} {who : Agent} : ∀ {dids : List Id} {k : Keyhive} {acc : List SOp},
    Trees P k → Trees P (Keyhive.propagateAdds E L gid who k dids acc).1 := by
  intro dids
  induction dids with
  | nil => intro k acc h; exact h
  | cons did dids ih =>
    intro k acc h
    have h1 := trees_propagateAdd C h hq gid who did
    unfold Keyhive.propagateAdds
    split
    · rename_i heq; rw [heq] at h1; exact h1
    · rename_i heq; rw [heq] at h1; exact ih h1

theorem trees_addToGroup {k : Keyhive} (h : Trees P k) {L : Local} (hq : ∀ doc, Q (L.signCgka doc) L.gen) (gid : Id) (who : Agent) (can : Access)
    (content : Content) : Trees P (k.addMemberToGroup E L gid who can content).1 := by
  unfold Keyhive.addMemberToGroup
  split
  · exact h
  · split
    · exact h
    · rename_i g _ g' d hg
      have h1 : Trees P { k.storeDlg E d with groups := AMap.insert k.groups gid g' } := h.same rfl
      simp only
      split
      · have h2 := trees_propagateAdds C (L := L) hq (gid := gid) (who := d.delegate)
          (dids := AMap.keys ({ k.storeDlg E d with groups := AMap.insert k.groups gid g' } : Keyhive).docs) (acc := []) h1
        split
        · rename_i heq; rw [heq] at h2; exact h2
        · rename_i heq; rw [heq] at h2; exact h2
      · exact h1

theorem trees_revokeFromDoc {k : Keyhive} (h : Trees P k) {L : Local} (hq : ∀ doc, Q (L.signCgka doc) L.gen) (did member : Id) (retain : Bool)
    (content : Content) : Trees P (k.revokeFromDoc E L did member retain content).1 := by
  unfold Keyhive.revokeFromDoc
  split
  · exact h
  · rename_i doc hdoc
    split
    · exact h
    · split
      · rename_i g' e heq
        refine h.set (i := did) (d := { doc with group := g' }) (h did doc hdoc) ?_
        simp only [Keyhive.setDoc, (storeNew_same (E := E) doc.group g' k).2.1]
      · rename_i g' revs dlgs heq
        have h0 : Doc.Has (P did) { doc with group := g' } := h did doc hdoc
        have h1 : Trees P ((k.storeAll E revs dlgs).setDoc did { doc with group := g' }) := by
          refine h.set h0 ?_
          simp only [Keyhive.setDoc, (storeAll_same (E := E) revs dlgs k).2.1]
        simp only
        split
        · exact h1
        · split
          all_goals
            rename_i heq
            refine h1.set ?_ rfl
            have := congrArg Prod.fst heq
            dsimp only at this
            rw [← this]
            exact has_removeCgkaMembers (C did) (hq did) h0

theorem trees_propagateRemoves {L : Local} (hq : ∀ doc, Q (L.signCgka doc) L.gen) {gid : Id} {ids : List Id} : ∀ {dids : List Id} {k : Keyhive} {acc : List SOp},
    Trees P k → Trees P (Keyhive.propagateRemoves E L gid ids k dids acc).1 := by
  intro dids
  induction dids with
  | nil => intro k acc h; exact h
  | cons did dids ih =>
    intro k acc h
    have h1 : Trees P (k.propagateRemove E L gid ids did).1 := by
      unfold Keyhive.propagateRemove
      split
      · exact h
      · rename_i doc hdoc
        split
        · exact h
        · split
          · exact h
          · exact h.set (has_dropCgkaMembers (C did) (hq did) (h did doc hdoc)) rfl
    unfold Keyhive.propagateRemoves
    split
    · rename_i heq; rw [heq] at h1; exact h1
    · rename_i heq; rw [heq] at h1; exact ih h1

theorem trees_revokeFromGroup {k : Keyhive} (h : Trees P k) {L : Local} (hq : ∀ doc, Q (L.signCgka doc) L.gen) (gid member : Id) (retain : Bool)
    (content : Content) : Trees P (k.revokeFromGroup E L gid member retain content).1 := by
  unfold Keyhive.revokeFromGroup
  split
  · exact h
  · rename_i g hg0
    split
    · exact h
    · split
      · rename_i g' e hg
        exact h.same (storeNew_same (E := E) g g' k).2.1
      · rename_i g' revs dlgs hg
        have h3 : Trees P { k.storeAll E revs dlgs with groups := AMap.insert k.groups gid g' } :=
          h.same (storeAll_same (E := E) revs dlgs k).2.1
        simp only
        split
        · exact h3
        · exact trees_propagateRemoves C hq h3

theorem trees_encryptContent {k : Keyhive} (h : Trees P k) {L : Local} (hq : ∀ doc, Q (L.signCgka doc) L.gen) (did : Id) (r ps x : Nat) :
    Trees P (k.encryptContent E L did r ps x).1 := by
  unfold Keyhive.encryptContent
  split
  · exact h
  · rename_i hd
    exact h.set (has_encryptContent (C did) (hq did) (h did _ hd) _ _ _) rfl

theorem trees_decryptContent {k : Keyhive} (h : Trees P k) (did : Id) (e : EncContent) : Trees P (k.decryptContent E did e).1 := by
  unfold Keyhive.decryptContent
  split
  · exact h
  · rename_i hd
    exact h.set (has_decryptContent (C did) (h did _ hd) e) rfl

theorem trees_forcePcsUpdate {k : Keyhive} (h : Trees P k) {L : Local} (hq : ∀ doc, Q (L.signCgka doc) L.gen) (did : Id) :
    Trees P (k.forcePcsUpdate E L did).1 := by
  unfold Keyhive.forcePcsUpdate
  split
  · exact h
  · rename_i hd
    exact h.set (has_pcsUpdate (C did) (hq did) (h did _ hd)) rfl

/-- The signers of group-key operations of the call satisfy `Q`. -/
def Call.Uses (Q : (Payload → Res SOp) → BeeKem.Gen → Prop) : Call → Prop
  | .newDoc L _ _ _ _ => ∀ doc, Q (L.signCgka doc) L.gen
  | .addToGroup L _ _ _ _ => ∀ doc, Q (L.signCgka doc) L.gen
  | .addToDoc L _ _ _ _ => ∀ doc, Q (L.signCgka doc) L.gen
  | .revokeFromGroup L _ _ _ _ => ∀ doc, Q (L.signCgka doc) L.gen
  | .revokeFromDoc L _ _ _ _ => ∀ doc, Q (L.signCgka doc) L.gen
  | .encrypt L _ _ _ _ => ∀ doc, Q (L.signCgka doc) L.gen
  | .pcsUpdate L _ => ∀ doc, Q (L.signCgka doc) L.gen
  | _ => True

/-- Every call in which nothing is received keeps what its signers let it keep. -/
theorem trees_own {k : Keyhive} (ih : Trees P k) (c : Call) (hc : c.Honest E) (hq : c.Uses Q) (ho : c.Own) : Trees P (c.run E k) := by
  cases c with
  | receive e => exact ho.elim
  | ingest ord events => exact ho.elim
  | contactCard op => exact ih.same rfl
  | newGroup S gid co =>
    show Trees P (k.generateGroup E S gid co).1
    unfold Keyhive.generateGroup
    split
    · exact ih
    · exact ih.same (storeDlgs_docs _ _)
  | newDoc L S did co heads => exact trees_newDoc C ih hq hc.2.2 S did co heads
  | addToGroup L gid who can content => exact trees_addToGroup C ih hq gid who can content
  | addToDoc L did who can content => exact trees_addToDoc C ih hq did who can content
  | revokeFromGroup L gid member retain content => exact trees_revokeFromGroup C ih hq gid member retain content
  | revokeFromDoc L did member retain content => exact trees_revokeFromDoc C ih hq did member retain content
  | ingestArchive ord a => exact ho.elim
  | encrypt L did r ps x => exact trees_encryptContent C ih hq did r ps x
  | decrypt did e => exact trees_decryptContent C ih did e
  | pcsUpdate L did => exact trees_forcePcsUpdate C ih hq did

end calls

/-- Every call keeps what its signers let it keep. -/
theorem trees_call (C : ClosedAll E Q P) {k : Keyhive} (ih : Trees P k) (c : Call) (hc : c.Honest E) (hq : c.Uses Q) : Trees P (c.run E k) := by
  cases c with
  | receive e => exact trees_receive C ih e
  | ingest ord events => exact ingest_keeps (P := Trees P) (fun k e h => trees_receive C h e) (fun k p h => h.same rfl) ord events ih
  | ingestArchive ord a =>
    exact ingestArchive_keeps (P := Trees P) (fun k e h => trees_receive C h e) (fun k p h => h.same rfl) (fun hs h => h.same hs.docs) ord a ih
  | contactCard op => exact trees_own (fun i => (C i).base) ih (.contactCard op) hc hq trivial
  | newGroup S gid co => exact trees_own (fun i => (C i).base) ih (.newGroup S gid co) hc hq trivial
  | newDoc L S did co heads => exact trees_own (fun i => (C i).base) ih (.newDoc L S did co heads) hc hq trivial
  | addToGroup L gid who can content => exact trees_own (fun i => (C i).base) ih (.addToGroup L gid who can content) hc hq trivial
  | addToDoc L did who can content => exact trees_own (fun i => (C i).base) ih (.addToDoc L did who can content) hc hq trivial
  | revokeFromGroup L gid m retain content => exact trees_own (fun i => (C i).base) ih (.revokeFromGroup L gid m retain content) hc hq trivial
  | revokeFromDoc L did m retain content => exact trees_own (fun i => (C i).base) ih (.revokeFromDoc L did m retain content) hc hq trivial
  | encrypt L did r ps x => exact trees_own (fun i => (C i).base) ih (.encrypt L did r ps x) hc hq trivial
  | decrypt did e => exact trees_own (fun i => (C i).base) ih (.decrypt did e) hc hq trivial
  | pcsUpdate L did => exact trees_own (fun i => (C i).base) ih (.pcsUpdate L did) hc hq trivial

theorem Call.Honest.uses {c : Call} (h : c.Honest E) : c.Uses (fun s _ => HonestSigner s) := by
  cases c <;> first | exact trivial | exact h.2 | exact h.2.2

theorem Call.Steady.uses {c : Call} (h : c.Steady) : c.Uses (fun s _ => GoodSigner s) := by
  cases c <;> exact h

theorem trees_start (reg : Prekey.Registry) (pairs : ShareKeyMap) : Trees P (Keyhive.start reg pairs) := by
  intro i d h; cases h

/-- The key trees of a device are reachable. -/
theorem reach_trees {k : Keyhive} (h : Reach E k) : Trees (fun i => Cgka.Reach (E.hashCgka i)) k := by
  induction h with
  | start reg pairs => exact trees_start reg pairs
  | call c h hc ih => exact trees_call (fun i => closed_reach (E.hashCgka i)) ih c hc hc.uses

theorem steady_trees {k : Keyhive} (h : ReachSteady E k) : Trees (fun i => Cgka.ReachOk (E.hashCgka i)) k := by
  induction h with
  | start reg pairs => exact trees_start reg pairs
  | call c h hc hs ih => exact trees_call (fun i => closed_reachOk (E.hashCgka i)) ih c hc hs.uses

theorem ReachSteady.reach {k : Keyhive} (h : ReachSteady E k) : Reach E k := by
  induction h with
  | start reg pairs => exact .start reg pairs
  | call c h hc hs ih => exact .call c ih hc

end Verif.Keyhive
