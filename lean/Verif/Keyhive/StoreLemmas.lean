import Verif.Keyhive.Spec

/-! # What is in the stores of a device -/

namespace Verif.Keyhive

open Verif.Group Verif.Cgka Verif.BeeKem

variable {E : Env}

theorem revDigests_eq (E : Env) : ∀ rs : Revs, E.revDigests rs = rs.toList.map E.revDigest
  | .nil => by simp [Env.revDigests, Revs.toList]
  | .cons r rs => by simp [Env.revDigests, Revs.toList, revDigests_eq E rs]

theorem dlgDigest_eq (E : Env) (d : Dlg) : E.dlgDigest d = E.hashDlg (E.sdlg d) := by
  cases d <;> simp [Env.dlgDigest, Env.sdlg, revDigests_eq, Dlg.issuer, Dlg.sig, Dlg.delegate, Dlg.can, Dlg.proof, Dlg.after,
    Dlg.content]

theorem revDigest_eq (E : Env) (r : Rev) : E.revDigest r = E.hashRev (E.srev r) := by
  cases r <;> simp [Env.revDigest, Env.srev, Rev.issuer, Rev.sig, Rev.revoke, Rev.proof, Rev.content]

/-- The stores have operations under their digests, all with valid signatures. -/
structure StoreOk (E : Env) (k : Keyhive) : Prop where
  dlg : ∀ h d, AMap.get k.dlgs h = some d → E.dlgDigest d = h ∧ E.validDlg (E.sdlg d) = true
  rev : ∀ h r, AMap.get k.revs h = some r → E.revDigest r = h ∧ E.validRev (E.srev r) = true

theorem StoreOk.same {k k' : Keyhive} (h : StoreOk E k) (hd : k'.dlgs = k.dlgs) (hr : k'.revs = k.revs) : StoreOk E k' :=
  ⟨by rw [hd]; exact h.dlg, by rw [hr]; exact h.rev⟩

theorem StoreOk.storeDlg {k : Keyhive} (h : StoreOk E k) {d : Dlg} (hd : E.validDlg (E.sdlg d) = true) :
    StoreOk E (k.storeDlg E d) := by
  refine ⟨fun x e he => ?_, h.rev⟩
  simp only [Keyhive.storeDlg, CaMap.insert, AMap.get_insert] at he
  split at he
  · cases he
    exact ⟨by simp_all, hd⟩
  · exact h.dlg x e he

theorem StoreOk.storeRev {k : Keyhive} (h : StoreOk E k) {r : Rev} (hr : E.validRev (E.srev r) = true) :
    StoreOk E (k.storeRev E r) := by
  refine ⟨h.dlg, fun x e he => ?_⟩
  simp only [Keyhive.storeRev, CaMap.insert, AMap.get_insert] at he
  split at he
  · cases he
    exact ⟨by simp_all, hr⟩
  · exact h.rev x e he

theorem StoreOk.storeDlgs {ds : List Dlg} : ∀ {k : Keyhive}, StoreOk E k → (∀ d ∈ ds, E.validDlg (E.sdlg d) = true) →
    StoreOk E (ds.foldl (Keyhive.storeDlg E) k) := by
  induction ds with
  | nil => intro k h _; exact h
  | cons d ds ih => intro k h hd; exact ih (h.storeDlg (hd d (by simp))) (fun d' h' => hd d' (by simp [h']))

theorem StoreOk.storeRevs {rs : List Rev} : ∀ {k : Keyhive}, StoreOk E k → (∀ r ∈ rs, E.validRev (E.srev r) = true) →
    StoreOk E (rs.foldl (Keyhive.storeRev E) k) := by
  induction rs with
  | nil => intro k h _; exact h
  | cons d ds ih => intro k h hd; exact ih (h.storeRev (hd d (by simp))) (fun d' h' => hd d' (by simp [h']))

theorem findRevs_digests {k : Keyhive} (h : StoreOk E k) : ∀ {hs : List Nat} {rs : List Rev}, k.findRevs hs = .ok rs →
    rs.map E.revDigest = hs := by
  intro hs
  induction hs with
  | nil => intro rs hr; cases hr; rfl
  | cons x xs ih =>
    intro rs hr
    unfold Keyhive.findRevs at hr
    split at hr
    · cases hr
    · rename_i r hg
      split at hr
      · cases hr
      · rename_i l hl
        cases hr
        simp [(h.rev _ _ hg).1, ih hl]

theorem findProof_digest {k : Keyhive} (h : StoreOk E k) {x : Option Nat} {p : Option Dlg} (hp : k.findProof x = .ok p) :
    p.map E.dlgDigest = x := by
  unfold Keyhive.findProof at hp
  split at hp
  · cases hp; rfl
  · split at hp
    · cases hp
    · rename_i d hg
      cases hp
      simp [(h.dlg _ _ hg).1]

@[simp] theorem Revs.toList_ofList' : ∀ l : List Rev, (Revs.ofList l).toList = l
  | [] => rfl
  | r :: l => by simp [Revs.ofList, Revs.toList, Revs.toList_ofList' l]

theorem sdlg_mk (E : Env) (i s : Nat) (a : Agent) (c : Access) (p : Option Dlg) (rs : List Rev) (x : Content) :
    E.sdlg (.mk i s a c p rs x) = ⟨i, s, a.id, c, p.map E.dlgDigest, rs.map E.revDigest, x⟩ := by
  cases p <;> simp [Dlg.mk, Env.sdlg, Dlg.issuer, Dlg.sig, Dlg.delegate, Dlg.can, Dlg.proof, Dlg.after, Dlg.content]

theorem srev_mk (E : Env) (i s : Nat) (d : Dlg) (p : Option Dlg) (x : Content) :
    E.srev (.mk i s d p x) = ⟨i, s, E.dlgDigest d, p.map E.dlgDigest, x⟩ := by
  cases p <;> simp [Rev.mk, Env.srev, Rev.issuer, Rev.sig, Rev.revoke, Rev.proof, Rev.content]

theorem getAgent_id {k : Keyhive} {i : Id} {a : Agent} (h : k.getAgent i = some a) : a.id = i := by
  unfold Keyhive.getAgent at h
  repeat' split at h
  all_goals cases h <;> rfl

/-- An operation put together from a received one is that operation. -/
theorem toDlg_static {k : Keyhive} (h : StoreOk E k) {s : SDlg} {d : Dlg} (hd : k.toDlg s = .ok d) : E.sdlg d = s := by
  unfold Keyhive.toDlg at hd
  split at hd
  · cases hd
  · rename_i p hp
    split at hd
    · cases hd
    · rename_i a ha
      split at hd
      · cases hd
      · rename_i rs hr
        cases hd
        rw [sdlg_mk, findProof_digest h hp, findRevs_digests h hr, getAgent_id ha]

theorem toRev_static {k : Keyhive} (h : StoreOk E k) {s : SRev} {r : Rev} (hd : k.toRev s = .ok r) : E.srev r = s := by
  unfold Keyhive.toRev at hd
  split at hd
  · cases hd
  · rename_i d hg
    split at hd
    · cases hd
    · rename_i p hp
      cases hd
      rw [srev_mk, findProof_digest h hp, (h.dlg _ _ hg).1]

theorem toRev_revoke {k : Keyhive} {s : SRev} {r : Rev} (hd : k.toRev s = .ok r) :
    AMap.get k.dlgs s.revoke = some r.revoke := by
  unfold Keyhive.toRev at hd
  split at hd
  · cases hd
  · rename_i d hg
    split at hd
    · cases hd
    · rename_i p hp
      cases hd
      rw [hg]
      cases p <;> rfl

/-! ## Receiving -/

theorem storeOk_promote {k : Keyhive} (h : StoreOk E k) {d : Dlg} (hd : E.validDlg (E.sdlg d) = true) :
    StoreOk E (k.promote E d).1 := by
  unfold Keyhive.promote
  simp only
  split
  · exact h.storeDlg hd
  · exact h.storeDlg hd

theorem storeOk_removeIndividual {k : Keyhive} (h : StoreOk E k) (i : Id) : StoreOk E (k.removeIndividual i) := by
  unfold Keyhive.removeIndividual
  split
  · exact h.same rfl rfl
  · exact h.same rfl rfl

theorem storeOk_adopt {k : Keyhive} (h : StoreOk E k) {d : Dlg} (hd : E.validDlg (E.sdlg d) = true) :
    StoreOk E (k.adopt E d) := by
  unfold Keyhive.adopt
  simp only
  split
  · exact (h.storeDlg hd).same rfl rfl
  · exact (h.storeDlg hd).same rfl rfl

theorem storeOk_applyDlg {k : Keyhive} (h : StoreOk E k) {d : Dlg} (hd : E.validDlg (E.sdlg d) = true) :
    StoreOk E (k.applyDlg E d).1 := by
  unfold Keyhive.applyDlg
  split
  · split
    · exact h
    · exact (h.storeDlg hd).same rfl rfl
  · split
    · split
      · exact h
      · exact (h.storeDlg hd).same rfl rfl
    · split
      · have := storeOk_promote (storeOk_removeIndividual h d.subject) hd
        split
        · rename_i heq; rw [heq] at this; exact this
        · rename_i heq; rw [heq] at this; exact this
      · exact storeOk_adopt h hd

theorem storeOk_applyRev {k : Keyhive} (h : StoreOk E k) {r : Rev} (hr : E.validRev (E.srev r) = true)
    (hd : E.validDlg (E.sdlg r.revoke) = true) : StoreOk E (k.applyRev E r).1 := by
  unfold Keyhive.applyRev
  split
  · split
    · exact h
    · exact (h.storeRev hr).same rfl rfl
  · split
    · split
      · exact h
      · exact (h.storeRev hr).same rfl rfl
    · split
      · have := storeOk_promote (storeOk_removeIndividual h r.subject) hd
        split
        · rename_i heq; rw [heq] at this; exact this
        · rename_i heq
          rw [heq] at this
          split
          · exact this
          · exact this.storeRev hr
      · exact h

theorem storeOk_receiveDelegation {k : Keyhive} (h : StoreOk E k) (s : SDlg) : StoreOk E (k.receiveDelegation E s).1 := by
  unfold Keyhive.receiveDelegation
  split
  · exact h
  · split
    · exact h
    · rename_i hv
      split
      · exact h
      · rename_i d hd
        exact storeOk_applyDlg h (by rw [toDlg_static h hd]; simpa using hv)

theorem storeOk_receiveRevocation {k : Keyhive} (h : StoreOk E k) (s : SRev) : StoreOk E (k.receiveRevocation E s).1 := by
  unfold Keyhive.receiveRevocation
  split
  · exact h
  · split
    · exact h
    · rename_i hv
      split
      · exact h
      · rename_i r hr
        exact storeOk_applyRev h (by rw [toRev_static h hr]; simpa using hv) (h.dlg _ _ (toRev_revoke hr)).2

theorem receiveCgkaOp_stores (k : Keyhive) (id : Id) (op : SOp) :
    (k.receiveCgkaOp E id op).1.dlgs = k.dlgs ∧ (k.receiveCgkaOp E id op).1.revs = k.revs := by
  unfold Keyhive.receiveCgkaOp Keyhive.mergePublicInvite
  repeat' split
  all_goals exact ⟨rfl, rfl⟩

theorem storeOk_receive {k : Keyhive} (h : StoreOk E k) (e : Event) : StoreOk E (k.receive E e).1 := by
  cases e with
  | prekey op => exact h.same rfl rfl
  | cgka doc op => exact h.same (receiveCgkaOp_stores k doc op).1 (receiveCgkaOp_stores k doc op).2
  | dlg s => exact storeOk_receiveDelegation h s
  | rev s => exact storeOk_receiveRevocation h s

/-! ## Ingesting -/

/-- What every receiving call keeps, a whole batch keeps. -/
theorem pass_keeps {P : Keyhive → Prop} (hP : ∀ k e, P k → P (k.receive E e).1) : ∀ {es : List Event} {k : Keyhive} {next : List Event},
    P k → P (Keyhive.pass E k es next).1 := by
  intro es
  induction es with
  | nil => intro k next h; exact h
  | cons e es ih =>
    intro k next h
    have := hP k e h
    unfold Keyhive.pass
    split
    · rename_i heq; rw [heq] at this; exact ih this
    · rename_i heq
      rw [heq] at this
      repeat' split
      · exact this
      · exact ih this
      · exact ih this

theorem rounds_keeps {P : Keyhive → Prop} (hP : ∀ k e, P k → P (k.receive E e).1) (hpend : ∀ k p, P k → P { k with pending := p })
    {replayed : List Nat} : ∀ {n : Nat} {k : Keyhive} {epoch : List Event}, P k → P (Keyhive.rounds E replayed n k epoch).1 := by
  intro n
  induction n with
  | zero => intro k epoch h; exact h
  | succ n ih =>
    intro k epoch h
    have := pass_keeps hP (es := epoch) (next := []) h
    unfold Keyhive.rounds
    split
    · rename_i heq; rw [heq] at this; exact this
    · rename_i heq; rw [heq] at this; exact hpend _ _ this
    · rename_i heq
      rw [heq] at this
      split
      · exact hpend _ _ this
      · exact ih this

theorem ingest_keeps {P : Keyhive → Prop} (hP : ∀ k e, P k → P (k.receive E e).1) (hpend : ∀ k p, P k → P { k with pending := p })
    {k : Keyhive} (ord : List Event → List Event) (events : List Event) (h : P k) : P (k.ingest E ord events).1 :=
  rounds_keeps hP hpend h

/-! ## Taking in an archive -/

/-- Nothing but the individuals and the prekey pairs differs. -/
structure SameBut (k k' : Keyhive) : Prop where
  me : k'.reg.me = k.reg.me
  unlisted : k'.unlisted = k.unlisted
  groups : k'.groups = k.groups
  docs : k'.docs = k.docs
  dlgs : k'.dlgs = k.dlgs
  revs : k'.revs = k.revs
  pending : k'.pending = k.pending

theorem mergeActive_same (k : Keyhive) (a : Archive) : SameBut k (k.mergeActive a) := by
  refine ⟨?_, rfl, rfl, rfl, rfl, rfl, rfl⟩
  unfold Keyhive.mergeActive
  dsimp only
  split <;> rfl

theorem mergeIndie_same (k : Keyhive) (p : Id × Prekey.Indie) : SameBut k (k.mergeIndie p) := by
  unfold Keyhive.mergeIndie
  split
  · exact ⟨rfl, rfl, rfl, rfl, rfl, rfl, rfl⟩
  · split <;> exact ⟨rfl, rfl, rfl, rfl, rfl, rfl, rfl⟩

theorem SameBut.trans {k k1 k2 : Keyhive} (h : SameBut k k1) (h' : SameBut k1 k2) : SameBut k k2 :=
  ⟨h'.me.trans h.me, h'.unlisted.trans h.unlisted, h'.groups.trans h.groups, h'.docs.trans h.docs, h'.dlgs.trans h.dlgs,
    h'.revs.trans h.revs, h'.pending.trans h.pending⟩

theorem mergeIndies_same (l : List (Id × Prekey.Indie)) : ∀ k : Keyhive, SameBut k (l.foldl Keyhive.mergeIndie k) := by
  induction l with
  | nil => intro k; exact ⟨rfl, rfl, rfl, rfl, rfl, rfl, rfl⟩
  | cons p l ih => intro k; exact (mergeIndie_same k p).trans (ih _)

/-- The device before the operations of the archive are ingested. -/
def Keyhive.merged (k : Keyhive) (a : Archive) : Keyhive := a.individuals.foldl Keyhive.mergeIndie (k.mergeActive a)

theorem merged_same (k : Keyhive) (a : Archive) : SameBut k (k.merged a) :=
  (mergeActive_same k a).trans (mergeIndies_same _ _)

theorem ingestArchive_keeps {P : Keyhive → Prop} (hP : ∀ k e, P k → P (k.receive E e).1) (hpend : ∀ k p, P k → P { k with pending := p })
    (hsame : ∀ {k k'}, SameBut k k' → P k → P k') (ord : List Event → List Event) (a : Archive) {k : Keyhive} (h : P k) :
    P (k.ingestArchive E ord a).1 :=
  ingest_keeps hP hpend ord _ (hsame (merged_same k a) h)

end Verif.Keyhive
