import Verif.Keyhive.FleetSpec
import Verif.Keyhive.BridgeLemmas
import Verif.Keyhive.SecretsLemmas
import Verif.Keyhive.RoleLemmas
import Verif.Cgka.TrustLemmas

/-! # The key trees of devices that all run the library -/

namespace Verif.Keyhive

open Verif.Group Verif.Cgka Verif.BeeKem

variable {E : Env}

theorem OwnPairs.insert {m : ShareKeyMap} (h : OwnPairs m) (s : Sk) : OwnPairs (AMap.insert m (shareKey s) s) := by
  intro p hp
  rcases List.mem_cons.1 hp with rfl | hp
  · rfl
  · exact h p (List.mem_filter.1 hp).1

theorem OwnPairs.insert' {m : ShareKeyMap} (h : OwnPairs m) {pk : Pk} {s : Sk} (hs : pk = shareKey s) : OwnPairs (AMap.insert m pk s) := by
  subst hs; exact h.insert s

theorem OwnPairs.nil : OwnPairs [] := fun _ h => by cases h

theorem OwnPairs.fold {m l : ShareKeyMap} (h : OwnPairs m) (hl : OwnPairs l) : OwnPairs (l.foldl (fun m p => AMap.insert m p.1 p.2) m) := by
  induction l generalizing m with
  | nil => exact h
  | cons p l ih => exact ih (h.insert' (hl p (by simp))) (fun q hq => hl q (by simp [hq]))

theorem trusted_pairs {H : SOp → Nat} (hH : Function.Injective H) {c : Cgka} (h : Trusted H c) : OwnPairs c.ownerSks := (trusted_clean hH h).keys

theorem trusted_public {H : SOp → Nat} {c : Cgka} (h : Trusted H c) {me : Id} {sks : ShareKeyMap} (hs : OwnPairs sks) :
    Trusted H (withPublic (c.withNewOwner me sks)) := Trusted.owner (c := c) me _ h (hs.insert publicSk)

theorem closed_trusted (H : SOp → Nat) : Closed0 H (fun s _ => GoodSigner s) (Trusted H) :=
  ⟨fun {id pk op c _ g} me _ _ h1 h2 => trusted_public (c := withPublic c) (Trusted.owner (c := c) c.ownerId _ (.new h1 h2)
      (OwnPairs.insert (by
        unfold Cgka.newFromInitAdd at h2
        simp only [bind, Except.bind, pure, Except.pure] at h2
        split at h2
        · cases h2
        · cases h2; exact OwnPairs.nil) publicSk)) (OwnPairs.nil.insert (g 0)),
   fun id pk hq h => .call (cmd := .add _ id pk) h trivial hq,
   fun id hq h => .call (cmd := .remove _ id) h trivial hq, fun {_ _ g} hq h => .call (cmd := .update _ g 1 (g 0)) h trivial hq,
   fun {_ _ g} r ps hq h => .call (cmd := .encrypt _ g 0 r ps) h trivial hq, fun e h => .call (cmd := .decrypt e) h trivial trivial⟩

/-- The operation may be received for the document. -/
def Passed (E : Env) (did : Id) (op : SOp) : Prop :=
  (∃ d x, Trusted (E.hashCgka did) d ∧ AMap.get d.graph.ops x = some op) ∧ PublicAsKnown op

theorem new_none {H : SOp → Nat} {id : MemberId} {pk : Pk} {op : SOp} {c : Cgka} (h : Cgka.newFromInitAdd H id pk op = .ok c) :
    c.ownerSks = [] := by
  unfold Cgka.newFromInitAdd at h
  simp only [bind, Except.bind, pure, Except.pure] at h
  split at h
  · cases h
  · cases h; rfl

theorem trusted_mergeCgkaOp {did : Id} {d : Doc} (h : d.Has (Trusted (E.hashCgka did))) {op : SOp} (hp : Passed E did op) :
    (d.mergeCgkaOp (E.hashCgka did) op).1.Has (Trusted (E.hashCgka did)) := by
  obtain ⟨⟨d0, x, h0, hx⟩, -⟩ := hp
  unfold Doc.mergeCgkaOp
  split
  · rename_i c hc
    intro c' h'
    cases h'
    exact .receive (h c hc) h0 hx
  · split
    · rename_i id pk n preds ps hp
      split
      · exact h
      · rename_i he
        split
        · exact h
        · rename_i c hc
          intro c' h'
          cases h'
          refine Trusted.owner (c := c) c.ownerId _ (.new ⟨n, ps, ?_⟩ hc) (OwnPairs.insert (by rw [new_none hc]; exact OwnPairs.nil) publicSk)
          cases preds with
          | nil => exact hp
          | cons a l => simp at he
    · exact h

theorem trusted_invite (hH : Function.Injective (E.hashCgka did)) {d : Doc} (h : d.Has (Trusted (E.hashCgka did))) {op : SOp}
    (hp : Passed E did op) {sk : Sk} (hs : ∀ id pk i ps as, op.payload = .add id pk i ps as → pk = shareKey sk) :
    (d.mergeCgkaInviteOp (E.hashCgka did) op sk).1.Has (Trusted (E.hashCgka did)) := by
  unfold Doc.mergeCgkaInviteOp
  split
  · rename_i id pk i ps as ho
    split
    · exact h
    · rename_i c hc
      split
      · exact h
      · refine trusted_mergeCgkaOp ?_ hp
        intro c' h'
        cases h'
        exact trusted_public (h c hc) ((trusted_pairs hH (h c hc)).insert' (hs _ _ _ _ _ ho))
  · exact h

theorem trusted_reset (hH : Function.Injective (E.hashCgka did)) {d : Doc} (h : d.Has (Trusted (E.hashCgka did))) (owner : Id) :
    (d.resetCgkaOwner owner).1.Has (Trusted (E.hashCgka did)) := by
  unfold Doc.resetCgkaOwner
  split
  · exact h
  · rename_i c hc
    intro c' h'
    cases h'
    exact trusted_public (h c hc) (trusted_pairs hH (h c hc))

/-- What holds on every device of a fleet. -/
structure FleetOk (E : Env) (k : Keyhive) : Prop where
  trees : Trees (fun i => Trusted (E.hashCgka i)) k
  pub : k.reg.pub = MemberId.pub
  pairs : OwnPairs k.pairs
  pend : ∀ did op, .cgka did op ∈ k.pending → Passed E did op

theorem sound_receiveCgkaOp (hH : ∀ i, Function.Injective (E.hashCgka i)) {k : Keyhive} (h : FleetOk E k) {did : Id} {op : SOp}
    (hp : Passed E did op) : Trees (fun i => Trusted (E.hashCgka i)) (k.receiveCgkaOp E did op).1 := by
  have ht := h.trees
  unfold Keyhive.receiveCgkaOp
  split
  · exact ht
  · split
    · exact ht
    · rename_i d hd
      have h0 := ht did d hd
      split
      · rename_i added pk i ps as ho
        split
        · split
          · exact ht
          · rename_i sk hsk
            refine ht.set (trusted_invite (hH did) h0 hp ?_) rfl
            intro _ pk' _ _ _ ho'
            rw [ho] at ho'
            cases ho'
            exact h.pairs _ (AMap.mem_of_get hsk)
        · split
          · rename_i hpub
            unfold Keyhive.mergePublicInvite
            have h1 := trusted_invite (hH did) h0 hp (sk := publicSk) (by
              intro _ pk' _ _ _ ho'
              rw [ho] at ho'
              cases ho'
              refine hp.2 pk i ps as ?_
              rw [← h.pub, hpub]; exact ho)
            split
            · rename_i heq
              rw [heq] at h1
              exact ht.set h1 rfl
            · rename_i heq
              rw [heq] at h1
              exact ht.set (trusted_reset (hH did) h1 _) rfl
          · exact ht.set (trusted_mergeCgkaOp h0 hp) rfl
      · exact ht.set (trusted_mergeCgkaOp h0 hp) rfl

theorem sound_receive (hH : ∀ i, Function.Injective (E.hashCgka i)) {k : Keyhive} (h : FleetOk E k) {e : Event}
    (hp : ∀ did op, e = .cgka did op → Passed E did op) : FleetOk E (k.receive E e).1 := by
  have hs := receive_self (E := E) k e
  refine ⟨?_, hs.pub.trans h.pub, by rw [hs.pairs]; exact h.pairs, by rw [receive_pending]; exact h.pend⟩
  have ht := h.trees
  cases e with
  | prekey op => exact ht.same rfl
  | cgka i op => exact sound_receiveCgkaOp hH h (hp i op rfl)
  | dlg s =>
    show Trees _ (k.receiveDelegation E s).1
    unfold Keyhive.receiveDelegation
    repeat' split
    · exact ht
    · exact ht
    · exact ht
    · exact trees_applyDlg ht _
  | rev s =>
    show Trees _ (k.receiveRevocation E s).1
    unfold Keyhive.receiveRevocation
    repeat' split
    · exact ht
    · exact ht
    · exact ht
    · exact trees_applyRev ht _

theorem sound_ingest (hH : ∀ i, Function.Injective (E.hashCgka i)) {k : Keyhive} (h : FleetOk E k) {ord : List Event → List Event}
    (hord : ∀ l, (ord l).Perm l) {events : List Event} (hp : ∀ did op, .cgka did op ∈ events → Passed E did op) :
    FleetOk E (k.ingest E ord events).1 := by
  refine rounds_fine (P := FleetOk E) (Q := fun e => ∀ did op, e = .cgka did op → Passed E did op) (fun k e hq h => sound_receive hH h hq) ?_ ?_ h
  · intro k p hp h
    refine ⟨h.trees.same rfl, h.pub, h.pairs, fun did op ho => ?_⟩
    rcases hp _ ho with h1 | h1
    · exact h1 did op rfl
    · exact h.pend did op h1
  · intro e hm did op he
    subst he
    have := mem_of_dedup ((hord _).mem_iff.1 hm)
    rcases List.mem_append.1 this with h1 | h1
    · exact hp did op h1
    · exact h.pend did op h1

/-! ## The device's own calls -/

/-- The same active agent with the same prekey pairs, and the same events pending. -/
structure SameStock (k k' : Keyhive) : Prop where
  pub : k'.reg.pub = k.reg.pub
  pairs : k'.pairs = k.pairs
  pending : k'.pending = k.pending
  me : k'.reg.me = k.reg.me

theorem SameStock.rfl' (k : Keyhive) : SameStock k k := ⟨rfl, rfl, rfl, rfl⟩
theorem SameStock.trans {k k1 k2 : Keyhive} (h : SameStock k k1) (h' : SameStock k1 k2) : SameStock k k2 :=
  ⟨h'.pub.trans h.pub, h'.pairs.trans h.pairs, h'.pending.trans h.pending, h'.me.trans h.me⟩

theorem stock_storeDlgs : ∀ (l : List Dlg) (k : Keyhive), SameStock k (l.foldl (Keyhive.storeDlg E) k)
  | [], k => .rfl' k
  | d :: l, k => SameStock.trans (k1 := k.storeDlg E d) ⟨rfl, rfl, rfl, rfl⟩ (stock_storeDlgs l (k.storeDlg E d))

theorem stock_storeRevs : ∀ (l : List Rev) (k : Keyhive), SameStock k (l.foldl (Keyhive.storeRev E) k)
  | [], k => .rfl' k
  | d :: l, k => SameStock.trans (k1 := k.storeRev E d) ⟨rfl, rfl, rfl, rfl⟩ (stock_storeRevs l (k.storeRev E d))

theorem stock_storeAll (revs : List Rev) (dlgs : List Dlg) (k : Keyhive) : SameStock k (k.storeAll E revs dlgs) :=
  (stock_storeRevs revs k).trans (stock_storeDlgs dlgs _)

theorem stock_propagateAdd (k : Keyhive) (L : Local) (gid : Id) (who : Agent) (did : Id) : SameStock k (k.propagateAdd E L gid who did).1 := by
  unfold Keyhive.propagateAdd
  repeat' split
  all_goals exact ⟨rfl, rfl, rfl, rfl⟩

theorem stock_propagateAdds {L : Local} {gid : Id} {who : Agent} : ∀ {dids : List Id} {k : Keyhive} {acc : List SOp},
    SameStock k (Keyhive.propagateAdds E L gid who k dids acc).1 := by
  intro dids
  induction dids with
  | nil => intro k acc; exact .rfl' k
  | cons did dids ih =>
    intro k acc
    have h1 := stock_propagateAdd (E := E) k L gid who did
    unfold Keyhive.propagateAdds
    split
    · rename_i heq; rw [heq] at h1; exact h1
    · rename_i heq; rw [heq] at h1; exact h1.trans ih

theorem stock_propagateRemoves {L : Local} {gid : Id} {ids : List Id} : ∀ {dids : List Id} {k : Keyhive} {acc : List SOp},
    SameStock k (Keyhive.propagateRemoves E L gid ids k dids acc).1 := by
  intro dids
  induction dids with
  | nil => intro k acc; exact .rfl' k
  | cons did dids ih =>
    intro k acc
    have h1 : SameStock k (k.propagateRemove E L gid ids did).1 := by
      unfold Keyhive.propagateRemove
      repeat' split
      all_goals exact ⟨rfl, rfl, rfl, rfl⟩
    unfold Keyhive.propagateRemoves
    split
    · rename_i heq; rw [heq] at h1; exact h1
    · rename_i heq; rw [heq] at h1; exact h1.trans ih

theorem stock_remove (k : Keyhive) (i : Id) : SameStock k (k.removeIndividual i) := by
  unfold Keyhive.removeIndividual
  split <;> exact ⟨rfl, rfl, rfl, rfl⟩

theorem stock_insertGroup (k : Keyhive) (g : Group) : SameStock k (k.insertGroup g) := by
  unfold Keyhive.insertGroup
  exact ⟨rfl, rfl, rfl, rfl⟩

theorem stock_insertDoc (k : Keyhive) (d : Doc) : SameStock k (k.insertDoc d) := by
  unfold Keyhive.insertDoc
  exact ⟨rfl, rfl, rfl, rfl⟩

theorem card_pub (H : Prekey.KeyOp → Nat) (valid : Prekey.KeyOp → Bool) (r : Prekey.Registry) (op : Prekey.KeyOp) :
    (r.receiveContactCard H valid op).1.pub = r.pub := by
  unfold Prekey.Registry.receiveContactCard
  repeat' split
  all_goals first
    | rfl
    | (unfold Prekey.Registry.receiveIndie; split <;> rfl)
    | (show (r.registerIndividual _).pub = r.pub; unfold Prekey.Registry.registerIndividual; split <;> rfl)

theorem card_me (H : Prekey.KeyOp → Nat) (valid : Prekey.KeyOp → Bool) (r : Prekey.Registry) (op : Prekey.KeyOp) :
    (r.receiveContactCard H valid op).1.me = r.me := by
  unfold Prekey.Registry.receiveContactCard
  repeat' split
  all_goals first
    | rfl
    | (unfold Prekey.Registry.receiveIndie; split <;> rfl)
    | (show (r.registerIndividual _).me = r.me; unfold Prekey.Registry.registerIndividual; split <;> rfl)

theorem own_stock {k : Keyhive} (c : Call) (ho : c.Own) :
    (c.run E k).reg.pub = k.reg.pub ∧ (c.run E k).pairs = k.pairs ∧ (c.run E k).pending = k.pending ∧
      (c.run E k).reg.me = k.reg.me := by
  have key : ∀ k', SameStock k k' → k'.reg.pub = k.reg.pub ∧ k'.pairs = k.pairs ∧ k'.pending = k.pending ∧ k'.reg.me = k.reg.me :=
    fun k' h => ⟨h.pub, h.pairs, h.pending, h.me⟩
  cases c with
  | receive e => exact ho.elim
  | ingest ord events => exact ho.elim
  | ingestArchive ord a => exact ho.elim
  | contactCard op => exact ⟨card_pub _ _ _ _, rfl, rfl, card_me _ _ _ _⟩
  | newGroup S gid co =>
    refine key _ ?_
    show SameStock k (k.generateGroup E S gid co).1
    unfold Keyhive.generateGroup
    split
    · exact .rfl' k
    · exact SameStock.trans (stock_storeDlgs (E := E) _ k) (stock_insertGroup _ _)
  | newDoc L S did co heads =>
    refine key _ ?_
    show SameStock k (k.generateDoc E L S did co heads).1
    unfold Keyhive.generateDoc
    split
    · exact .rfl' k
    · rename_i g hg
      have h1 := stock_storeDlgs (E := E) (AMap.values g.dlgHeads) k
      dsimp only
      repeat' split
      all_goals first
        | exact h1
        | exact h1.trans (stock_insertDoc _ _)
  | addToGroup L gid who can content =>
    refine key _ ?_
    show SameStock k (k.addMemberToGroup E L gid who can content).1
    unfold Keyhive.addMemberToGroup
    split
    · exact .rfl' k
    · split
      · exact .rfl' k
      · rename_i g _ g' d hg
        have h1 : SameStock k { k.storeDlg E d with groups := AMap.insert k.groups gid g' } := ⟨rfl, rfl, rfl, rfl⟩
        simp only
        split
        · have h2 := stock_propagateAdds (E := E) (L := L) (gid := gid) (who := d.delegate)
            (dids := AMap.keys ({ k.storeDlg E d with groups := AMap.insert k.groups gid g' } : Keyhive).docs)
            (k := { k.storeDlg E d with groups := AMap.insert k.groups gid g' }) (acc := [])
          split
          · rename_i heq; rw [heq] at h2; exact h1.trans h2
          · rename_i heq; rw [heq] at h2; exact h1.trans h2
        · exact h1
  | addToDoc L did who can content =>
    refine key _ ?_
    show SameStock k (k.addMemberToDoc E L did who can content).1
    unfold Keyhive.addMemberToDoc
    repeat' split
    all_goals (try dsimp only); repeat' split
    all_goals exact ⟨rfl, rfl, rfl, rfl⟩
  | revokeFromGroup L gid member retain content =>
    refine key _ ?_
    show SameStock k (k.revokeFromGroup E L gid member retain content).1
    unfold Keyhive.revokeFromGroup
    split
    · exact .rfl' k
    · split
      · exact .rfl' k
      · split
        · exact (stock_storeAll (E := E) _ _ k).trans ⟨rfl, rfl, rfl, rfl⟩
        · rename_i g' revs dlgs hg
          have h3 : SameStock k { k.storeAll E revs dlgs with groups := AMap.insert k.groups gid g' } :=
            (stock_storeAll revs dlgs k).trans ⟨rfl, rfl, rfl, rfl⟩
          simp only
          split
          · exact h3
          · exact h3.trans stock_propagateRemoves
  | revokeFromDoc L did member retain content =>
    refine key _ ?_
    show SameStock k (k.revokeFromDoc E L did member retain content).1
    unfold Keyhive.revokeFromDoc
    split
    · exact .rfl' k
    · split
      · exact .rfl' k
      · split
        · exact (stock_storeAll (E := E) _ _ k).trans ⟨rfl, rfl, rfl, rfl⟩
        · rename_i g' revs dlgs hg
          have h3 := stock_storeAll (E := E) revs dlgs k
          dsimp only
          repeat' split
          all_goals exact h3.trans ⟨rfl, rfl, rfl, rfl⟩
  | encrypt L did r ps x =>
    refine key _ ?_
    show SameStock k (k.encryptContent E L did r ps x).1
    unfold Keyhive.encryptContent
    split <;> exact ⟨rfl, rfl, rfl, rfl⟩
  | decrypt did e =>
    refine key _ ?_
    show SameStock k (k.decryptContent E did e).1
    unfold Keyhive.decryptContent
    split <;> exact ⟨rfl, rfl, rfl, rfl⟩
  | pcsUpdate L did =>
    refine key _ ?_
    show SameStock k (k.forcePcsUpdate E L did).1
    unfold Keyhive.forcePcsUpdate
    split <;> exact ⟨rfl, rfl, rfl, rfl⟩

theorem merged_pub (k : Keyhive) (a : Archive) : (k.merged a).reg.pub = k.reg.pub := by
  have h1 : ∀ (l : List (Id × Prekey.Indie)) (k : Keyhive), (l.foldl Keyhive.mergeIndie k).reg.pub = k.reg.pub := by
    intro l
    induction l with
    | nil => intro k; rfl
    | cons p l ih =>
      intro k
      rw [List.foldl_cons, ih]
      unfold Keyhive.mergeIndie
      repeat' split
      all_goals rfl
  unfold Keyhive.merged
  rw [h1]
  unfold Keyhive.mergeActive
  dsimp only
  split <;> rfl

theorem fleet_sound (hH : ∀ i, Function.Injective (E.hashCgka i)) {k : Keyhive} (h : Fleet E k) : FleetOk E k := by
  induction h with
  | start reg pairs hp hk => exact ⟨trees_start reg pairs, hp, hk, fun _ _ h => by cases h⟩
  | @call k c h ho hc hs ih =>
    obtain ⟨h1, h2, h3, _⟩ := own_stock (E := E) (k := k) c ho
    exact ⟨trees_own (fun i => closed_trusted (E.hashCgka i)) ih.trees c hc hs.uses ho, h1.trans ih.pub, by rw [h2]; exact ih.pairs,
      by rw [h3]; exact ih.pend⟩
  | receive e h src hf he ih ihs =>
    refine sound_receive hH ih (fun did op ho => ?_)
    obtain ⟨⟨d, c, h1, h2, h3⟩, h4⟩ := he did op ho
    exact ⟨⟨c, _, (ihs did op).trees did d h1 c h2, h3⟩, h4⟩
  | ingest ord hord events h src hf he ih ihs =>
    refine sound_ingest hH ih hord (fun did op ho => ?_)
    obtain ⟨⟨d, c, h1, h2, h3⟩, h4⟩ := he did op ho
    exact ⟨⟨c, _, (ihs did op).trees did d h1 c h2, h3⟩, h4⟩
  | @archive k ord hord a h hk ih =>
    have hs := merged_same k a
    refine sound_ingest (k := k.merged a) hH ⟨ih.trees.same hs.docs, (merged_pub k a).trans ih.pub, ?_, by rw [hs.pending]; exact ih.pend⟩ hord ?_
    · unfold Keyhive.merged
      rw [mergeIndies_pairs]
      exact ih.pairs.fold hk
    · intro did op ho
      obtain ⟨m, _, hm⟩ := List.mem_map.1 ho
      cases m <;> cases hm

/-- The key trees of the documents of a device in a fleet. -/
theorem fleet_trusted (hH : ∀ i, Function.Injective (E.hashCgka i)) {k : Keyhive} (h : Fleet E k) {did : Id} {d : Doc} {c : Cgka}
    (hd : AMap.get k.docs did = some d) (hc : d.cgka = some c) : Trusted (E.hashCgka did) c := (fleet_sound hH h).trees did d hd c hc

theorem fleet_reach {k : Keyhive} (h : Fleet E k) : Reach E k := by
  induction h with
  | start reg pairs _ _ => exact .start reg pairs
  | call c _ _ hc _ ih => exact .call c ih hc
  | receive e _ _ _ _ ih _ => exact .call (.receive e) ih trivial
  | ingest ord _ events _ _ _ _ ih _ => exact .call (.ingest ord events) ih trivial
  | archive ord _ a _ _ ih => exact .call (.ingestArchive ord a) ih trivial

end Verif.Keyhive
