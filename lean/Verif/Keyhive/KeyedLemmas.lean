import Verif.Keyhive.StatsLemmas
import Verif.Keyhive.SettleLemmas

/-! # The individuals of a device stay in maps by id and digest -/

namespace Verif.Keyhive

open Verif.Group Verif.Cgka Verif.BeeKem

variable {E : Env}

theorem keyedPrekeys_iff {k : Keyhive} : KeyedPrekeys E k ↔ KeyedIndies E k.reg.indies :=
  Iff.rfl

theorem keyedState_insert {s : Prekey.State} (h : KeyedState E s) (op : Prekey.KeyOp) : KeyedState E (CaMap.insert E.hashKey s op).1 := by
  refine ⟨AMap.wf_insert h.1 _ _, fun x o ho => ?_⟩
  simp only [CaMap.insert, AMap.get_insert] at ho
  split at ho
  · rename_i e; cases ho; exact e.symm
  · exact h.2 x o ho

theorem keyedState_merge {s : Prekey.State} (h : KeyedState E s) : ∀ (t : Prekey.State), (∀ p ∈ t, E.hashKey p.2 = p.1) → KeyedState E (CaMap.merge s t) := by
  intro t
  unfold CaMap.merge
  induction t generalizing s with
  | nil => intro _; exact h
  | cons p t ih =>
    intro ht
    refine ih ?_ (fun q hq => ht q (List.mem_cons_of_mem _ hq))
    refine ⟨AMap.wf_orInsert h.1 _ _, fun x o ho => ?_⟩
    rw [AMap.get_orInsert] at ho
    split at ho
    · rename_i e
      cases ho; rw [e.1]; exact ht p List.mem_cons_self
    · exact h.2 x o ho

theorem keyedState_entries {s : Prekey.State} (h : KeyedState E s) : ∀ p ∈ s, E.hashKey p.2 = p.1 :=
  fun p hp => h.2 p.1 p.2 (AMap.get_of_mem h.1 hp)

theorem keyedIndies_insert {m : AMap Id Prekey.Indie} (h : KeyedIndies E m) {x : Prekey.Indie} (hx : KeyedState E x.state) (i : Id) :
    KeyedIndies E (AMap.insert m i x) := by
  refine ⟨AMap.wf_insert h.1 _ _, fun j y hy => ?_⟩
  rw [AMap.get_insert] at hy
  split at hy
  · cases hy; exact hx
  · exact h.2 j y hy

theorem keyedIndies_erase {m : AMap Id Prekey.Indie} (h : KeyedIndies E m) (i : Id) : KeyedIndies E (AMap.erase m i) := by
  refine ⟨AMap.wf_erase h.1 _, fun j y hy => ?_⟩
  rw [AMap.get_erase] at hy
  split at hy
  · cases hy
  · exact h.2 j y hy

theorem keyed_new (op : Prekey.KeyOp) : KeyedState E (Prekey.Indie.new E.hashKey op).state :=
  keyedState_insert (s := []) ⟨AMap.wf_nil, fun h op ho => by cases ho⟩ op

theorem keyed_receiveIndie {r : Prekey.Registry} (h : KeyedIndies E r.indies) {x : Prekey.Indie} (hx : KeyedState E x.state) (op : Prekey.KeyOp) :
    KeyedIndies E (r.receiveIndie E.hashKey E.validKey x op).1.indies := by
  unfold Prekey.Registry.receiveIndie
  split
  · exact h
  · rename_i y hy
    refine keyedIndies_insert h ?_ _
    unfold Prekey.Indie.receive at hy
    split at hy
    · cases hy
    · simp only [bind, Except.bind, pure, Except.pure, Prekey.State.insertOp] at hy
      split at hy
      · cases hy
      · rename_i s hs
        cases hy
        split at hs
        · cases hs; exact keyedState_insert hx op
        · cases hs

theorem keyed_register {r : Prekey.Registry} (h : KeyedIndies E r.indies) (op : Prekey.KeyOp) :
    KeyedIndies E (r.registerIndividual (Prekey.Indie.new E.hashKey op)).indies := by
  unfold Prekey.Registry.registerIndividual
  split
  · exact h
  · exact keyedIndies_insert h (keyed_new op) _

theorem keyed_receivePrekeyOp {r : Prekey.Registry} (h : KeyedIndies E r.indies) (op : Prekey.KeyOp) :
    KeyedIndies E (r.receivePrekeyOp E.hashKey E.validKey op).1.indies := by
  unfold Prekey.Registry.receivePrekeyOp
  split
  · exact h
  · split
    · unfold Prekey.Registry.receiveMembered
      split
      · exact h
      · split <;> exact h
    · split
      · rename_i x hx
        exact keyed_receiveIndie h (h.2 _ x hx) op
      · exact keyed_receiveIndie (keyed_register h op) (keyed_new op) op

theorem keyed_card {r : Prekey.Registry} (h : KeyedIndies E r.indies) (op : Prekey.KeyOp) :
    KeyedIndies E (r.receiveContactCard E.hashKey E.validKey op).1.indies := by
  unfold Prekey.Registry.receiveContactCard
  split
  · rename_i x hx
    exact keyed_receiveIndie h (h.2 _ x hx) op
  · exact keyed_register h op

theorem keyed_remove {k : Keyhive} (h : KeyedIndies E k.reg.indies) (i : Id) : KeyedIndies E (k.removeIndividual i).reg.indies := by
  unfold Keyhive.removeIndividual
  split
  · exact h
  · exact keyedIndies_erase h i

theorem keyed_receive {k : Keyhive} (h : KeyedIndies E k.reg.indies) (e : Event) : KeyedIndies E (k.receive E e).1.reg.indies := by
  cases e with
  | prekey op => exact keyed_receivePrekeyOp h op
  | cgka i op => show KeyedIndies E (k.receiveCgkaOp E i op).1.reg.indies; rw [(receiveCgkaOp_reg k i op).1]; exact h
  | dlg s =>
    show KeyedIndies E (k.receiveDelegation E s).1.reg.indies
    unfold Keyhive.receiveDelegation
    split
    · exact h
    · split
      · exact h
      · split
        · exact h
        · rename_i d hd
          unfold Keyhive.applyDlg
          split
          · split <;> exact h
          · split
            · split <;> exact h
            · split
              · have h1 := promote_fst (E := E) (k.removeIndividual d.subject) d
                have h2 : KeyedIndies E ((k.removeIndividual d.subject).storeDlg E d).reg.indies := keyed_remove h _
                split
                · rename_i heq
                  rw [heq] at h1
                  simp only at h1 ⊢
                  rw [h1]; exact h2
                · rename_i heq
                  rw [heq] at h1
                  simp only at h1 ⊢
                  rw [h1]; exact h2
              · unfold Keyhive.adopt
                dsimp only
                split <;> exact h
  | rev s =>
    show KeyedIndies E (k.receiveRevocation E s).1.reg.indies
    unfold Keyhive.receiveRevocation
    split
    · exact h
    · split
      · exact h
      · split
        · exact h
        · rename_i d hd
          unfold Keyhive.applyRev
          split
          · split <;> exact h
          · split
            · split <;> exact h
            · split
              · have h1 := promote_fst (E := E) (k.removeIndividual d.subject) d.revoke
                have h2 : KeyedIndies E ((k.removeIndividual d.subject).storeDlg E d.revoke).reg.indies := keyed_remove h _
                split
                · rename_i heq
                  rw [heq] at h1
                  simp only at h1 ⊢
                  rw [h1]; exact h2
                · rename_i heq
                  rw [heq] at h1
                  simp only at h1 ⊢
                  rw [h1]
                  split <;> exact h2
              · exact h

/-! ## Calls that make operations -/

theorem indies_propagateAdd (k : Keyhive) (L : Local) (gid : Id) (who : Agent) (did : Id) : (k.propagateAdd E L gid who did).1.reg = k.reg := by
  unfold Keyhive.propagateAdd
  repeat' split
  all_goals rfl

theorem indies_propagateAdds {L : Local} {gid : Id} {who : Agent} : ∀ (dids : List Id) (k : Keyhive) (acc : List SOp),
    (Keyhive.propagateAdds E L gid who k dids acc).1.reg = k.reg
  | [], k, acc => rfl
  | did :: dids, k, acc => by
    have h1 := indies_propagateAdd (E := E) k L gid who did
    unfold Keyhive.propagateAdds
    split
    · rename_i heq; rw [heq] at h1; exact h1
    · rename_i heq; rw [heq] at h1; exact (indies_propagateAdds dids _ _).trans h1

theorem indies_propagateRemoves {L : Local} {gid : Id} {ids : List Id} : ∀ (dids : List Id) (k : Keyhive) (acc : List SOp),
    (Keyhive.propagateRemoves E L gid ids k dids acc).1.reg = k.reg
  | [], k, acc => rfl
  | did :: dids, k, acc => by
    have h1 : (k.propagateRemove E L gid ids did).1.reg = k.reg := by
      unfold Keyhive.propagateRemove
      repeat' split
      all_goals rfl
    unfold Keyhive.propagateRemoves
    split
    · rename_i heq; rw [heq] at h1; exact h1
    · rename_i heq; rw [heq] at h1; exact (indies_propagateRemoves dids _ _).trans h1

theorem reg_addToDoc (k : Keyhive) (L : Local) (did : Id) (who : Agent) (can : Access) (content : Content) :
    (k.addMemberToDoc E L did who can content).1.reg = k.reg := by
  unfold Keyhive.addMemberToDoc
  split
  · rfl
  · split
    · rfl
    · dsimp only
      repeat' split
      all_goals rfl

theorem reg_addToGroup (k : Keyhive) (L : Local) (gid : Id) (who : Agent) (can : Access) (content : Content) :
    (k.addMemberToGroup E L gid who can content).1.reg = k.reg := by
  unfold Keyhive.addMemberToGroup
  split
  · rfl
  · split
    · rfl
    · rename_i g' d hg
      dsimp only
      have h2 := indies_propagateAdds (E := E) (L := L) (gid := gid) (who := d.delegate)
          (AMap.keys ({ k.storeDlg E d with groups := AMap.insert k.groups gid g' } : Keyhive).docs)
          { k.storeDlg E d with groups := AMap.insert k.groups gid g' } []
      split
      · split
        · rename_i heq; rw [heq] at h2; exact h2
        · rename_i heq; rw [heq] at h2; exact h2
      · rfl

theorem reg_revokeFromDoc (k : Keyhive) (L : Local) (did member : Id) (retain : Bool) (content : Content) :
    (k.revokeFromDoc E L did member retain content).1.reg = k.reg := by
  unfold Keyhive.revokeFromDoc
  split
  · rfl
  · split
    · rfl
    · split
      · exact (storeNew_same ..).2.2
      · rename_i g' revs dlgs heq
        have h1 := (storeAll_same (E := E) revs dlgs k).2.2
        dsimp only
        repeat' split
        all_goals exact h1

theorem reg_revokeFromGroup (k : Keyhive) (L : Local) (gid member : Id) (retain : Bool) (content : Content) :
    (k.revokeFromGroup E L gid member retain content).1.reg = k.reg := by
  unfold Keyhive.revokeFromGroup
  split
  · rfl
  · split
    · rfl
    · split
      · exact (storeNew_same ..).2.2
      · rename_i g' revs dlgs heq
        have h1 := (storeAll_same (E := E) revs dlgs k).2.2
        dsimp only
        split
        · exact h1
        · exact (indies_propagateRemoves _ _ _).trans h1

theorem keyed_mergeIndie {k : Keyhive} (h : KeyedIndies E k.reg.indies) {p : Id × Prekey.Indie} (hp : KeyedState E p.2.state) :
    KeyedIndies E (k.mergeIndie p).reg.indies := by
  unfold Keyhive.mergeIndie
  split
  · exact h
  · split
    · rename_i x hx
      refine keyedIndies_insert h ?_ _
      refine keyedState_merge ?_ _ (keyedState_entries hp)
      unfold Keyhive.individual at hx
      split at hx
      · cases hx
      · exact h.2 _ x hx
    · exact keyedIndies_insert h hp _

theorem keyed_merged {k : Keyhive} (h : KeyedIndies E k.reg.indies) {a : Archive} (ha : KeyedIndies E a.reg.indies) :
    KeyedIndies E (a.individuals.foldl Keyhive.mergeIndie (k.mergeActive a)).reg.indies := by
  have h1 : KeyedIndies E (k.mergeActive a).reg.indies := by
    unfold Keyhive.mergeActive
    dsimp only
    split
    · rename_i x y hx hy
      exact keyedIndies_insert h (keyedState_merge (h.2 _ x hx) _ (keyedState_entries (ha.2 _ y hy))) _
    · exact h
  have h2 : ∀ p ∈ a.individuals, KeyedState E p.2.state := by
    have hk : KeyedIndies E a.individuals := by
      unfold Archive.individuals
      split
      · exact keyedIndies_erase ha _
      · exact ha
    exact fun p hp => hk.2 p.1 p.2 (AMap.get_of_mem hk.1 hp)
  revert h1 h2
  generalize k.mergeActive a = k1
  generalize a.individuals = l
  intro h1 h2
  induction l generalizing k1 with
  | nil => exact h1
  | cons p l ih => exact ih (k1.mergeIndie p) (keyed_mergeIndie h1 (h2 p List.mem_cons_self)) (fun q hq => h2 q (List.mem_cons_of_mem _ hq))

theorem keyed_call {k : Keyhive} (h : KeyedPrekeys E k) (c : Call) (hc : c.Keyed E) : KeyedPrekeys E (c.run E k) := by
  rw [keyedPrekeys_iff] at h ⊢
  cases c with
  | receive e => exact keyed_receive h e
  | ingest ord events =>
    exact ingest_keeps (P := fun k => KeyedIndies E k.reg.indies) (fun k e h => keyed_receive h e) (fun _ _ h => h) ord events h
  | contactCard op => exact keyed_card h op
  | newGroup S gid co =>
    simp only [Call.run, Keyhive.generateGroup]
    split
    · exact h
    · rename_i g _
      show KeyedIndies E (Keyhive.insertGroup _ _).reg.indies
      unfold Keyhive.insertGroup
      simp only
      rw [(storeDlgs_same _ k).2.2]
      exact h
  | newDoc L S did co heads =>
    simp only [Call.run, Keyhive.generateDoc]
    split
    · exact h
    · repeat' split
      all_goals
        first
        | (rw [(storeDlgs_same _ k).2.2]; exact h)
        | (unfold Keyhive.insertDoc; simp only; rw [(storeDlgs_same _ k).2.2]; exact h)
  | addToGroup L gid who can content => simp only [Call.run, reg_addToGroup]; exact h
  | addToDoc L did who can content => simp only [Call.run, reg_addToDoc]; exact h
  | revokeFromGroup L gid member retain content => simp only [Call.run, reg_revokeFromGroup]; exact h
  | revokeFromDoc L did member retain content => simp only [Call.run, reg_revokeFromDoc]; exact h
  | ingestArchive ord a =>
    exact ingest_keeps (P := fun k => KeyedIndies E k.reg.indies) (fun k e h => keyed_receive h e) (fun _ _ h => h) ord _ (keyed_merged h hc)
  | encrypt L did r ps x =>
    simp only [Call.run, Keyhive.encryptContent]
    split <;> exact h
  | decrypt did e =>
    simp only [Call.run, Keyhive.decryptContent]
    split <;> exact h
  | pcsUpdate L did =>
    simp only [Call.run, Keyhive.forcePcsUpdate]
    split <;> exact h

end Verif.Keyhive
