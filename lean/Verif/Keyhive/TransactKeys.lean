import Verif.Keyhive.TransactLemmas
import Verif.Keyhive.HandedLemmas
import Verif.Keyhive.KeptProps

/-! # Lemmas about transactions: group-key operations -/

namespace Verif.Keyhive

open Verif.Group Verif.Cgka Verif.BeeKem

variable {E : Env}

/-- Every group-key operation recorded by the second device is recorded by the first or among the events. -/
def Reports (E : Env) (k k' : Keyhive) (es : List Event) : Prop :=
  ∀ did op, HasKeyOp E k' did op → HasKeyOp E k did op ∨ .cgka did op ∈ es

theorem Reports.trans {k k1 k2 : Keyhive} {l1 l2 : List Event} (h1 : Reports E k k1 l1) (h2 : Reports E k1 k2 l2) : Reports E k k2 (l1 ++ l2) := by
  intro did op h
  rw [List.mem_append]
  rcases h2 did op h with h | h
  · exact (h1 did op h).imp id .inl
  · exact .inr (.inr h)

theorem Reports.mono {k k' : Keyhive} {l l' : List Event} (h : Reports E k k' l) (hl : ∀ e ∈ l, e ∈ l') : Reports E k k' l' :=
  fun did op hh => (h did op hh).imp id (hl _)

theorem reports_docs {k k' : Keyhive} (h : k'.docs = k.docs) (l : List Event) : Reports E k k' l := by
  intro did op hh
  unfold HasKeyOp at hh ⊢
  rw [h] at hh
  exact .inl hh

theorem reports_setDoc {k : Keyhive} {did : Id} {d d' : Doc} {l : List SOp} (h : AMap.get k.docs did = some d)
    (hd : ∀ o, d'.Keeps (E.hashCgka did) o ↔ d.Keeps (E.hashCgka did) o ∨ o ∈ l) : Reports E k (k.setDoc did d') (l.map (.cgka did)) := by
  intro i op hh
  by_cases hi : i = did
  · subst hi
    rw [hasKeyOp_iff (d := d') (by rw [get_setDoc h, if_pos rfl]), hd] at hh
    rw [hasKeyOp_iff h]
    exact hh.imp id (fun h => List.mem_map_of_mem h)
  · unfold HasKeyOp at hh ⊢
    rw [get_setDoc h, if_neg hi] at hh
    exact .inl hh

theorem reports_adds (hE : E.NoKeyClash) {L : Local} {gid : Id} {who : Agent} : ∀ {dids : List Id} {k k' : Keyhive} {acc ops : List SOp},
    k.propagateAdds E L gid who dids acc = (k', .ok ops) → Reports E k k' (k.addsLog E L gid who dids) := by
  intro dids
  induction dids with
  | nil => intro k k' acc ops h; cases h; exact reports_docs rfl _
  | cons did dids ih =>
    intro k k' acc ops h
    unfold Keyhive.propagateAdds at h
    unfold Keyhive.addsLog
    split at h
    · cases h
    · rename_i k1 ops1 hk1
      rw [hk1]
      refine Reports.trans ?_ (ih h)
      unfold Keyhive.propagateAdd at hk1
      split at hk1
      · cases hk1; exact reports_docs rfl _
      · rename_i doc hd
        split at hk1
        · cases hk1
        · split at hk1
          · cases hk1; exact reports_docs rfl _
          · split at hk1
            · cases hk1
            · split at hk1
              · cases hk1
              · rename_i doc' ops' hadd
                cases hk1
                obtain ⟨new, rfl, hn⟩ := handed_addCgkaMembers (hE did) hadd
                exact reports_setDoc hd (by simpa using hn)

theorem reports_removes (hE : E.NoKeyClash) {L : Local} {gid : Id} {ids : List Id} : ∀ {dids : List Id} {k k' : Keyhive} {acc ops : List SOp},
    k.propagateRemoves E L gid ids dids acc = (k', .ok ops) → Reports E k k' (k.removesLog E L gid ids dids) := by
  intro dids
  induction dids with
  | nil => intro k k' acc ops h; cases h; exact reports_docs rfl _
  | cons did dids ih =>
    intro k k' acc ops h
    unfold Keyhive.propagateRemoves at h
    unfold Keyhive.removesLog
    split at h
    · cases h
    · rename_i k1 ops1 hk1
      rw [hk1]
      refine Reports.trans ?_ (ih h)
      unfold Keyhive.propagateRemove at hk1
      split at hk1
      · cases hk1; exact reports_docs rfl _
      · rename_i doc hd
        split at hk1
        · cases hk1
        · split at hk1
          · cases hk1; exact reports_docs rfl _
          · rename_i tm _ _
            cases hk1
            obtain ⟨new, h1, hn⟩ := handed_dropCgkaMembers (hE did) (sign := L.signCgka did)
              (ids.filter (fun i => decide (i ∉ ((AMap.values tm).filter (fun p => !p.1.isMembered)).map (fun p => p.1.id)))) doc []
            rw [List.nil_append] at h1
            rw [h1]
            exact reports_setDoc hd hn

/-- The key tree of a new document has the operations that are reported. -/
theorem newDoc_keeps (hE : E.NoKeyClash) {L : Local} {did : Id} {others : List (Id × Pk)} {c : Cgka}
    (h : Keyhive.newDocCgka E L did others = .ok c) {o : SOp} (ho : c.Keeps (E.hashCgka did) o) : o ∈ Keyhive.newDocOps E L did others := by
  unfold Keyhive.newDocCgka at h
  unfold Keyhive.newDocOps
  dsimp only at h ⊢
  split at h
  · cases h
  · rename_i c0 hc0
    rw [hc0]
    dsimp only
    split at h
    · cases h
    · rename_i d adds hadd
      rw [hadd]
      dsimp only
      split at h
      · cases h
      · rename_i c1 hc1
        rw [hc1]
        dsimp only
        have hup := has_update (hE did) (sign := L.signCgka did) c1 L.gen 1 (L.gen 0) o
        split at h
        · cases h
        · rename_i c2 p hq
          obtain ⟨kk, op⟩ := p
          rw [hq] at hup ⊢
          cases h
          dsimp only at hup ⊢
          obtain ⟨new, hnew, hn⟩ := handed_addCgkaMembers (hE did) hadd
          rw [List.nil_append] at hnew
          subst hnew
          have h0 : c0.Keeps (E.hashCgka did) o → o = c0.initAddOp := by
            intro hk
            unfold Cgka.new at hc0
            simp only [bind, Except.bind] at hc0
            split at hc0
            · cases hc0
            · rename_i s hs
              obtain ⟨f1, _, _, _, f2, _⟩ := newFromInitAdd_frame hc0
              unfold Cgka.Keeps at hk
              rw [f1, addLocalOp_ops, AMap.get_insert] at hk
              split at hk
              · rw [f2]; exact (Option.some.inj hk).symm
              · cases hk
          rcases hup.1 ho with h1 | ⟨x, h1⟩
          · have h2 : d.Keeps (E.hashCgka did) o := (doc_has hc1 o).2 h1
            rcases (hn o).1 h2 with h3 | h3
            · have h4 := (doc_has (c := withPublic (c0.withNewOwner did (AMap.insert [] (shareKey (L.gen 0)) (L.gen 0)))) rfl o).1 h3
              exact List.mem_append_left _ (List.mem_cons.2 (.inl (h0 h4)))
            · exact List.mem_append_left _ (List.mem_cons.2 (.inr h3))
          · cases h1
            simp

/-- Merging a group-key operation records nothing but this operation, and then says that it is new. -/
theorem keeps_merge {H : SOp → Nat} (c : Cgka) (op : SOp) {o : SOp} (h : (c.mergeConcurrentOperation H op).1.Keeps H o) :
    c.Keeps H o ∨ o = op ∧ (c.mergeConcurrentOperation H op).2 = .ok true := by
  have add : ∀ {c' : Cgka} {hs : List Nat}, c'.graph.ops = (c.graph.addOp H op hs).ops → c'.Keeps H o → c.Keeps H o ∨ o = op := by
    intro c' hs hg hk
    unfold Cgka.Keeps at hk ⊢
    rw [hg, addOp_ops, AMap.get_insert] at hk
    split at hk
    · exact .inr (Option.some.inj hk).symm
    · exact .inl hk
  unfold Cgka.mergeConcurrentOperation at h ⊢
  by_cases h1 : c.graph.containsOpHash (H op) = true
  · rw [if_pos h1] at h
    exact .inl h
  · rw [if_neg h1] at h ⊢
    have hf : AMap.get c.graph.ops (H op) = none := by
      rw [containsOpHash_iff] at h1
      exact not_not.1 h1
    split at h
    · exact .inl h
    · rename_i hq
      rw [if_neg hq]
      split at h
      · rename_i h2
        rw [if_pos h2]
        split at h
        · rename_i h3
          rw [if_pos h3]
          exact (add rfl h).imp id (fun e => ⟨e, rfl⟩)
        · rename_i h3
          rw [if_neg h3]
          split at h
          · rename_i h4
            rw [if_pos h4]
            exact (add rfl h).imp id (fun e => ⟨e, rfl⟩)
          · rename_i h4
            rw [if_neg h4]
            cases ha : c.applyOperation H op with
            | error e => rw [ha] at h; exact .inl h
            | ok c1 =>
              rw [ha] at h
              exact (add (by rw [applyOperation_graph ha hf]) h).imp id (fun e => ⟨e, rfl⟩)
      · rename_i h2
        rw [if_neg h2]
        cases hr : c.replayIfNeeded H with
        | error e => rw [hr] at h; exact .inl h
        | ok c1 =>
          have hx := (Ext.replayIfNeeded hr).graph
          rw [hr] at h
          dsimp only at h ⊢
          cases ha : c1.applyOperation H op with
          | error e => rw [ha] at h; exact .inl ((has_graph hx o).1 h)
          | ok c2 =>
            rw [ha] at h
            exact (add (by rw [applyOperation_graph ha (by rw [hx]; exact hf), hx]) h).imp id (fun e => ⟨e, rfl⟩)

theorem keeps_mergeOp {H : SOp → Nat} (d : Doc) (op : SOp) {o : SOp} (h : (d.mergeCgkaOp H op).1.Keeps H o) :
    d.Keeps H o ∨ o = op ∧ (d.mergeCgkaOp H op).2 = .ok true := by
  unfold Doc.mergeCgkaOp at h ⊢
  cases hc : d.cgka with
  | some c =>
    rw [hc] at h
    dsimp only at h ⊢
    rw [doc_has (c := (c.mergeConcurrentOperation H op).1) rfl] at h
    rw [doc_has hc]
    exact keeps_merge c op h
  | none =>
    rw [hc] at h
    dsimp only at h ⊢
    split at h
    · rename_i i pk _ preds _ hp
      split at h
      · exact .inl h
      · rename_i hn
        rw [if_neg hn]
        cases hc0 : Cgka.newFromInitAdd H i pk op with
        | error e => rw [hc0] at h; exact .inl h
        | ok c =>
          rw [hc0] at h
          dsimp only at h
          rw [doc_has (c := withPublic c) rfl] at h
          unfold Cgka.Keeps at h
          change AMap.get c.graph.ops _ = _ at h
          rw [(newFromInitAdd_frame hc0).1, addLocalOp_ops, AMap.get_insert] at h
          split at h
          · exact .inr ⟨(Option.some.inj h).symm, rfl⟩
          · cases h
    · exact .inl h

theorem keeps_invite {H : SOp → Nat} (d : Doc) (op : SOp) (sk : Sk) {o : SOp} (h : (d.mergeCgkaInviteOp H op sk).1.Keeps H o) :
    d.Keeps H o ∨ o = op ∧ (d.mergeCgkaInviteOp H op sk).2 = .ok true := by
  unfold Doc.mergeCgkaInviteOp at h ⊢
  split at h
  · rename_i i pk _ _ _ hp
    cases hc : d.cgka with
    | none => rw [hc] at h; exact .inl h
    | some c =>
      rw [hc] at h
      dsimp only at h ⊢
      split at h
      · exact .inl h
      · rename_i hn
        rw [if_neg hn]
        rcases keeps_mergeOp _ op h with h | h
        · left
          rw [doc_has (c := withPublic (c.withNewOwner i (AMap.insert c.ownerSks pk sk))) rfl] at h
          rw [doc_has hc]
          exact h
        · exact .inr h
  · exact .inl h

/-- Changing one document. -/
theorem reports_close {k k' : Keyhive} {did : Id} {d d' : Doc} {op : SOp} {l : List Event} (h0 : AMap.get k.docs did = some d)
    (hk : k' = k.setDoc did d') (hd : ∀ o, d'.Keeps (E.hashCgka did) o → d.Keeps (E.hashCgka did) o ∨ .cgka did o ∈ l) : Reports E k k' l := by
  subst hk
  intro i o hh
  by_cases hi : i = did
  · subst hi
    rw [hasKeyOp_iff (d := d') (by rw [get_setDoc h0, if_pos rfl])] at hh
    rw [hasKeyOp_iff h0]
    exact hd o hh
  · unfold HasKeyOp at hh ⊢
    rw [get_setDoc h0, if_neg hi] at hh
    exact .inl hh

/-- Receiving a group-key operation reports it if it is recorded. -/
theorem reports_cgka (k : Keyhive) (did : Id) (op : SOp) : Reports E k (k.receiveCgkaOp E did op).1 (k.receiveCgkaLog E did op) := by
  have main : ∀ {d : Doc} {r : Doc × Res Bool} {l : List Event}, AMap.get k.docs did = some d →
      (∀ o, r.1.Keeps (E.hashCgka did) o → d.Keeps (E.hashCgka did) o ∨ o = op ∧ r.2 = .ok true) →
      l = (match r.2 with | .ok true => [.cgka did op] | _ => []) → Reports E k (k.closeDoc did r).1 l := by
    intro d r l hd hr hl
    refine reports_close (op := op) hd rfl (fun o ho => (hr o ho).imp id ?_)
    rintro ⟨rfl, h2⟩
    rw [hl, h2]
    simp
  unfold Keyhive.receiveCgkaOp Keyhive.receiveCgkaLog
  split
  · exact reports_docs rfl _
  · cases hd : AMap.get k.docs did with
    | none => exact reports_docs rfl _
    | some d =>
      dsimp only
      cases hp : op.payload with
      | add added pk li preds adds =>
        dsimp only
        split
        · cases AMap.get k.pairs pk with
          | none => exact reports_docs rfl _
          | some sk => exact main hd (fun o => keeps_invite d op sk) rfl
        · split
          · have hi := fun o => keeps_invite (H := E.hashCgka did) d op publicSk (o := o)
            unfold Keyhive.mergePublicInvite
            cases hq : d.mergeCgkaInviteOp (E.hashCgka did) op publicSk with
            | mk d' r =>
              rw [hq] at hi
              cases r with
              | error e =>
                refine reports_close (op := op) hd rfl (fun o ho => (hi o ho).imp id ?_)
                rintro ⟨_, h2⟩
                cases h2
              | ok b =>
                refine reports_close (op := op) hd rfl (fun o ho => (hi o ?_).imp id ?_)
                · unfold Doc.resetCgkaOwner at ho
                  cases hc : d'.cgka with
                  | none => rw [hc] at ho; exact ho
                  | some c =>
                    rw [hc] at ho
                    dsimp only at ho ⊢
                    rw [doc_has (c := withPublic (c.withNewOwner k.reg.me c.ownerSks)) rfl] at ho
                    rw [doc_has hc]
                    exact ho
                · rintro ⟨rfl, h2⟩
                  cases h2
                  simp
          · exact main hd (fun o => keeps_mergeOp d op) rfl
      | remove => exact main hd (fun o => keeps_mergeOp d op) rfl
      | update => exact main hd (fun o => keeps_mergeOp d op) rfl

/-- Receiving an event reports the group-key operation that is recorded. -/
theorem receive_reports (k : Keyhive) (e : Event) : Reports E k (k.receive E e).1 (k.receiveLog E e) := by
  have base : Trees (fun i c => ∀ o, c.Keeps (E.hashCgka i) o → HasKeyOp E k i o) k := fun i d hd c hc o ho => ⟨d, c, hd, hc, ho⟩
  have fin : ∀ {k' : Keyhive} (l : List Event), Trees (fun i c => ∀ o, c.Keeps (E.hashCgka i) o → HasKeyOp E k i o) k' → Reports E k k' l := by
    rintro k' l h i o ⟨d, c, h1, h2, h3⟩
    exact .inl (h i d h1 c h2 o h3)
  cases e with
  | prekey op => exact reports_docs rfl _
  | cgka i op => exact reports_cgka k i op
  | dlg s =>
    refine fin _ ?_
    show Trees _ (k.receiveDelegation E s).1
    unfold Keyhive.receiveDelegation
    repeat' split
    · exact base
    · exact base
    · exact base
    · exact trees_applyDlg base _
  | rev s =>
    refine fin _ ?_
    show Trees _ (k.receiveRevocation E s).1
    unfold Keyhive.receiveRevocation
    repeat' split
    · exact base
    · exact base
    · exact base
    · exact trees_applyRev base _

theorem pass_reports : ∀ (es : List Event) (k : Keyhive) (next : List Event), Reports E k (Keyhive.pass E k es next).1 (k.passLog E es)
  | [], k, next => reports_docs rfl _
  | e :: es, k, next => by
    have h := receive_reports (E := E) k e
    unfold Keyhive.pass Keyhive.passLog
    cases hr : k.receive E e with
    | mk k' r =>
      rw [hr] at h
      cases r with
      | ok u => exact h.trans (pass_reports es k' next)
      | error err =>
        dsimp only
        split
        · exact h
        · split <;> exact h.trans (pass_reports es k' _)

theorem rounds_reports (replayed : List Nat) : ∀ (n : Nat) (k : Keyhive) (epoch : List Event),
    Reports E k (Keyhive.rounds E replayed n k epoch).1 (k.roundsLog E n epoch)
  | 0, k, _ => reports_docs rfl _
  | n + 1, k, epoch => by
    have h := pass_reports (E := E) epoch k []
    unfold Keyhive.rounds Keyhive.roundsLog
    cases hr : Keyhive.pass E k epoch [] with
    | mk k' r =>
      rw [hr] at h
      cases r with
      | error e => exact h
      | ok l =>
        cases l with
        | nil => exact (h.trans (reports_docs (k' := { k' with pending := _ }) rfl [])).mono (by simp)
        | cons e es =>
          dsimp only
          split
          · exact (h.trans (reports_docs (k' := { k' with pending := _ }) rfl [])).mono (by simp)
          · exact h.trans (rounds_reports replayed n k' (e :: es))

theorem ingest_reports (ord : List Event → List Event) (k : Keyhive) (es : List Event) :
    Reports E k (k.ingest E ord es).1 (k.ingestLog E ord es) := rounds_reports _ _ _ _

/-- A call that succeeds reports the group-key operations it records. -/
theorem call_reports (hE : E.NoKeyClash) {c : Call} {k : Keyhive} (hf : (c.answer E k).Fine) :
    Reports E k (c.run E k) (c.log E k) := by
  cases c with
  | receive e => exact receive_reports k e
  | ingest ord es => exact ingest_reports ord k es
  | ingestArchive ord a =>
    refine fun did op h => (ingest_reports ord _ _ did op h).imp (fun h => ?_) id
    have hm := merged_same k a
    unfold HasKeyOp at h ⊢
    rw [← hm.docs]
    exact h
  | contactCard op => exact reports_docs rfl _
  | newGroup S gid co =>
    refine reports_docs ?_ _
    show (k.generateGroup E S gid co).1.docs = k.docs
    unfold Keyhive.generateGroup
    split
    · rfl
    · exact (storeDlgs_same (E := E) _ k).2.1
  | newDoc L S did co heads =>
    obtain ⟨i, hf⟩ := hf
    change (k.generateDoc E L S did co heads).2 = .ok i at hf
    show Reports E k (k.generateDoc E L S did co heads).1 (Keyhive.generateDocLog E L S did k co heads)
    unfold Keyhive.generateDoc at hf ⊢
    unfold Keyhive.generateDocLog
    revert hf
    cases hg : Group.generate E.opDigest S did (⟨.active, k.reg.me⟩ :: co) [(did, heads)] with
    | error e => intro hf; cases hf
    | ok g =>
      dsimp only
      cases transitiveMembers ((AMap.values g.dlgHeads).foldl (Keyhive.storeDlg E) k).world [] g with
      | error e => intro hf; cases hf
      | ok ms =>
        dsimp only
        cases Keyhive.pickForGroup E L ((AMap.values g.dlgHeads).foldl (Keyhive.storeDlg E) k) did ms [] with
        | error e => intro hf; cases hf
        | ok prekeys =>
          dsimp only
          split
          · intro hf; cases hf
          · rename_i c hnew
            intro _ j op hh
            obtain ⟨hs, rfl, _⟩ := generate_ok hg
            by_cases hj : j = did
            · subst hj
              obtain ⟨d0, c0, h1, h2, h3⟩ := hh
              have h4 : AMap.get (AMap.insert ((AMap.values (Group.rebuild E.opDigest ⟨j, [], [], hs, []⟩).dlgHeads).foldl (Keyhive.storeDlg E) k).docs j
                  ({ group := Group.rebuild E.opDigest ⟨j, [], [], hs, []⟩, heads, cgka := some c } : Doc)) j = some d0 := h1
              rw [AMap.get_insert_self] at h4
              cases h4
              cases h2
              exact .inr (List.mem_append_right _ (List.mem_map_of_mem (newDoc_keeps hE hnew h3)))
            · obtain ⟨d0, c0, h1, h2, h3⟩ := hh
              have h4 : AMap.get (AMap.insert ((AMap.values (Group.rebuild E.opDigest ⟨did, [], [], hs, []⟩).dlgHeads).foldl (Keyhive.storeDlg E) k).docs did
                  ({ group := Group.rebuild E.opDigest ⟨did, [], [], hs, []⟩, heads, cgka := some c } : Doc)) j = some d0 := h1
              rw [AMap.get_insert, if_neg hj, (storeDlgs_same (E := E) _ k).2.1] at h4
              exact .inl ⟨d0, c0, h4, h2, h3⟩
  | addToGroup L gid who can content =>
    obtain ⟨p, hf⟩ := hf
    change (k.addMemberToGroup E L gid who can content).2 = .ok p at hf
    show Reports E k (k.addMemberToGroup E L gid who can content).1 (k.addToGroupLog E L gid who can content)
    unfold Keyhive.addMemberToGroup at hf ⊢
    unfold Keyhive.addToGroupLog
    revert hf
    cases AMap.get k.groups gid with
    | none => intro hf; cases hf
    | some g =>
      dsimp only
      cases g.addMember E.opDigest (membersOf k.world [gid]) L.sign who can k.reg.me content with
      | error e => intro hf; cases hf
      | ok p =>
        obtain ⟨g', d⟩ := p
        dsimp only
        have h1 : Reports E k { k.storeDlg E d with groups := AMap.insert k.groups gid g' } (E.dlgEvents [d]) := reports_docs rfl _
        revert h1
        generalize ({ k.storeDlg E d with groups := AMap.insert k.groups gid g' } : Keyhive) = k1
        generalize AMap.keys (k.storeDlg E d).docs = dids
        intro h1
        cases can.isReader with
        | false => intro _; exact h1.trans (reports_docs rfl _)
        | true =>
          simp only [if_true]
          cases hq : Keyhive.propagateAdds E L gid d.delegate k1 dids [] with
          | mk k2 res =>
            cases res with
            | error e => intro hf; cases hf
            | ok ops => intro _; exact h1.trans (reports_adds hE hq)
  | addToDoc L did who can content =>
    obtain ⟨⟨d, ops⟩, hf⟩ := hf
    change (k.addMemberToDoc E L did who can content).2 = .ok (d, ops) at hf
    show Reports E k (k.addMemberToDoc E L did who can content).1 (k.addToDocLog E L did who can content)
    have hq : k.addMemberToDoc E L did who can content = ((k.addMemberToDoc E L did who can content).1, .ok (d, ops)) := Prod.ext rfl hf
    unfold Keyhive.addToDocLog
    rw [hf]
    revert hq
    generalize (k.addMemberToDoc E L did who can content).1 = k'
    intro hq
    unfold Keyhive.addMemberToDoc at hq
    split at hq
    · cases hq
    · rename_i doc hd
      rw [hd]
      dsimp only
      split at hq
      · cases hq
      · rename_i g' d' hadd
        rw [hadd]
        dsimp only at hq ⊢
        have h1 : Reports E k ((k.storeDlg E d').setDoc did { doc with group := g' }) (E.dlgEvents [d']) := by
          have : Reports E k (k.storeDlg E d') (E.dlgEvents [d']) := reports_docs rfl _
          have h2 := this.trans (reports_setDoc (E := E) (l := []) (k := k.storeDlg E d') (d' := { doc with group := g' }) hd (fun o => by simp [Doc.Keeps]))
          exact h2.mono (by simp)
        split at hq
        · split at hq
          · cases hq
          · split at hq
            · cases hq
            · rename_i doc'' ops' hm
              cases hq
              obtain ⟨new, rfl, hn⟩ := handed_addCgkaMembers (hE did) hm
              refine h1.trans (reports_setDoc (d := { doc with group := g' }) ?_ (by simpa using hn))
              rw [get_setDoc (k := k.storeDlg E d) hd, if_pos rfl]
        · cases hq
          exact h1.mono (by simp)
  | revokeFromGroup L gid member retain content =>
    obtain ⟨ops, hf⟩ := hf
    change (k.revokeFromGroup E L gid member retain content).2 = .ok ops at hf
    show Reports E k (k.revokeFromGroup E L gid member retain content).1 (k.revokeFromGroupLog E L gid member retain content)
    unfold Keyhive.revokeFromGroup at hf ⊢
    unfold Keyhive.revokeFromGroupLog
    revert hf
    cases AMap.get k.groups gid with
    | none => intro hf; cases hf
    | some g =>
      dsimp only
      cases idsBehind k.world [] (((AMap.get g.members member).getD []).map Dlg.delegate) [] with
      | error e => intro hf; cases hf
      | ok ids =>
        dsimp only
        generalize g.revokeMember E.opDigest (membersOf k.world [gid]) L.sign member retain k.reg.me content = r
        obtain ⟨g', res⟩ := r
        cases res with
        | error e => intro hf; cases hf
        | ok p =>
          obtain ⟨revs, dlgs⟩ := p
          dsimp only
          have h1 : ∀ l, Reports E k { k.storeAll E revs dlgs with groups := AMap.insert k.groups gid g' } l :=
            fun l => reports_docs (storeAll_same revs dlgs k).2.1 l
          revert h1
          generalize ({ k.storeAll E revs dlgs with groups := AMap.insert k.groups gid g' } : Keyhive) = k1
          generalize AMap.keys (k.storeAll E revs dlgs).docs = dids
          intro h1
          split
          · intro _; exact h1 _
          · cases hq : Keyhive.propagateRemoves E L gid ids k1 dids [] with
            | mk k2 res =>
              cases res with
              | error e => intro hf; cases hf
              | ok ops => intro _; exact (h1 _).trans (reports_removes hE hq)
  | revokeFromDoc L did member retain content =>
    obtain ⟨ops, hf⟩ := hf
    change (k.revokeFromDoc E L did member retain content).2 = .ok ops at hf
    show Reports E k (k.revokeFromDoc E L did member retain content).1 (k.revokeFromDocLog E L did member retain content)
    have hq : k.revokeFromDoc E L did member retain content = ((k.revokeFromDoc E L did member retain content).1, .ok ops) := Prod.ext rfl hf
    unfold Keyhive.revokeFromDocLog
    rw [hf]
    revert hq
    generalize (k.revokeFromDoc E L did member retain content).1 = k'
    intro hq
    unfold Keyhive.revokeFromDoc at hq
    split at hq
    · cases hq
    · rename_i doc hd
      rw [hd]
      dsimp only
      split at hq
      · cases hq
      · rename_i ids hids
        rw [hids]
        dsimp only
        split at hq
        · cases hq
        · rename_i g' revs dlgs hrev
          have hd' : AMap.get (k.storeAll E revs dlgs).docs did = some doc := by rw [(storeAll_same revs dlgs k).2.1]; exact hd
          have h1 : ∀ l, Reports E k ((k.storeAll E revs dlgs).setDoc did { doc with group := g' }) l := by
            intro l
            have : Reports E k (k.storeAll E revs dlgs) [] := reports_docs (storeAll_same revs dlgs k).2.1 _
            exact (this.trans (reports_setDoc (E := E) (l := []) (d' := { doc with group := g' }) hd' (fun o => by simp [Doc.Keeps]))).mono (by simp)
          dsimp only at hq
          split at hq
          · cases hq
          · split at hq
            · cases hq
            · rename_i doc'' ops' hm
              cases hq
              obtain ⟨new, rfl, hn⟩ := handed_removeCgkaMembers (hE did) hm
              refine (h1 _).trans (reports_setDoc (d := { doc with group := g' }) ?_ (by simpa using hn))
              rw [get_setDoc hd', if_pos rfl]
  | encrypt L did r p x =>
    obtain ⟨⟨e, op⟩, hf⟩ := hf
    change (k.encryptContent E L did r p x).2 = .ok (e, op) at hf
    show Reports E k (k.encryptContent E L did r p x).1 (match (k.encryptContent E L did r p x).2 with
      | .ok (_, some op) => [.cgka did op]
      | _ => [])
    rw [hf]
    unfold Keyhive.encryptContent at hf ⊢
    split at hf
    · cases hf
    · rename_i d hd
      rcases hq : d.encryptContent (E.hashCgka did) (L.signCgka did) L.gen r p x with ⟨d', res'⟩
      rw [hq] at hf
      dsimp only at hf ⊢
      subst hf
      have := reports_setDoc (E := E) (l := op.toList) hd (handed_encryptContent (hE did) hq)
      cases op <;> exact this
  | decrypt did e =>
    show Reports E k (k.decryptContent E did e).1 []
    unfold Keyhive.decryptContent
    split
    · exact reports_docs rfl _
    · rename_i d hd
      refine reports_setDoc (l := []) hd (fun o => ?_)
      unfold Doc.decryptContent
      split
      · simp
      · rename_i c hc
        have hg := has_graph (H := E.hashCgka did) (Ext.decrypt (E.hashCgka did) c e).graph o
        split
        · rename_i c' err hq
          rw [hq] at hg
          rw [doc_has (c := c') rfl, doc_has hc, hg]
          simp
        · rename_i c' key hq
          rw [hq] at hg
          rw [doc_has (c := c') rfl, doc_has hc, hg]
          simp
  | pcsUpdate L did =>
    obtain ⟨⟨op, sk⟩, hf⟩ := hf
    change (k.forcePcsUpdate E L did).2 = .ok (op, sk) at hf
    show Reports E k (k.forcePcsUpdate E L did).1 (match (k.forcePcsUpdate E L did).2 with
      | .error _ => []
      | .ok (op, _) => [.cgka did op])
    rw [hf]
    unfold Keyhive.forcePcsUpdate at hf ⊢
    split at hf
    · cases hf
    · rename_i d hd
      rcases hq : d.pcsUpdate (E.hashCgka did) (L.signCgka did) L.gen with ⟨d', res'⟩
      rw [hq] at hf
      dsimp only at hf ⊢
      subst hf
      exact reports_setDoc (E := E) (l := [op]) hd (handed_pcsUpdate (hE did) hq)

/-- The fork has after the calls the group-key operations it had before and those that were reported. -/
theorem runLogged_reports (hE : E.NoKeyClash) : ∀ (calls : List Call) (f : Keyhive), AllFine E f calls →
    Reports E f (f.afterCalls E calls) (Keyhive.runLogged E f calls).2
  | [], f, _ => reports_docs rfl _
  | c :: cs, f, hf =>
    (call_reports hE (hf [] c cs rfl)).trans
      (runLogged_reports hE cs (c.run E f)
        (fun pre x post hp => hf (c :: pre) x post (by rw [hp]; rfl)))

theorem Answer.fine_not_stuck {a : Answer} (h : a.Fine) : ¬ a.Stuck := by
  intro hs
  cases hs <;> obtain ⟨x, hx⟩ := h <;> cases hx

/-- The calls return without an error on the twin too. -/
theorem Twins.allFine {k k' : Keyhive} {calls : List Call} (h : Twins k k') (hby : ∀ c ∈ calls, c.ByPrekeys) (hf : AllFine E k calls) :
    AllFine E k' calls := by
  intro pre c post hp
  have hc : c ∈ calls := by rw [hp]; simp
  have hpre : ∀ c ∈ pre, c.ByPrekeys := fun x hx => hby x (by rw [hp]; simp [hx])
  have h1 := hf pre c post hp
  have hw : Twins (k.afterCalls E pre) (k'.afterCalls E pre) := Twins.runAll (E := E) h hpre
  rcases (hw.run (E := E) (hby c hc)).2 with h2 | ⟨_, h2⟩
  · rw [h2]; exact h1
  · exact absurd h2 (Answer.fine_not_stuck h1)

theorem Twins.hasKeyOp {k k' : Keyhive} (h : Twins k k') {did : Id} {op : SOp} (hk : HasKeyOp E k did op) : HasKeyOp E k' did op := by
  obtain ⟨d, c, h1, h2, h3⟩ := hk
  rcases get_cases (f := fun d : Doc => { d with group := unmark d.group }) h.alike.docs did with ⟨_, e1⟩ | ⟨d1, d0, e2, e1, e3⟩
  · rw [h1] at e1; cases e1
  · rw [h1] at e1; cases e1
    exact ⟨d1, c, e2, (congrArg Doc.cgka e3).trans h2, h3⟩

theorem Twins.hasKeyOp' {k k' : Keyhive} (h : Twins k k') {did : Id} {op : SOp} (hk : HasKeyOp E k' did op) : HasKeyOp E k did op := by
  obtain ⟨d, c, h1, h2, h3⟩ := hk
  rcases get_cases (f := fun d : Doc => { d with group := unmark d.group }) h.alike.docs did with ⟨e1, _⟩ | ⟨d1, d0, e2, e1, e3⟩
  · rw [h1] at e1; cases e1
  · rw [h1] at e2; cases e2
    exact ⟨d0, c, e1, (congrArg Doc.cgka e3).symm.trans h2, h3⟩

theorem reach_calls : ∀ (calls : List Call) {k : Keyhive}, Reach E k → (∀ c ∈ calls, c.Honest E) → Reach E (k.afterCalls E calls)
  | [], _, hk, _ => hk
  | c :: cs, _, hk, h => reach_calls cs (hk.call c (h c (.head _))) (fun x hx => h x (.tail _ hx))

theorem onward_calls {did : Id} {k : Keyhive} (calls : List Call) (h : ∀ c ∈ calls, c.Honest E)
    (hn : ∀ L S co heads, Call.newDoc L S did co heads ∉ calls) : Onward E did k (k.afterCalls E calls) := by
  induction calls using List.reverseRecOn with
  | nil => exact .refl
  | append_singleton cs c ih =>
    unfold Keyhive.afterCalls
    rw [List.foldl_append]
    exact .call c (ih (fun x hx => h x (by simp [hx])) (fun L S co heads hx => hn L S co heads (by simp [hx]))) (h c (by simp))
      (fun L S co heads hx => hn L S co heads (by simp [hx]))

/-- What is received while a transaction is merged is recorded. -/
theorem replayLog_recorded {did : Id} (ho : E.OnlyRoots did) (hH : Function.Injective (E.hashCgka did)) : ∀ (es : List Event) {k k' : Keyhive},
    Trees (fun i => Cgka.Reach (E.hashCgka i)) k → k.replayLog E es = (k', .ok ()) → ∀ {op : SOp}, .cgka did op ∈ es → HasKeyOp E k' did op
  | [], _, _, _, _, _, h => by cases h
  | e :: es, k, k', ht, h, op, hm => by
    cases e with
    | prekey p =>
      rcases List.mem_cons.1 hm with hm | hm
      · cases hm
      · exact replayLog_recorded ho hH es (k := k) ht h hm
    | _ =>
      simp only [Keyhive.replayLog] at h
      split at h
      · cases h
      · rename_i k1 heq
        rcases List.mem_cons.1 hm with hm | hm
        · first
          | cases hm
            have h1 := recorded_receive' (fun d hd => ht did d hd) hH heq
            exact KeptProps.C82_stays_partial ho hH (onward_fed (replayLog_fed es h)) h1
          | cases hm
        · refine replayLog_recorded ho hH es (k := k1) ?_ h hm
          rw [show k1 = (k.receive E _).1 from (congrArg Prod.fst heq).symm]
          exact trees_receive (E := E) (fun i => closed_reach (E.hashCgka i)) ht _

end Verif.Keyhive
