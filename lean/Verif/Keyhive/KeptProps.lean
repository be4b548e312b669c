import Verif.Keyhive.ToldLemmas
import Verif.Keyhive.Props
import Verif.Keyhive.KeptSample
import Verif.Keyhive.QueryProps
import Verif.Cgka.OwnKeys
import Verif.Cgka.Props

/-! # A device keeps the keys of its documents -/

namespace Verif.Keyhive.KeptProps

open Verif.Group Verif.Cgka Verif.BeeKem Verif.Keyhive.Sample

variable {E : Env}

/-! ## C82: a device does not forget the keys of a document -/

/-- C82: a group-key operation that the device took in without an error is recorded. -/
theorem C82_recorded {k k' : Keyhive} (hk : Reach E k) {did : Id} (hH : Function.Injective (E.hashCgka did)) {op : SOp}
    (h : k.receive E (.cgka did op) = (k', .ok ())) : HasKeyOp E k' did op := recorded_receive hk hH h

example : Reach Sample.E (feed Sample.E k0 [.dlg docAlice]) ∧ Function.Injective (Sample.E.hashCgka 300) ∧
    (feed Sample.E k0 [.dlg docAlice]).receive Sample.E (.cgka 300 s0) = (feed Sample.E k0 [.dlg docAlice, .cgka 300 s0], .ok ()) :=
  ⟨reach_feed reach_k0, tableH_injective _, by decide +kernel⟩

/-- C82: a recorded group-key operation stays recorded, whatever is received or called afterwards.
Missing from the full property: this does not hold if the key of the document signs delegations with a proof (`C82_fails`). -/
theorem C82_stays_partial {did : Id} (ho : E.OnlyRoots did) (hH : Function.Injective (E.hashCgka did)) {k k' : Keyhive}
    (h : Onward E did k k') {op : SOp} (hop : HasKeyOp E k did op) : HasKeyOp E k' did op := by
  obtain ⟨d, c, h1, h2, h3⟩ := hop
  obtain ⟨d', c', e1, e2, hl⟩ := onward_later ho h h1 h2
  exact ⟨d', c', e1, e2, later_ops hH hl h3⟩

/-- C82: when ingestion returns, every group-key operation of the batch is recorded or reported back.
Missing from the full property: the key of the document must not sign delegations with a proof (`C82_fails`). -/
theorem C82_ingested_partial (hE : Function.Injective E.hashEvent) {ord : List Event → List Event} (hord : ∀ l, (ord l).Perm l)
    {k k' : Keyhive} (hk : Reach E k) {events left : List Event} (h : k.ingest E ord events = (k', some (.ok left)))
    {did : Id} (ho : E.OnlyRoots did) (hH : Function.Injective (E.hashCgka did)) {op : SOp} (he : .cgka did op ∈ events) :
    HasKeyOp E k' did op ∨ .cgka did op ∈ left := by
  obtain ⟨_, ⟨k1, h1, h2, h3⟩, _⟩ := Props.C36_every_event_partial hE hord hk h
  have keep : HasKeyOp E k1 did op → HasKeyOp E k' did op := by
    rintro ⟨d, c, e1, e2, e3⟩
    exact ⟨d, c, by rw [h1]; exact e1, e2, e3⟩
  rcases h3 _ (List.mem_append_left _ he) with ⟨k2, f1, f2, f3⟩ | ⟨err, k2, _, f2, _⟩ | hl
  · refine .inl (keep (C82_stays_partial ho hH (onward_fed f3) ?_))
    exact recorded_receive ((onward_fed (did := did) f1).reach hk) hH (Prod.ext rfl f2)
  · exfalso
    simp only [Keyhive.receive, Keyhive.receiveCgkaOp] at f2
    repeat' (first | (cases f2; done) | split at f2)
    all_goals (simp only [Keyhive.mergePublicInvite, Keyhive.closeDoc] at f2)
    all_goals (repeat' (first | (cases f2; done) | split at f2))
  · exact .inr hl

/-- C82: content of a document that the device has once decrypted it decrypts again, to the same plaintext and with the same key,
after whatever it receives and does in between, be it that it is removed from the document.
Missing from the full property: the key of the document must not sign delegations with a proof (`C82_fails`). -/
theorem C82_read_again_partial {did : Id} (ho : E.OnlyRoots did) (hH : Function.Injective (E.hashCgka did)) {k k1 k2 : Keyhive} (hk : Reach E k)
    {s r ps o p p' : Nat} {e : EncContent} (he : e = (deriveApplicationSecret s r ps o).encrypt p) {key : AppKey}
    (h : k.decryptContent E did e = (k1, .ok (p', key))) (hl : Onward E did k1 k2) :
    (k2.decryptContent E did e).2 = .ok (p', key) ∧ p' = p := by
  unfold Keyhive.decryptContent at h
  split at h
  · cases h
  · rename_i d hd
    simp only [Prod.mk.injEq] at h
    obtain ⟨h1, h2⟩ := h
    have hk1 := get_setDoc (d := (d.decryptContent (E.hashCgka did) e).1) hd did
    rw [h1, if_pos rfl] at hk1
    unfold Doc.decryptContent at h2 hk1
    split at h2
    · cases h2
    · rename_i c hc
      split at h2
      · cases h2
      · rename_i c' key' hdec
        simp only [hc, hdec] at hk1
        dsimp only at h2
        split at h2
        · cases h2
        · rename_i plain hop
          cases h2
          have hpp : p' = p := by
            subst he
            unfold EncContent.openWith at hop
            split at hop
            · cases hop; rfl
            · cases hop
          subst hpp
          obtain ⟨d2, c2, g1, g2, hlat⟩ := onward_later ho hl hk1 rfl
          have hold := (Cgka.Props.C17_old_content hH (doc_reach hk hd hc) he hdec hop hlat).1
          refine ⟨?_, rfl⟩
          unfold Keyhive.decryptContent Doc.decryptContent
          simp only [g1, g2]
          generalize hz : c2.decryptionKeyFor (E.hashCgka did) e = z at hold
          obtain ⟨c3, y⟩ := z
          dsimp only at hold
          subst hold
          simp only [hop]

/-- C82: content that the device has encrypted itself it can decrypt from then on.
Missing from the full property: the key of the document must not sign delegations with a proof (`C82_fails`). -/
theorem C82_own_content_partial {did : Id} (ho : E.OnlyRoots did) (hH : Function.Injective (E.hashCgka did)) {k k1 k2 : Keyhive} (hk : Reach E k)
    {L : Local} (hL : L.Honest E) {r ps p : Nat} {e : EncContent} {op : Option SOp}
    (h : k.encryptContent E L did r ps p = (k1, .ok (e, op))) (hl : Onward E did k1 k2) :
    ∃ key, (k2.decryptContent E did e).2 = .ok (p, key) := by
  unfold Keyhive.encryptContent at h
  split at h
  · cases h
  · rename_i d hd
    simp only [Prod.mk.injEq] at h
    obtain ⟨h1, h2⟩ := h
    have hk1 := get_setDoc (d := (d.encryptContent (E.hashCgka did) (L.signCgka did) L.gen r ps p).1) hd did
    rw [h1, if_pos rfl] at hk1
    unfold Doc.encryptContent at h2 hk1
    split at h2
    · cases h2
    · rename_i c hc
      split at h2
      · cases h2
      · rename_i c' secret op' henc
        simp only [hc, henc] at hk1
        cases h2
        obtain ⟨d2, c2, g1, g2, hlat⟩ := onward_later ho hl hk1 rfl
        obtain ⟨hold, hop⟩ := Cgka.Props.C17_own_content hH (doc_reach hk hd hc) (hL.2 did) henc hlat (p := p)
        refine ⟨secret.key, ?_⟩
        unfold Keyhive.decryptContent Doc.decryptContent
        simp only [g1, g2]
        generalize hz : c2.decryptionKeyFor (E.hashCgka did) (secret.encrypt p) = z at hold
        obtain ⟨c3, y⟩ := z
        dsimp only at hold
        subst hold
        simp only [hop]

-- Agent 5 encrypts content for the document it made, and then adds Alice.
example : ER.OnlyRoots 300 ∧ Function.Injective (ER.hashCgka 300) ∧ Reach ER w1 ∧ LR.Honest ER ∧
    w1.encryptContent ER LR 300 7 8 42 = (w2, .ok (⟨⟨701, 8, 7⟩, 42, ⟨701⟩, 2, 7, 8⟩, none)) ∧ Onward ER 300 w2 w3 ∧
    (⟨⟨701, 8, 7⟩, 42, ⟨701⟩, 2, 7, 8⟩ : EncContent) = (deriveApplicationSecret 701 7 8 2).encrypt 42 ∧
    w2.decryptContent ER 300 ⟨⟨701, 8, 7⟩, 42, ⟨701⟩, 2, 7, 8⟩ = (w2, .ok (42, ⟨701, 8, 7⟩)) ∧
    (treeOf w3 300).any (fun c => c.tree.containsId 1 && decide (AMap.get c.graph.ops 2 = some t2)) = true :=
  ⟨ER_roots, tableH_injective _, reach_w1, LR_honest, Prod.ext rfl (by decide +kernel), onward_w3, rfl,
    Prod.ext (by decide +kernel) (by decide +kernel), by decide +kernel⟩

/-- C82 fails: a device knows document 300 with its key tree. One delegation signed by the key of the document, which names
a proof about another agent, replaces the document by an empty one: the recorded operation is gone, there is no key tree, and
Alice is not a member any more. -/
theorem C82_fails : ∃ (E : Env) (k k' : Keyhive) (s : SDlg) (op : SOp) (d d' : Doc), E.NoClash ∧ Function.Injective (E.hashCgka 300) ∧ Reach E k ∧
    s.issuer = 300 ∧ HasKeyOp E k 300 op ∧ k.receive E (.dlg s) = (k', .ok ()) ∧
    AMap.get k.docs 300 = some d ∧ (∃ x, d.group.MemberBy 1 x) ∧
    AMap.get k'.docs 300 = some d' ∧ d'.cgka = none ∧ (¬ ∃ x, d'.group.MemberBy 1 x) ∧ ¬ HasKeyOp E k' 300 op := by
  have h : (match AMap.get (feed Sample.E k0 [.dlg docAlice, .cgka 300 s0, .dlg x7]).docs 300,
      AMap.get (feed Sample.E k0 [.dlg docAlice, .cgka 300 s0, .dlg x7, .dlg evil]).docs 300 with
    | some d, some d' => (match d.cgka with | some c => decide (AMap.get c.graph.ops (Sample.E.hashCgka 300 s0) = some s0) | none => false)
      && (match AMap.get d.group.members 1 with | some (_ :: _) => true | _ => false)
      && decide (d'.cgka = none) && decide (AMap.get d'.group.members 1 = none)
    | _, _ => false) = true := by decide +kernel
  split at h
  · rename_i d d' hd hd'
    simp only [Bool.and_eq_true, decide_eq_true_eq] at h
    obtain ⟨⟨⟨h1, h2⟩, h3⟩, h4⟩ := h
    refine ⟨Sample.E, _, _, evil, s0, d, d', E_noClash, tableH_injective _, reach_feed reach_k0, rfl, ?_,
      show _ = (feed Sample.E k0 [.dlg docAlice, .cgka 300 s0, .dlg x7, .dlg evil], _) by decide +kernel, hd, ?_, hd', h3, ?_, ?_⟩
    · split at h1
      · rename_i c hc
        exact ⟨d, c, hd, hc, of_decide_eq_true h1⟩
      · cases h1
    · split at h2
      · rename_i x xs hx
        exact ⟨x, x :: xs, hx, by simp⟩
      · cases h2
    · rintro ⟨x, xs, hx, _⟩
      rw [h4] at hx
      cases hx
    · rintro ⟨d2, c, e1, e2, _⟩
      rw [hd'] at e1
      cases e1
      rw [h3] at e2
      cases e2
  · cases h

/-! ## C84: invitations -/

theorem only_public {m : ShareKeyMap} {pk : Pk} {sk : Sk} (h : BeeKem.Only m pk sk) (hp : pk = shareKey publicSk → sk = publicSk) :
    BeeKem.Only (AMap.insert m (shareKey publicSk) publicSk) pk sk := by
  by_cases hq : pk = shareKey publicSk
  · rw [hp hq, hq]; exact BeeKem.Only.insert_self _ _ _
  · refine ⟨by rw [AMap.get_insert, if_neg hq]; exact h.1, fun x hx => ?_⟩
    rcases List.mem_cons.1 hx with e | e
    · cases e; exact absurd rfl hq
    · exact h.2 x (List.mem_filter.1 e).1

/-- C84: a device that takes in the operation that adds it to a document's key tree has the secret of the prekey it was added with,
takes part in the tree under its own name, and has the secret there. (The prekey is not the well-known one of the public individual.) -/
theorem C84_invited {k k' : Keyhive} {did : Id} {op : SOp} {pk : Pk} {l : Nat} {preds ah : List Nat} (hpk : pk ≠ shareKey publicSk)
    (hop : op.payload = .add k.reg.me pk l preds ah) (h : k.receive E (.cgka did op) = (k', .ok ())) :
    ∃ sk d c, AMap.get k.pairs pk = some sk ∧ AMap.get k'.docs did = some d ∧ d.cgka = some c ∧ c.ownerId = k.reg.me ∧
      AMap.get c.ownerSks pk = some sk := by
  simp only [Keyhive.receive, Keyhive.receiveCgkaOp, hop, if_true] at h
  split at h
  · cases h
  · split at h
    · cases h
    · rename_i d hd
      split at h
      · cases h
      · rename_i sk hsk
        obtain ⟨h1, b, h2⟩ := closeDoc_ok hd h
        unfold Doc.mergeCgkaInviteOp at h1 h2
        rw [hop] at h1 h2
        dsimp only at h1 h2
        split at h2
        · cases h2
        · rename_i c hc
          split at h2
          · cases h2
          · rename_i hp
            simp only [hc, hp] at h1
            unfold Doc.mergeCgkaOp at h1
            dsimp only at h1
            refine ⟨sk, _, _, hsk, h1, rfl, ?_, ?_⟩
            · exact (GStep.receive _ _ op).2.owner
            · exact (receive_only (only_public (BeeKem.Only.insert_self _ _ _) (absurd · hpk)) op).1

/-- C84: an operation that adds the public individual gives the device the public secret; the device goes on taking part in the tree
under its own name. -/
theorem C84_public {k k' : Keyhive} {did : Id} {op : SOp} {pk : Pk} {l : Nat} {preds ah : List Nat} (hne : k.reg.me ≠ k.reg.pub)
    (hop : op.payload = .add k.reg.pub pk l preds ah) (h : k.receive E (.cgka did op) = (k', .ok ())) :
    ∃ d c, AMap.get k'.docs did = some d ∧ d.cgka = some c ∧ c.ownerId = k.reg.me ∧ AMap.get c.ownerSks pk = some publicSk := by
  simp only [Keyhive.receive, Keyhive.receiveCgkaOp, hop, if_true, if_neg hne] at h
  split at h
  · cases h
  · split at h
    · cases h
    · rename_i d hd
      unfold Keyhive.mergePublicInvite at h
      split at h
      · unfold Keyhive.closeDoc at h; cases h
      · rename_i d' b hb
        obtain ⟨h1, b', h2⟩ := closeDoc_ok hd h
        unfold Doc.mergeCgkaInviteOp at hb
        rw [hop] at hb
        dsimp only at hb
        split at hb
        · cases hb
        · rename_i c hc
          split at hb
          · cases hb
          · unfold Doc.mergeCgkaOp at hb
            dsimp only at hb
            rw [Prod.mk.injEq] at hb
            rw [← hb.1] at h1
            unfold Doc.resetCgkaOwner at h1
            dsimp only at h1
            exact ⟨_, _, h1, rfl, rfl,
              (only_public (receive_only (only_public (BeeKem.Only.insert_self _ _ _) (fun _ => rfl)) op) (fun _ => rfl)).1⟩

-- Alice invites agent 5 to their document.
example : Reach EI (feed EI k0 [.dlg docAlice, .cgka 300 s0]) ∧
    s5.payload = .add (feed EI k0 [.dlg docAlice, .cgka 300 s0]).reg.me ⟨55⟩ 1 [0] [0] ∧ (⟨55⟩ : Pk) ≠ shareKey publicSk ∧
    (feed EI k0 [.dlg docAlice, .cgka 300 s0]).receive EI (.cgka 300 s5) = (feed EI k0 [.dlg docAlice, .cgka 300 s0, .cgka 300 s5], .ok ()) ∧
    (treeOf (feed EI k0 [.dlg docAlice, .cgka 300 s0]) 300).any (fun c => decide (c.ownerId = 1)) = true :=
  ⟨reach_feed' (.start reg _), by decide +kernel, by decide +kernel, by decide +kernel, by decide +kernel⟩

/-! ## C81: an agent is told every group-key operation of its documents -/

/-- C81: the events for an agent contain every group-key operation recorded for a document of which the agent is a member, directly or
through groups.
Missing from the full property: key trees in which two operations name no predecessor (`C81_fails`). -/
theorem C81_all_partial {k : Keyhive} (hk : Reach E k) (hw : AMap.WF k.world) {did : Id} (hH : Function.Injective (E.hashCgka did)) {d : Doc} {c : Cgka}
    (hd : AMap.get k.docs did = some d) (hc : d.cgka = some c) (h1 : OneRoot c) (hS : Sound k.world d.group) {a : Agent} (hne : a.id ≠ did)
    (hm : Within k.world d.group a.id) {op : SOp} (hop : HasKeyOp E k did op) : .cgka did op ∈ k.eventsFor E a := by
  obtain ⟨d2, c2, e1, e2, e3⟩ := hop
  rw [hd] at e1
  cases e1
  rw [hc] at e2
  cases e2
  obtain ⟨x, hx⟩ := (QueryProps.C59_documents hk hw hne (fun doc h => by rw [hd] at h; cases h; exact hS)).2 ⟨d, hd, hm⟩
  have hr := doc_reach hk hd hc
  obtain ⟨es, ht, ho⟩ := topsort_keyed hk hH hd hc h1
  have hin : E.hashCgka did op ∈ es.flatten.map (E.hashCgka did) :=
    (ho.exactly _).2 ((Cgka.Props.C13_heads_cover hH hr _).1 ⟨op, e3⟩)
  obtain ⟨o, hom, hoe⟩ := List.mem_map.1 hin
  rw [hH hoe] at hom
  unfold Keyhive.eventsFor
  refine List.mem_append_right _ (List.mem_map.2 ⟨(did, op), ?_, rfl⟩)
  unfold Keyhive.cgkaOpsFor
  refine List.mem_flatMap.2 ⟨did, (AMap.mem_keys_iff _ _).2 (by rw [hx]; simp), ?_⟩
  rw [hd]
  refine List.mem_map.2 ⟨op, ?_, rfl⟩
  rw [cgkaOps_of hc ht]
  exact hom

/-- C81: nothing else: a group-key operation among the events for an agent is recorded for a document of which the agent is a member.
Missing from the full property: key trees in which two operations name no predecessor (`C81_fails`). -/
theorem C81_only_partial {k : Keyhive} (hk : Reach E k) (hw : AMap.WF k.world) {did : Id} (hH : Function.Injective (E.hashCgka did)) {d : Doc} {c : Cgka}
    (hd : AMap.get k.docs did = some d) (hc : d.cgka = some c) (h1 : OneRoot c) (hS : Sound k.world d.group) {a : Agent} (hne : a.id ≠ did)
    {op : SOp} (h : .cgka did op ∈ k.eventsFor E a) : Within k.world d.group a.id ∧ HasKeyOp E k did op := by
  obtain ⟨x, d', hx, hd', ho⟩ := mem_cgkaOpsFor (cgka_mem_events h)
  rw [hd] at hd'
  cases hd'
  obtain ⟨d2, e1, e2⟩ := (QueryProps.C59_documents hk hw hne (fun doc h => by rw [hd] at h; cases h; exact hS)).1 ⟨x, hx⟩
  rw [hd] at e1
  cases e1
  obtain ⟨es, ht, hr⟩ := topsort_keyed hk hH hd hc h1
  rw [cgkaOps_of hc ht] at ho
  exact ⟨e2, d, c, hd, hc, hr.genuine op ho⟩

/-- C81: the group-key operations of a document come in an order in which they can be applied: none before one it depends on.
Missing from the full property: key trees in which two operations name no predecessor (`C81_fails`). -/
theorem C81_order_partial {k : Keyhive} (hk : Reach E k) {did : Id} (hH : Function.Injective (E.hashCgka did)) {d : Doc} {c : Cgka}
    (hd : AMap.get k.docs did = some d) (hc : d.cgka = some c) (h1 : OneRoot c) (a : Agent) :
    (k.eventsFor E a).Pairwise (fun x y => ∀ o o', x = .cgka did o → y = .cgka did o' → ¬ Before c (E.hashCgka did o') (E.hashCgka did o)) := by
  obtain ⟨es, ht, hr⟩ := topsort_keyed hk hH hd hc h1
  unfold Keyhive.eventsFor
  have hno : ∀ x ∈ (AMap.values (k.membershipOpsFor E a)).map (Keyhive.toEvent E)
      ++ ((AMap.values (k.prekeyOpsFor a)).flatMap (fun s => (Prekey.topsort s.length s).getD [])).map Event.prekey, ∀ o, x ≠ .cgka did o := by
    intro x hx o he
    subst he
    rcases List.mem_append.1 hx with h | h
    · obtain ⟨o, _, ho⟩ := List.mem_map.1 h
      cases o <;> cases ho
    · obtain ⟨o, _, ho⟩ := List.mem_map.1 h
      cases ho
  rw [List.pairwise_append]
  refine ⟨?_, ?_, fun x hx y _ o o' he => absurd he (hno x hx o)⟩
  · exact List.Pairwise.imp_of_mem (R := fun _ _ => True) (fun hx _ _ o o' he => absurd he (hno _ hx o)) (List.pairwise_of_forall (by simp))
  · rw [List.pairwise_map]
    unfold Keyhive.cgkaOpsFor
    refine pairwise_flatMap (Keyhive.wf_notes _ _ _ _ AMap.wf_nil : AMap.WF (k.docsReachable a.id)) ?_ ?_
    · intro j _
      split
      · simp
      · rename_i d' hd'
        rw [List.pairwise_map]
        by_cases hj : j = did
        · subst hj
          rw [hd] at hd'
          cases hd'
          rw [cgkaOps_of hc ht]
          refine hr.causal.imp ?_
          intro o o' h p p' e e'
          cases e
          cases e'
          exact h
        · exact List.pairwise_of_forall (fun o o' p p' e e' => by cases e; exact absurd rfl hj)
    · intro j j' hne x hx y hy o o' e e'
      split at hx
      · cases hx
      · split at hy
        · cases hy
        · obtain ⟨_, _, rfl⟩ := List.mem_map.1 hx
          obtain ⟨_, _, rfl⟩ := List.mem_map.1 hy
          cases e
          cases e'
          exact absurd rfl hne

-- Alice, in a group that may relay document 300, is told the four operations of its key tree.
example : Reach EL m4 ∧ AMap.WF m4.world ∧ Function.Injective (EL.hashCgka 300) ∧
    (∀ d c, AMap.get m4.docs 300 = some d → d.cgka = some c → OneRoot c ∧ Sound m4.world d.group) ∧
    [.cgka 300 t0, .cgka 300 t1, .cgka 300 t2, .cgka 300 t3] ⊆ m4.eventsFor EL ⟨.individual, 1⟩ := by
  refine ⟨reach_m4, by unfold AMap.WF; decide +kernel, tableH_injective _, fun d c hd hc =>
    ⟨Cgka.Sample.oneRoot_of 0 ?_, neat_sound (a := ⟨.individual, 1⟩) reach_m4 (by decide +kernel) hd⟩, by decide +kernel⟩
  have h : (treeOf m4 300).all (fun c => c.graph.ops.all (fun p => !decide (p.2.payload.preds = []) || decide (p.1 = 0))) = true := by decide +kernel
  rw [treeOf, hd, Option.bind_some, hc, Option.all_some, List.all_eq_true] at h
  intro p hp hpr
  have := h p hp
  simpa [hpr] using this

/-- C81 fails: agent 66, who is nobody here, starts the key tree of Alice's document a second time. The device records the operation, and
Alice is not told it. -/
theorem C81_fails : ∃ (E : Env) (k : Keyhive) (op : SOp) (d : Doc) (x : Dlg), E.NoClash ∧ Function.Injective (E.hashCgka 300) ∧ Reach E k ∧
    HasKeyOp E k 300 op ∧ AMap.get k.docs 300 = some d ∧ d.group.MemberBy 1 x ∧ x.delegate = ⟨.individual, 1⟩ ∧ x.can = .admin ∧
    .cgka 300 op ∉ k.eventsFor E ⟨.individual, 1⟩ := by
  have h : (match AMap.get (feed ET k0 [.dlg docAlice, .cgka 300 s0, .cgka 300 s5, .cgka 300 s6]).docs 300 with
    | some d => (match d.cgka with | some c => decide (AMap.get c.graph.ops (ET.hashCgka 300 s6) = some s6) | none => false)
      && (match AMap.get d.group.members 1 with | some (x :: _) => decide (x.delegate = ⟨.individual, 1⟩ ∧ x.can = .admin) | _ => false)
    | _ => false) = true := by decide +kernel
  split at h
  · rename_i d hd
    rw [Bool.and_eq_true] at h
    obtain ⟨h1, h2⟩ := h
    split at h1
    · rename_i c hc
      split at h2
      · rename_i x xs hx
        have h2 := of_decide_eq_true h2
        exact ⟨ET, _, s6, d, x, env_noClash _, tableH_injective _, reach_feed' (.start reg _), ⟨d, c, hd, hc, of_decide_eq_true h1⟩, hd,
          ⟨x :: xs, hx, by simp⟩, h2.1, h2.2, by decide +kernel⟩
      · cases h2
    · cases h1
  · cases h

end Verif.Keyhive.KeptProps
