import Verif.Keyhive.Sample
import Verif.Keyhive.LocalLemmas

/-! # Properties of a device that receives events -/

namespace Verif.Keyhive.Props

open Verif.Group Verif.Cgka Verif.BeeKem Verif.Keyhive.Sample

variable {E : Env}

/-! ## C35: signature checks gate all state -/

/-- C35: a delegation, revocation or group-key operation with an invalid signature is refused and leaves all state unchanged. -/
theorem C35_forged_refused {k : Keyhive} (hE : E.NoClash) (hk : Reach E k) {e : Event} (hf : E.Forged e)
    (he : ∀ op, e ≠ .prekey op) : k.receive E e = (k, .error .verification) := by
  have hs := reach_storeOk hk
  cases e with
  | prekey op => exact absurd rfl (he op)
  | cgka doc op =>
    simp only [Env.Forged] at hf
    simp [Keyhive.receive, Keyhive.receiveCgkaOp, hf]
  | dlg s =>
    simp only [Env.Forged] at hf
    have hn : AMap.contains k.dlgs (E.hashDlg s) = false := by
      rw [contains_eq_isSome]
      cases hg : AMap.get k.dlgs (E.hashDlg s) with
      | none => rfl
      | some d =>
        obtain ⟨h1, h2⟩ := hs.dlg _ _ hg
        rw [dlgDigest_eq] at h1
        rw [hE.dlg h1, hf] at h2
        cases h2
    simp [Keyhive.receive, Keyhive.receiveDelegation, hf, hn]
  | rev s =>
    simp only [Env.Forged] at hf
    have hn : AMap.contains k.revs (E.hashRev s) = false := by
      rw [contains_eq_isSome]
      cases hg : AMap.get k.revs (E.hashRev s) with
      | none => rfl
      | some d =>
        obtain ⟨h1, h2⟩ := hs.rev _ _ hg
        rw [revDigest_eq] at h1
        rw [hE.rev h1, hf] at h2
        cases h2
    simp [Keyhive.receive, Keyhive.receiveRevocation, hf, hn]

/-- A forged delegation for a device that has received a genuine one with the same payload. -/
example : (feed Sample.E k0 [.dlg kAlice]).receive Sample.E (.dlg { kAlice with sig := 1 }) =
    (feed Sample.E k0 [.dlg kAlice], .error .verification) :=
  C35_forged_refused E_noClash (reach_feed reach_k0) (show Sample.E.validDlg _ = false by decide) (by simp)

/-- C35, for the stores: everything a device ever stores has a valid signature and is filed under its own digest. -/
theorem C35_stored_valid {k : Keyhive} (hk : Reach E k) :
    (∀ h d, AMap.get k.dlgs h = some d → E.hashDlg (E.sdlg d) = h ∧ E.validDlg (E.sdlg d) = true) ∧
    (∀ h r, AMap.get k.revs h = some r → E.hashRev (E.srev r) = h ∧ E.validRev (E.srev r) = true) :=
  ⟨fun h d hd => by rw [← dlgDigest_eq]; exact (reach_storeOk hk).dlg h d hd,
   fun h r hr => by rw [← revDigest_eq]; exact (reach_storeOk hk).rev h r hr⟩

example : Reach Sample.E (feed Sample.E k0 [.dlg kAlice, .dlg kBob, .rev rBob]) ∧
    (feed Sample.E k0 [.dlg kAlice, .dlg kBob, .rev rBob]).dlgs.length = 2 ∧
    (feed Sample.E k0 [.dlg kAlice, .dlg kBob, .rev rBob]).revs.length = 1 :=
  ⟨reach_feed reach_k0, by decide +kernel, by decide +kernel⟩

/-! ## C20: only authorised agents can change who holds the document key -/

/-- C20, the part that holds: receiving a group-key operation changes nothing but the key tree of the document it names, and that
only if the signature is valid and the document is known. Missing: that the signer is a member (`C20_fails`). -/
theorem C20_only_the_tree_partial {k k' : Keyhive} {id : Id} {op : SOp} {out : Except Err Unit}
    (h : k.receive E (.cgka id op) = (k', out)) (hne : k' ≠ k) :
    E.validCgka id op = true ∧ (∃ d, AMap.get k.docs id = some d ∧ ∃ c, k'.docs = Keyhive.replace id { d with cgka := c } k.docs) ∧
      k' = { k with docs := k'.docs } ∧ ∀ j, j ≠ id → AMap.get k'.docs j = AMap.get k.docs j := by
  have hkey : E.validCgka id op = true ∧ (∃ d d', AMap.get k.docs id = some d ∧ k' = k.setDoc id d' ∧ d'.group = d.group ∧
      d'.heads = d.heads) := by
    simp only [Keyhive.receive] at h
    unfold Keyhive.receiveCgkaOp at h
    split at h
    · cases h; exact absurd rfl hne
    · rename_i hv
      refine ⟨by simpa using hv, ?_⟩
      split at h
      · cases h; exact absurd rfl hne
      · rename_i d hd
        split at h
        · split at h
          · split at h
            · cases h; exact absurd rfl hne
            · cases h
              exact ⟨d, _, hd, rfl, mergeCgkaInviteOp_group .., mergeCgkaInviteOp_heads ..⟩
          · split at h
            · unfold Keyhive.mergePublicInvite at h
              have hg := mergeCgkaInviteOp_group (E.hashCgka id) d op publicSk
              have hh := mergeCgkaInviteOp_heads (E.hashCgka id) d op publicSk
              split at h
              · rename_i heq
                rw [heq] at hg hh
                cases h
                exact ⟨d, _, hd, rfl, hg, hh⟩
              · rename_i heq
                rw [heq] at hg hh
                cases h
                exact ⟨d, _, hd, rfl, (resetCgkaOwner_group ..).trans hg, (resetCgkaOwner_heads ..).trans hh⟩
            · cases h
              exact ⟨d, _, hd, rfl, mergeCgkaOp_group .., mergeCgkaOp_heads ..⟩
        · cases h
          exact ⟨d, _, hd, rfl, mergeCgkaOp_group .., mergeCgkaOp_heads ..⟩
  obtain ⟨hv, d, d', hd, rfl, hg, hh⟩ := hkey
  refine ⟨hv, ⟨d, hd, d'.cgka, ?_⟩, rfl, fun j hj => ?_⟩
  · show Keyhive.replace id d' k.docs = _
    congr 1
    cases d'; cases d
    simp only at hg hh
    rw [hg, hh]
  · show AMap.get (Keyhive.replace id d' k.docs) j = _
    rw [get_replace, if_neg (fun h => hj h.1)]

/-- The document's first group-key operation is merged. -/
example : (feed Sample.E k0 [.dlg docAlice]).receive Sample.E (.cgka 300 s0) =
      (feed Sample.E k0 [.dlg docAlice, .cgka 300 s0], .ok ()) ∧
    feed Sample.E k0 [.dlg docAlice, .cgka 300 s0] ≠ feed Sample.E k0 [.dlg docAlice] :=
  ⟨by decide +kernel, by decide +kernel⟩

/-- C20 fails: agent 66, who is neither a member of the document nor even known to the device, adds itself to the document's key
tree by one signed operation. -/
theorem C20_fails : ∃ (E : Env) (k k' : Keyhive) (op : SOp) (d d' : Doc) (c c' : Cgka) (tm : AMap Id (Agent × Access)),
    Reach E k ∧ E.validCgka 300 op = true ∧ k.getAgent op.issuer = none ∧
    AMap.get k.docs 300 = some d ∧ transitiveMembers k.world [300] d.group = .ok tm ∧ AMap.get tm op.issuer = none ∧
    k.receive E (.cgka 300 op) = (k', .ok ()) ∧ AMap.get k'.docs 300 = some d' ∧
    d.cgka = some c ∧ d'.cgka = some c' ∧ c.tree.containsId op.issuer = false ∧ c'.tree.containsId op.issuer = true := by
  have h : (match AMap.get (feed Sample.E k0 [.dlg docAlice, .cgka 300 s0]).docs 300,
      AMap.get (feed Sample.E k0 [.dlg docAlice, .cgka 300 s0, .cgka 300 s1]).docs 300 with
    | some d, some d' =>
      match transitiveMembers (feed Sample.E k0 [.dlg docAlice, .cgka 300 s0]).world [300] d.group, d.cgka, d'.cgka with
      | .ok tm, some c, some c' =>
        decide (AMap.get tm 66 = none) && !c.tree.containsId 66 && c'.tree.containsId 66
      | _, _, _ => false
    | _, _ => false) = true := by decide +kernel
  split at h
  · rename_i d d' hd hd'
    split at h
    · rename_i tm c c' htm hc hc'
      simp only [Bool.and_eq_true, decide_eq_true_eq, Bool.not_eq_true'] at h
      exact ⟨Sample.E, _, _, s1, d, d', c, c', tm, reach_feed reach_k0, by decide, by decide +kernel, hd, htm, h.1.1,
        show _ = (feed Sample.E k0 [.dlg docAlice, .cgka 300 s0, .cgka 300 s1], _) by decide +kernel, hd', hc, hc', h.1.2, h.2⟩
    · cases h
  · cases h

/-! ## C36: out-of-order ingestion terminates and loses nothing -/

/-- C36: the loop over the events that are left stops: the bound on its rounds in the model is never used up. -/
theorem C36_rounds (ord : List Event → List Event) (k : Keyhive) (events : List Event) : (k.ingest E ord events).2 ≠ none :=
  rounds_ends (Nat.lt_succ_self _)

/-- C36: when ingestion returns, every event of the batch and every event that was pending has been applied, or was a refused
prekey event, or is reported back; the reported events are exactly those pending afterwards; every delegation and revocation
among them still fails. The state is the one after receiving the events one at a time in some order.
Missing from the full property: that ingestion returns (`C36_fails`), and for pending group-key operations that they still fail. -/
theorem C36_every_event_partial (hE : Function.Injective E.hashEvent) {ord : List Event → List Event} (hord : ∀ l, (ord l).Perm l)
    {k k' : Keyhive} (hk : Reach E k) {events left : List Event} (h : k.ingest E ord events = (k', some (.ok left))) :
    k'.pending = left ∧
    (∃ k1, k' = { k1 with pending := left } ∧ Fed E k k1 ∧
      ∀ e ∈ events ++ k.pending,
        Handled E k k1 e (.ok ()) ∨ (∃ err, Handled E k k1 e (.error (.prekey err))) ∨ e ∈ left) ∧
    (∀ e ∈ left, e ∈ events ++ k.pending) ∧
    (∀ e ∈ left, e.isMembership = true → ∃ err, (k'.receive E e).2 = .error err) :=
  ingest_every hE hord (reach_storeOk hk) h

/-- A batch that comes in the wrong order is applied except for an event whose proof is missing, which is remembered. -/
example : ∃ k', k0.ingest Sample.E List.reverse [.dlg gCarol, .rev rBob, .dlg kBob, .dlg kAlice] = (k', some (.ok [.dlg gCarol])) ∧
    k'.pending = [.dlg gCarol] ∧ k'.revs.length = 1 :=
  ⟨(k0.ingest Sample.E List.reverse [.dlg gCarol, .rev rBob, .dlg kBob, .dlg kAlice]).1, by decide +kernel, by decide +kernel, by decide +kernel⟩

/-- C36 fails: ingestion does not always return. Two events, both signed by an agent known as an individual, make the device wait
forever for a lock it holds itself. -/
theorem C36_fails : ∃ (E : Env) (k : Keyhive) (d : SDlg) (r : SRev), Reach E k ∧ E.NoClash ∧ Function.Injective E.hashEvent ∧
    E.validDlg d = true ∧ E.validRev r = true ∧ (k.ingest E List.reverse [.dlg d, .rev r]).2 = some (.error .hang) :=
  ⟨Sample.E, k0, x7, r7, reach_k0, E_noClash, E_events, by decide, by decide, by decide +kernel⟩

/-! ## C37: ingestion does not depend on order -/

/-- C37 fails: Bob, a member of a team that is a member of a group, adds Carol to the group; Alice takes Bob out of the team. If
the batch is ingested in the order given, both are applied; with the last two events exchanged, Carol is not added and the event
that adds them stays pending. -/
theorem C37_fails : ∃ (E : Env) (k k1 k2 : Keyhive) (es es' : List Event) (d : SDlg), Reach E k ∧ E.NoClash ∧ Function.Injective E.hashEvent ∧
    es.Perm es' ∧ k.ingest E List.reverse es = (k1, some (.ok [])) ∧ k.ingest E List.reverse es' = (k2, some (.ok [.dlg d])) ∧
    (∃ g1 g2, AMap.get k1.groups 100 = some g1 ∧ AMap.get k2.groups 100 = some g2 ∧
      (∃ x, g1.MemberBy 3 x) ∧ ¬ ∃ x, g2.MemberBy 3 x) := by
  have h : (match AMap.get (k0.ingest Sample.E List.reverse [.dlg kAlice, .dlg kBob, .dlg gTeam, .dlg gCarol, .rev rBob]).1.groups 100,
      AMap.get (k0.ingest Sample.E List.reverse [.dlg kAlice, .dlg kBob, .dlg gTeam, .rev rBob, .dlg gCarol]).1.groups 100 with
    | some g1, some g2 => (match AMap.get g1.members 3 with | some (_ :: _) => true | _ => false) && decide (AMap.get g2.members 3 = none)
    | _, _ => false) = true := by decide +kernel
  split at h
  · rename_i g1 g2 h1 h2
    simp only [Bool.and_eq_true, decide_eq_true_eq] at h
    refine ⟨Sample.E, k0, _, _, [.dlg kAlice, .dlg kBob, .dlg gTeam, .dlg gCarol, .rev rBob],
      [.dlg kAlice, .dlg kBob, .dlg gTeam, .rev rBob, .dlg gCarol], gCarol, reach_k0, E_noClash, E_events, by decide,
      show _ = ((k0.ingest Sample.E List.reverse [.dlg kAlice, .dlg kBob, .dlg gTeam, .dlg gCarol, .rev rBob]).1, _) by decide +kernel,
      show _ = ((k0.ingest Sample.E List.reverse [.dlg kAlice, .dlg kBob, .dlg gTeam, .rev rBob, .dlg gCarol]).1, _) by decide +kernel,
      g1, g2, h1, h2, ?_, ?_⟩
    · obtain ⟨h3, h4⟩ := h
      split at h3
      · rename_i x xs hx
        exact ⟨x, x :: xs, hx, by simp⟩
      · cases h3
    · rintro ⟨x, xs, hx, _⟩
      rw [h.2] at hx
      cases hx
  · cases h

/-! ## C53: a known individual that turns out to be a group -/

/-- C53 fails, always: when a device takes in a delegation of an agent that it knows as an individual, the call succeeds and the
agent is not known any more, neither as a group nor otherwise. -/
theorem C53_fails {k k' : Keyhive} {s : SDlg} (ha : k.getAgent s.issuer = some ⟨.individual, s.issuer⟩) (hr : s.proof = none)
    (hnew : AMap.contains k.dlgs (E.hashDlg s) = false) (h : k.receive E (.dlg s) = (k', .ok ())) :
    k'.getAgent s.issuer = none ∧ AMap.get k'.groups s.issuer = none ∧ AMap.get k'.docs s.issuer = none := by
  simp only [Keyhive.receive] at h
  unfold Keyhive.receiveDelegation at h
  rw [if_neg (by simp [hnew])] at h
  split at h
  · cases h
  · split at h
    · cases h
    · rename_i d hd
      have hsub : d.subject = s.issuer := by
        unfold Keyhive.toDlg at hd
        rw [hr] at hd
        simp only [Keyhive.findProof] at hd
        split at hd
        · cases hd
        · split at hd
          · cases hd
          · cases hd
            rfl
      have hme : s.issuer ≠ k.reg.me := by
        rintro hme
        rw [Keyhive.getAgent, if_pos hme] at ha
        cases ha
      have hdoc : AMap.get k.docs s.issuer = none := by
        rw [Keyhive.getAgent, if_neg hme] at ha
        split at ha
        · cases ha
        · rename_i hc
          rw [contains_eq_isSome] at hc
          simpa using hc
      have hgrp : AMap.get k.groups s.issuer = none := by
        rw [Keyhive.getAgent, if_neg hme] at ha
        split at ha
        · cases ha
        · split at ha
          · cases ha
          · rename_i hc
            rw [contains_eq_isSome] at hc
            simpa using hc
      have hind : (k.individual s.issuer).isSome = true := by
        rw [Keyhive.getAgent, if_neg hme] at ha
        split at ha
        · cases ha
        · split at ha
          · cases ha
          · split at ha
            · rename_i hi; exact hi
            · cases ha
      unfold Keyhive.applyDlg at h
      rw [hsub, hgrp, hdoc] at h
      simp only at h
      cases hi : k.individual s.issuer with
      | none => rw [hi] at hind; cases hind
      | some i =>
        rw [hi] at h
        simp only at h
        have hp := promote_fst (E := E) (k.removeIndividual s.issuer) d
        split at h
        · cases h
        · rename_i k1 g heq
          rw [heq] at hp
          simp only at hp
          cases h
          have hrem : k.removeIndividual s.issuer = { k with reg := { k.reg with indies := AMap.erase k.reg.indies s.issuer } } := by
            unfold Keyhive.removeIndividual
            rw [if_neg hme]
          rw [hp, hrem]
          refine ⟨?_, hgrp, hdoc⟩
          simp only [Keyhive.getAgent, Keyhive.storeDlg, contains_eq_isSome, hgrp, hdoc, if_neg hme, Keyhive.individual]
          simp [hme, AMap.get_erase]

example : k0.getAgent 7 = some ⟨.individual, 7⟩ ∧ k0.receive Sample.E (.dlg x7) = (feed Sample.E k0 [.dlg x7], .ok ()) ∧
    AMap.contains k0.dlgs (Sample.E.hashDlg x7) = false :=
  ⟨by decide +kernel, by decide +kernel, by decide +kernel⟩

/-! ## C54: revocations reach the group they are about -/

/-- C54 for groups and documents the device knows: a newly accepted revocation is held by the group whose delegation it revokes,
and is stored. Missing: agents known as individuals (`C54_fails`) and unknown ones (`C54_unknown_fails`). -/
theorem C54_known_group_partial {k k' : Keyhive} (hk : Reach E k) {s : SRev} {d : Dlg} (hd : AMap.get k.dlgs s.revoke = some d)
    (hg : k.getAgent d.subject = some ⟨.group, d.subject⟩ ∨ k.getAgent d.subject = some ⟨.document, d.subject⟩)
    (hnew : AMap.contains k.revs (E.hashRev s) = false) (h : k.receive E (.rev s) = (k', .ok ())) :
    ∃ r, E.srev r = s ∧ r.revoke = d ∧ AMap.get k'.revs (E.hashRev s) = some r ∧
      ∃ g, (AMap.get k'.groups d.subject = some g ∨ ∃ doc, AMap.get k'.docs d.subject = some doc ∧ doc.group = g) ∧ g.Holds (.rev r) := by
  simp only [Keyhive.receive] at h
  unfold Keyhive.receiveRevocation at h
  rw [if_neg (by simp [hnew])] at h
  split at h
  · cases h
  · split at h
    · cases h
    · rename_i r hr
      have hrd : r.revoke = d := by
        have := toRev_revoke hr
        rw [hd] at this
        exact (Option.some.inj this).symm
      have hst := toRev_static (reach_storeOk hk) hr
      have hsub : r.subject = d.subject := by rw [← hrd]; rfl
      have hholds : ∀ {N : Nested} {g g' : Group}, g.receiveRevocation E.opDigest N r = .ok g' → g'.Holds (.rev r) := by
        intro N g g' hok
        obtain ⟨_, _, rfl⟩ := receiveRevocation_ok hok
        apply Below.head
        rw [heads_rebuild]
        simp only [Group.heads, List.mem_append, List.mem_map]
        exact Or.inr ⟨r, List.mem_map.2 ⟨_, AMap.mem_of_get (AMap.get_insert_self _ _ _), rfl⟩, rfl⟩
      have hstored : ∀ k1 : Keyhive, AMap.get (k1.storeRev E r).revs (E.hashRev s) = some r := by
        intro k1
        rw [← hst, ← revDigest_eq]
        exact AMap.get_insert_self _ _ _
      unfold Keyhive.applyRev at h
      rw [hsub] at h
      split at h
      · rename_i g hgg
        split at h
        · cases h
        · rename_i g' hok
          cases h
          exact ⟨r, hst, hrd, hstored k, g', .inl (AMap.get_insert_self _ _ _), hholds hok⟩
      · split at h
        · rename_i doc hdd
          split at h
          · cases h
          · rename_i g' hok
            cases h
            exact ⟨r, hst, hrd, hstored k, g', .inr ⟨_, AMap.get_insert_self _ _ _, rfl⟩, hholds hok⟩
        · rename_i hn1 _ hn2
          exfalso
          have h1 : AMap.contains k.groups d.subject = false := by rw [contains_eq_isSome, hn1]; rfl
          have h2 : AMap.contains k.docs d.subject = false := by rw [contains_eq_isSome, hn2]; rfl
          unfold Keyhive.getAgent at hg
          rw [h1, h2] at hg
          simp only [Bool.false_eq_true, if_false] at hg
          split at hg
          · simp at hg
          · split at hg <;> simp at hg

/-- C54 fails: an agent is known as an individual while one of its delegations is stored. A revocation of that delegation is
accepted, but no group has it: the agent is not known any more. -/
theorem C54_fails : ∃ (E : Env) (k k' : Keyhive) (s : SRev) (d : Dlg), Reach E k ∧ AMap.get k.dlgs s.revoke = some d ∧
    k.getAgent d.subject = some ⟨.individual, d.subject⟩ ∧ k.receive E (.rev s) = (k', .ok ()) ∧
    AMap.contains k'.revs (E.hashRev s) = true ∧ k'.getAgent d.subject = none ∧ k'.groups = [] ∧ k'.docs = [] := by
  refine ⟨Sample.E, feed Sample.E k0 [.dlg x7, .prekey card7], feed Sample.E k0 [.dlg x7, .prekey card7, .rev r7], r7,
    .root 7 7001 ⟨.individual, 1⟩ .admin .nil [], reach_feed reach_k0, ?_, ?_, ?_, ?_, ?_, ?_, ?_⟩ <;> decide +kernel

/-- C54 fails, always, for unknown agents: the call does not return when the delegation to revoke is stored but its subject is not
known (as after `C53_fails`). -/
theorem C54_unknown_fails {k : Keyhive} {s : SRev} {d : Dlg} (hv : E.validRev s = true)
    (hd : AMap.get k.dlgs s.revoke = some d) (hp : ∀ h, s.proof = some h → ∃ p, AMap.get k.dlgs h = some p)
    (hnew : AMap.contains k.revs (E.hashRev s) = false) (ha : k.getAgent d.subject = none) :
    k.receive E (.rev s) = (k, .error .hang) := by
  have h0 : d.subject ≠ k.reg.me := by
    intro h; rw [Keyhive.getAgent, if_pos h] at ha; cases ha
  rw [Keyhive.getAgent, if_neg h0] at ha
  split at ha
  · cases ha
  · rename_i h1
    split at ha
    · cases ha
    · rename_i h2
      split at ha
      · cases ha
      · rename_i h3
        rw [contains_eq_isSome] at h1 h2
        have h1 : AMap.get k.docs d.subject = none := by simpa using h1
        have h2 : AMap.get k.groups d.subject = none := by simpa using h2
        have h3 : k.individual d.subject = none := by simpa using h3
        have hr : ∃ p, k.toRev s = .ok (.mk s.issuer s.sig d p s.content) := by
          unfold Keyhive.toRev
          rw [hd]
          cases hsp : s.proof with
          | none => exact ⟨none, rfl⟩
          | some h =>
            obtain ⟨p, hp⟩ := hp h hsp
            exact ⟨some p, by simp only [Keyhive.findProof, hp]⟩
        obtain ⟨p, hr⟩ := hr
        have hsub : (Rev.mk s.issuer s.sig d p s.content).subject = d.subject := by
          cases p <;> rfl
        simp only [Keyhive.receive, Keyhive.receiveRevocation, hnew, hv, hr, Keyhive.applyRev, hsub, h1, h2, h3]
        rfl

example : Sample.E.validRev r7 = true ∧
    AMap.get (feed Sample.E k0 [.dlg x7]).dlgs r7.revoke = some (.root 7 7001 ⟨.individual, 1⟩ .admin .nil []) ∧
    AMap.contains (feed Sample.E k0 [.dlg x7]).revs (Sample.E.hashRev r7) = false ∧ (feed Sample.E k0 [.dlg x7]).getAgent 7 = none :=
  ⟨by decide, by decide +kernel, by decide +kernel, by decide +kernel⟩

end Verif.Keyhive.Props
