import Verif.Keyhive.TransactSpec
import Verif.Keyhive.AlikeCalls
import Verif.Keyhive.TakeInLemmas
import Verif.Keyhive.SettleLemmas
import Verif.Keyhive.HeadsLemmas

/-! # Lemmas about transactions -/

namespace Verif.Keyhive

open Verif.Group Verif.Cgka Verif.BeeKem

variable {E : Env}

theorem hasOp_same {k k' : Keyhive} (hd : k'.dlgs = k.dlgs) (hr : k'.revs = k.revs) (m : SMem) : k'.HasOp E m ↔ k.HasOp E m := by
  cases m <;> simp only [Keyhive.HasOp, hd, hr]

theorem hasOp_storeDlg (hE : E.NoClash) (k : Keyhive) (d : Dlg) (m : SMem) :
    (k.storeDlg E d).HasOp E m ↔ k.HasOp E m ∨ m.event = .dlg (E.sdlg d) := by
  cases m with
  | dlg s =>
    simp only [Keyhive.HasOp, Keyhive.storeDlg, CaMap.insert, AMap.get_insert, SMem.event, Event.dlg.injEq]
    split
    · rename_i h
      rw [dlgDigest_eq] at h
      exact ⟨fun _ => .inr (hE.dlg h), fun _ => by simp⟩
    · rename_i h
      rw [dlgDigest_eq] at h
      exact ⟨.inl, fun h' => h'.elim id (fun e => absurd (by rw [e]) h)⟩
  | rev s => simp [Keyhive.HasOp, Keyhive.storeDlg, SMem.event]

theorem hasOp_storeRev (hE : E.NoClash) (k : Keyhive) (r : Rev) (m : SMem) :
    (k.storeRev E r).HasOp E m ↔ k.HasOp E m ∨ m.event = .rev (E.srev r) := by
  cases m with
  | rev s =>
    simp only [Keyhive.HasOp, Keyhive.storeRev, CaMap.insert, AMap.get_insert, SMem.event, Event.rev.injEq]
    split
    · rename_i h
      rw [revDigest_eq] at h
      exact ⟨fun _ => .inr (hE.rev h), fun _ => by simp⟩
    · rename_i h
      rw [revDigest_eq] at h
      exact ⟨.inl, fun h' => h'.elim id (fun e => absurd (by rw [e]) h)⟩
  | dlg s => simp [Keyhive.HasOp, Keyhive.storeRev, SMem.event]

theorem hasOp_storeDlgs (hE : E.NoClash) (m : SMem) : ∀ (ds : List Dlg) (k : Keyhive),
    (ds.foldl (Keyhive.storeDlg E) k).HasOp E m ↔ k.HasOp E m ∨ m.event ∈ E.dlgEvents ds
  | [], k => by simp [Env.dlgEvents]
  | d :: ds, k => by
    rw [List.foldl_cons, hasOp_storeDlgs hE m ds, hasOp_storeDlg hE]
    simp only [Env.dlgEvents, List.map_cons, List.mem_cons, or_assoc]

theorem hasOp_storeRevs (hE : E.NoClash) (m : SMem) : ∀ (rs : List Rev) (k : Keyhive),
    (rs.foldl (Keyhive.storeRev E) k).HasOp E m ↔ k.HasOp E m ∨ m.event ∈ E.revEvents rs
  | [], k => by simp [Env.revEvents]
  | r :: rs, k => by
    rw [List.foldl_cons, hasOp_storeRevs hE m rs, hasOp_storeRev hE]
    simp only [Env.revEvents, List.map_cons, List.mem_cons, or_assoc]

theorem hasOp_storeAll (hE : E.NoClash) (m : SMem) (rs : List Rev) (ds : List Dlg) (k : Keyhive) :
    (k.storeAll E rs ds).HasOp E m ↔ k.HasOp E m ∨ m.event ∈ E.revEvents rs ++ E.dlgEvents ds := by
  unfold Keyhive.storeAll
  rw [hasOp_storeDlgs hE, hasOp_storeRevs hE, List.mem_append, or_assoc]

theorem event_not_cgka (m : SMem) (did : Id) (ops : List SOp) : ¬ m.event ∈ ops.map (Event.cgka did) := by
  cases m <;> simp [SMem.event]

theorem event_not_adds {L : Local} {gid : Id} {who : Agent} (m : SMem) : ∀ (dids : List Id) (k : Keyhive),
    ¬ m.event ∈ k.addsLog E L gid who dids
  | [], k => by simp [Keyhive.addsLog]
  | did :: dids, k => by
    unfold Keyhive.addsLog
    split
    · simp
    · rw [List.mem_append]
      exact fun h => h.elim (event_not_cgka m did _) (event_not_adds m dids _)

theorem event_not_removes {L : Local} {gid : Id} {ids : List Id} (m : SMem) : ∀ (dids : List Id) (k : Keyhive),
    ¬ m.event ∈ k.removesLog E L gid ids dids
  | [], k => by simp [Keyhive.removesLog]
  | did :: dids, k => by
    unfold Keyhive.removesLog
    split
    · simp
    · rw [List.mem_append]
      exact fun h => h.elim (event_not_cgka m did _) (event_not_removes m dids _)

/-- A call of the device's own puts into the stores what it reports. -/
theorem own_has (hE : E.NoClash) {c : Call} (hc : c.Own) (k : Keyhive) (m : SMem) :
    (c.run E k).HasOp E m ↔ k.HasOp E m ∨ m.event ∈ c.log E k := by
  have same : ∀ {k' : Keyhive} {l : List Event}, k'.dlgs = k.dlgs → k'.revs = k.revs → ¬ m.event ∈ l →
      (k'.HasOp E m ↔ k.HasOp E m ∨ m.event ∈ l) := by
    intro k' l hd hr hl
    rw [hasOp_same hd hr]
    exact ⟨.inl, fun h => h.elim id (fun h => absurd h hl)⟩
  have more : ∀ {k1 k' : Keyhive} {l l' : List Event}, k'.dlgs = k1.dlgs → k'.revs = k1.revs →
      (k1.HasOp E m ↔ k.HasOp E m ∨ m.event ∈ l) → ¬ m.event ∈ l' → (k'.HasOp E m ↔ k.HasOp E m ∨ m.event ∈ l ++ l') := by
    intro k1 k' l l' hd hr h hl
    rw [hasOp_same hd hr, h, List.mem_append]
    exact ⟨fun h => h.imp id .inl, fun h => h.imp id (fun h => h.elim id (fun h => absurd h hl))⟩
  have one : ∀ d : Dlg, (k.storeDlg E d).HasOp E m ↔ k.HasOp E m ∨ m.event ∈ E.dlgEvents [d] := by
    intro d
    rw [hasOp_storeDlg hE]; simp [Env.dlgEvents]
  cases c with
  | receive e => exact hc.elim
  | ingest ord es => exact hc.elim
  | ingestArchive ord a => exact hc.elim
  | contactCard op =>
    refine same rfl rfl ?_
    simp only [Call.log]
    split
    · simp
    · cases m <;> simp [SMem.event]
  | newGroup S gid co =>
    show (k.generateGroup E S gid co).1.HasOp E m ↔ k.HasOp E m ∨ m.event ∈ Keyhive.generateGroupLog E S gid k co
    unfold Keyhive.generateGroup Keyhive.generateGroupLog
    cases Group.generate E.opDigest S gid (⟨.active, k.reg.me⟩ :: co) [] with
    | error e => simp
    | ok g =>
      dsimp only
      rw [← hasOp_storeDlgs hE]
      exact hasOp_same rfl rfl m
  | newDoc L S did co heads =>
    show (k.generateDoc E L S did co heads).1.HasOp E m ↔ k.HasOp E m ∨ m.event ∈ Keyhive.generateDocLog E L S did k co heads
    unfold Keyhive.generateDoc Keyhive.generateDocLog
    cases Group.generate E.opDigest S did (⟨.active, k.reg.me⟩ :: co) [(did, heads)] with
    | error e => simp
    | ok g =>
      dsimp only
      cases transitiveMembers ((AMap.values g.dlgHeads).foldl (Keyhive.storeDlg E) k).world [] g with
      | error e => exact more rfl rfl (hasOp_storeDlgs hE m _ k) (by simp)
      | ok ms =>
        dsimp only
        cases Keyhive.pickForGroup E L ((AMap.values g.dlgHeads).foldl (Keyhive.storeDlg E) k) did ms [] with
        | error e => exact more rfl rfl (hasOp_storeDlgs hE m _ k) (by simp)
        | ok prekeys =>
          dsimp only
          split
          · exact more rfl rfl (hasOp_storeDlgs hE m _ k) (event_not_cgka m _ _)
          · exact more rfl rfl (hasOp_storeDlgs hE m _ k) (event_not_cgka m _ _)
  | addToGroup L gid who can content =>
    show (k.addMemberToGroup E L gid who can content).1.HasOp E m ↔ k.HasOp E m ∨ m.event ∈ k.addToGroupLog E L gid who can content
    unfold Keyhive.addMemberToGroup Keyhive.addToGroupLog
    cases AMap.get k.groups gid with
    | none => simp
    | some g =>
      dsimp only
      cases g.addMember E.opDigest (membersOf k.world [gid]) L.sign who can k.reg.me content with
      | error e => simp
      | ok p =>
        obtain ⟨g', d⟩ := p
        dsimp only
        generalize hk1 : ({ k.storeDlg E d with groups := AMap.insert k.groups gid g' } : Keyhive) = k1
        generalize AMap.keys (k.storeDlg E d).docs = dids
        have hst := propagateAdds_stores (E := E) (L := L) (gid := gid) (who := d.delegate) dids k1 []
        have hno := event_not_adds (E := E) (L := L) (gid := gid) (who := d.delegate) m dids k1
        cases can.isReader with
        | false => exact more (by rw [← hk1]; rfl) (by rw [← hk1]; rfl) (one d) (by simp)
        | true =>
          simp only [if_true]
          revert hst
          generalize Keyhive.propagateAdds E L gid d.delegate k1 dids [] = r
          obtain ⟨k2, res⟩ := r
          intro hst
          have h1 : k2.dlgs = (k.storeDlg E d).dlgs := hst.1.trans (by rw [← hk1])
          have h2 : k2.revs = (k.storeDlg E d).revs := hst.2.trans (by rw [← hk1])
          cases res with
          | error e => exact more h1 h2 (one d) (by simp)
          | ok ops => exact more h1 h2 (one d) hno
  | addToDoc L did who can content =>
    show (k.addMemberToDoc E L did who can content).1.HasOp E m ↔ k.HasOp E m ∨ m.event ∈ k.addToDocLog E L did who can content
    have key : ∀ {d : Dlg} {l : List Event}, (k.addMemberToDoc E L did who can content).1.dlgs = (k.storeDlg E d).dlgs →
        (k.addMemberToDoc E L did who can content).1.revs = (k.storeDlg E d).revs → ¬ m.event ∈ l →
        ((k.addMemberToDoc E L did who can content).1.HasOp E m ↔ k.HasOp E m ∨ m.event ∈ E.dlgEvents [d] ++ l) :=
      fun hd hr hl => more hd hr (one _) hl
    unfold Keyhive.addToDocLog
    split
    · rename_i hd
      refine same ?_ ?_ (by simp) <;> (unfold Keyhive.addMemberToDoc; rw [hd])
    · rename_i doc hd
      split
      · rename_i e he
        refine same ?_ ?_ (by simp) <;> (unfold Keyhive.addMemberToDoc; rw [hd]; dsimp only; rw [he])
      · rename_i g' d he
        refine key ?_ ?_ ?_
        · unfold Keyhive.addMemberToDoc; rw [hd]; dsimp only; rw [he]; dsimp only
          repeat' split
          all_goals rfl
        · unfold Keyhive.addMemberToDoc; rw [hd]; dsimp only; rw [he]; dsimp only
          repeat' split
          all_goals rfl
        · split
          · simp
          · exact event_not_cgka m _ _
  | revokeFromGroup L gid member retain content =>
    show (k.revokeFromGroup E L gid member retain content).1.HasOp E m ↔
      k.HasOp E m ∨ m.event ∈ k.revokeFromGroupLog E L gid member retain content
    unfold Keyhive.revokeFromGroup Keyhive.revokeFromGroupLog
    cases AMap.get k.groups gid with
    | none => simp
    | some g =>
      dsimp only
      cases idsBehind k.world [] (((AMap.get g.members member).getD []).map Dlg.delegate) [] with
      | error e => simp
      | ok ids =>
        dsimp only
        generalize g.revokeMember E.opDigest (membersOf k.world [gid]) L.sign member retain k.reg.me content = r
        obtain ⟨g', res⟩ := r
        cases res with
        | error e => exact more rfl rfl (hasOp_storeAll hE m _ _ k) (by simp)
        | ok p =>
          obtain ⟨revs, dlgs⟩ := p
          have h0 : (k.storeAll E revs dlgs).HasOp E m ↔ k.HasOp E m ∨ m.event ∈ Keyhive.revokeLog E g (g', .ok (revs, dlgs)) := by
            rw [hasOp_storeAll hE]
            simp only [Keyhive.revokeLog, List.mem_append, or_self]
          dsimp only
          split
          · exact more rfl rfl h0 (by simp)
          · generalize hk1 : ({ k.storeAll E revs dlgs with groups := AMap.insert k.groups gid g' } : Keyhive) = k1
            generalize AMap.keys (k.storeAll E revs dlgs).docs = dids
            have hst := propagateRemoves_stores (E := E) (L := L) (gid := gid) (ids := ids) dids k1 []
            refine more (hst.1.trans (by rw [← hk1])) (hst.2.trans (by rw [← hk1])) h0 ?_
            split
            · simp
            · exact event_not_removes m _ _
  | revokeFromDoc L did member retain content =>
    show (k.revokeFromDoc E L did member retain content).1.HasOp E m ↔
      k.HasOp E m ∨ m.event ∈ k.revokeFromDocLog E L did member retain content
    have hl : ∀ x : Except Err (List SOp), ¬ m.event ∈ (match x with | .error _ => [] | .ok ops => ops.map (Event.cgka did)) := by
      intro x
      cases x
      · simp
      · exact event_not_cgka m _ _
    unfold Keyhive.revokeFromDocLog
    generalize hq : (k.revokeFromDoc E L did member retain content).2 = q
    clear hq
    unfold Keyhive.revokeFromDoc
    cases AMap.get k.docs did with
    | none => simp
    | some doc =>
      dsimp only
      cases idsBehind k.world [did] (((AMap.get doc.group.members member).getD []).map Dlg.delegate) [] with
      | error e => simp
      | ok ids =>
        dsimp only
        generalize doc.group.revokeMember E.opDigest (membersOf k.world [did]) L.sign member retain k.reg.me content = r
        obtain ⟨g', res⟩ := r
        cases res with
        | error e => exact more rfl rfl (hasOp_storeAll hE m _ _ k) (hl q)
        | ok p =>
          obtain ⟨revs, dlgs⟩ := p
          have h0 : (k.storeAll E revs dlgs).HasOp E m ↔ k.HasOp E m ∨ m.event ∈ Keyhive.revokeLog E doc.group (g', .ok (revs, dlgs)) := by
            rw [hasOp_storeAll hE]
            simp only [Keyhive.revokeLog, List.mem_append, or_self]
          dsimp only
          split
          · exact more rfl rfl h0 (hl q)
          · split <;> exact more rfl rfl h0 (hl q)
  | encrypt L did r p x =>
    refine same ?_ ?_ ?_
    · show (k.encryptContent E L did r p x).1.dlgs = _
      unfold Keyhive.encryptContent; split <;> rfl
    · show (k.encryptContent E L did r p x).1.revs = _
      unfold Keyhive.encryptContent; split <;> rfl
    · simp only [Call.log]
      split
      · cases m <;> simp [SMem.event]
      · simp
  | decrypt did e =>
    refine same ?_ ?_ (by simp [Call.log])
    · show (k.decryptContent E did e).1.dlgs = _
      unfold Keyhive.decryptContent; split <;> rfl
    · show (k.decryptContent E did e).1.revs = _
      unfold Keyhive.decryptContent; split <;> rfl
  | pcsUpdate L did =>
    refine same ?_ ?_ ?_
    · show (k.forcePcsUpdate E L did).1.dlgs = _
      unfold Keyhive.forcePcsUpdate; split <;> rfl
    · show (k.forcePcsUpdate E L did).1.revs = _
      unfold Keyhive.forcePcsUpdate; split <;> rfl
    · simp only [Call.log]
      split
      · simp
      · cases m <;> simp [SMem.event]

theorem runLogged_fst : ∀ (calls : List Call) (f : Keyhive), (Keyhive.runLogged E f calls).1 = f.afterCalls E calls
  | [], _ => rfl
  | c :: cs, f => runLogged_fst cs (c.run E f)

/-- The fork has after the calls what it had before, and what was reported. -/
theorem runLogged_spec (hE : E.NoClash) (m : SMem) : ∀ (calls : List Call) (f : Keyhive), (∀ c ∈ calls, c.Own) →
    (Keyhive.runLogged E f calls).1 = f.afterCalls E calls ∧
    ((f.afterCalls E calls).HasOp E m ↔ f.HasOp E m ∨ m.event ∈ (Keyhive.runLogged E f calls).2)
  | [], f, _ => ⟨rfl, by simp [Keyhive.afterCalls, Keyhive.runLogged]⟩
  | c :: cs, f, h => by
    obtain ⟨h1, h2⟩ := runLogged_spec hE m cs (c.run E f) (fun x hx => h x (.tail _ hx))
    refine ⟨h1, ?_⟩
    show ((c.run E f).afterCalls E cs).HasOp E m ↔ _ ∨ m.event ∈ c.log E f ++ _
    rw [h2, own_has hE (h c (.head _)), List.mem_append, or_assoc]

/-- What a device has after it has received the reported events. -/
theorem replayLog_has (hE : E.NoClash) (m : SMem) : ∀ (es : List Event) {k k' : Keyhive}, StoreOk E k →
    k.replayLog E es = (k', .ok ()) → (k'.HasOp E m ↔ k.HasOp E m ∨ m.event ∈ es)
  | [], k, k', _, h => by
    cases h
    simp
  | e :: es, k, k', hs, h => by
    have pre : ∀ op, e = .prekey op → m.event ≠ e := by
      rintro op rfl
      cases m <;> simp [SMem.event]
    have rec' : k.replayLog E (e :: es) = (k', .ok ()) → (∀ op, e ≠ .prekey op) → (k'.HasOp E m ↔ k.HasOp E m ∨ m.event ∈ e :: es) := by
      intro h hp
      have hun : k.replayLog E (e :: es) = (match k.receive E e with
        | (k', .error err) => (k', .error (if err.fatal then err else .panic))
        | (k', .ok ()) => Keyhive.replayLog E k' es) := by
        cases e with
        | prekey op => exact absurd rfl (hp op)
        | cgka => rfl
        | dlg => rfl
        | rev => rfl
      rw [hun] at h
      split at h
      · cases h
      · rename_i k1 heq
        have hs1 : StoreOk E k1 := by have := storeOk_receive hs e; rw [heq] at this; exact this
        have hg : Grown k k1 := by have := grown_receive hs e; rw [heq] at this; exact this
        rw [replayLog_has hE m es hs1 h, List.mem_cons]
        constructor
        · rintro (h1 | h1)
          · rcases receive_has_back hE hs e (m := m) (by rw [heq]; exact h1) with h2 | h2
            · exact .inl h2
            · exact .inr (.inl h2)
          · exact .inr (.inr h1)
        · rintro (h1 | h1 | h1)
          · exact .inl (hg.hasOp h1)
          · refine .inl (handled_has hs (o := m) ?_)
            rw [h1]
            refine ⟨k, .refl, by rw [heq], ?_⟩
            rw [heq]
            exact .refl
          · exact .inr h1
    cases e with
    | prekey op =>
      rw [List.mem_cons]
      have : k.replayLog E es = (k', .ok ()) := h
      rw [replayLog_has hE m es hs this]
      exact ⟨fun h => h.imp id .inr, fun h => h.imp id (fun h => h.resolve_left (pre op rfl))⟩
    | cgka i op => exact rec' h (by simp)
    | dlg s => exact rec' h (by simp)
    | rev s => exact rec' h (by simp)

/-- No call takes a membership operation out of the stores. -/
theorem run_has (hE : E.NoClash) {k : Keyhive} (hs : StoreOk E k) (c : Call) {m : SMem} (hm : k.HasOp E m) : (c.run E k).HasOp E m := by
  have step : ∀ k1 e, (StoreOk E k1 ∧ Grown k k1) → StoreOk E (k1.receive E e).1 ∧ Grown k (k1.receive E e).1 :=
    fun k1 e h => ⟨storeOk_receive h.1 e, h.2.trans (grown_receive h.1 e)⟩
  have pend : ∀ (k1 : Keyhive) p, (StoreOk E k1 ∧ Grown k k1) → StoreOk E { k1 with pending := p } ∧ Grown k { k1 with pending := p } :=
    fun k1 p h => ⟨h.1.same rfl rfl, h.2.same rfl rfl⟩
  cases c with
  | receive e => exact (grown_receive hs e).hasOp hm
  | ingest ord es =>
    exact (ingest_keeps (P := fun k1 => StoreOk E k1 ∧ Grown k k1) step pend ord es ⟨hs, .rfl' k⟩).2.hasOp hm
  | ingestArchive ord a =>
    exact (ingestArchive_keeps (P := fun k1 => StoreOk E k1 ∧ Grown k k1) step pend
      (fun h h1 => ⟨h1.1.same h.dlgs h.revs, h1.2.same h.dlgs h.revs⟩) ord a ⟨hs, .rfl' k⟩).2.hasOp hm
  | contactCard op => exact (own_has hE (c := .contactCard op) trivial k m).2 (.inl hm)
  | newGroup S gid co => exact (own_has hE (c := .newGroup S gid co) trivial k m).2 (.inl hm)
  | newDoc L S did co hs => exact (own_has hE (c := .newDoc L S did co hs) trivial k m).2 (.inl hm)
  | addToGroup L gid who can x => exact (own_has hE (c := .addToGroup L gid who can x) trivial k m).2 (.inl hm)
  | addToDoc L did who can x => exact (own_has hE (c := .addToDoc L did who can x) trivial k m).2 (.inl hm)
  | revokeFromGroup L gid w r x => exact (own_has hE (c := .revokeFromGroup L gid w r x) trivial k m).2 (.inl hm)
  | revokeFromDoc L did w r x => exact (own_has hE (c := .revokeFromDoc L did w r x) trivial k m).2 (.inl hm)
  | encrypt L did r p x => exact (own_has hE (c := .encrypt L did r p x) trivial k m).2 (.inl hm)
  | decrypt did e => exact (own_has hE (c := .decrypt did e) trivial k m).2 (.inl hm)
  | pcsUpdate L did => exact (own_has hE (c := .pcsUpdate L did) trivial k m).2 (.inl hm)

theorem afterCalls_has (hE : E.NoClash) {m : SMem} : ∀ (calls : List Call) {k : Keyhive}, Reach E k → (∀ c ∈ calls, c.Honest E) →
    Reach E (k.afterCalls E calls) ∧ (k.HasOp E m → (k.afterCalls E calls).HasOp E m)
  | [], _, hk, _ => ⟨hk, fun h => h⟩
  | c :: cs, _, hk, h => by
    obtain ⟨h1, h2⟩ := afterCalls_has hE (m := m) cs (hk.call c (h c (.head _))) (fun x hx => h x (.tail _ hx))
    exact ⟨h1, fun hm => h2 (run_has hE (reach_storeOk hk) c hm)⟩

/-- The fork of a device whose archive can be loaded. -/
theorem fork_twins {k : Keyhive} (h : Reach E k) (hc : NoClash E.opDigest k.heads) (ha : Acyclic k.heads)
    (hr : ∀ d ∈ AMap.values k.dlgs, KnownAs k d.delegate) (hu : k.unlisted = false) : ∃ f, k.fork E = .ok f ∧ Twins k f := by
  obtain ⟨f, h1, h2, h3, h4, h5, h6, h7, h8, h9⟩ := round_trip h hc ha hr
  refine ⟨f, by unfold Keyhive.fork; rw [h1], ⟨h6, h7.trans hu.symm, h8, h9, h2, h3, ?_, ?_⟩, (reach_stocked h).wfr, load_wf h1⟩
  · rw [h4, List.map_map]; rfl
  · rw [h5, List.map_map]; rfl

theorem Twins.has {k k' : Keyhive} (h : Twins k k') (m : SMem) : k'.HasOp E m ↔ k.HasOp E m := by
  cases m <;> simp only [Keyhive.HasOp, h.alike.dlgs, h.alike.revs]

/-- Receiving what a fork reported is receiving events. -/
theorem replayLog_fed : ∀ (es : List Event) {k k' : Keyhive}, k.replayLog E es = (k', .ok ()) → Fed E k k'
  | [], k, k', h => by cases h; exact .refl
  | e :: es, k, k', h => by
    cases e with
    | prekey op => exact replayLog_fed es (k := k) h
    | _ =>
      simp only [Keyhive.replayLog] at h
      split at h
      · cases h
      · rename_i k1 heq
        refine Fed.trans ?_ (replayLog_fed es h)
        rw [show k1 = (k.receive E _).1 from (congrArg Prod.fst heq).symm]
        exact .step _ .refl

end Verif.Keyhive
