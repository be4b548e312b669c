import Verif.Keyhive.IngestLemmas

/-! # What failing events change

An event that fails, with the call returning, leaves the groups, the revocations and the members of documents alone and adds no
individual. So a delegation or revocation that failed keeps failing while only failing events are received. -/

namespace Verif.Keyhive

open Verif.Group Verif.Cgka Verif.BeeKem

variable {E : Env}

/-- The second device knows the same groups, documents, delegations and revocations as the first, and no more individuals. -/
structure Fade (k k' : Keyhive) : Prop where
  me : k'.reg.me = k.reg.me
  groups : k'.groups = k.groups
  docs : k'.docs.map (fun p => (p.1, p.2.group)) = k.docs.map (fun p => (p.1, p.2.group))
  indies : ∀ i, (k'.individual i).isSome = true → (k.individual i).isSome = true
  dlgs : ∀ h, AMap.get k'.dlgs h = AMap.get k.dlgs h
  revs : k'.revs = k.revs

theorem Fade.rfl' (k : Keyhive) : Fade k k := ⟨rfl, rfl, rfl, fun _ h => h, fun _ => rfl, rfl⟩

theorem Fade.trans {k k1 k2 : Keyhive} (h : Fade k k1) (h' : Fade k1 k2) : Fade k k2 :=
  ⟨h'.me.trans h.me, h'.groups.trans h.groups, h'.docs.trans h.docs, fun i hi => h.indies i (h'.indies i hi),
    fun x => (h'.dlgs x).trans (h.dlgs x), h'.revs.trans h.revs⟩

theorem Fade.pend {k k' : Keyhive} (h : Fade k k') (p : List Event) : Fade k { k' with pending := p } :=
  ⟨h.me, h.groups, h.docs, h.indies, h.dlgs, h.revs⟩

theorem Fade.world {k k' : Keyhive} (h : Fade k k') : k'.world = k.world := by
  unfold Keyhive.world
  rw [h.groups, h.docs]

theorem get_map_group : ∀ (m : AMap Id Doc) (i : Id),
    AMap.get (m.map (fun p => (p.1, p.2.group)) : AMap Id Group) i = (AMap.get m i).map Doc.group
  | [], i => rfl
  | (x, v) :: m, i => by
    rw [List.map_cons, AMap.get_cons, AMap.get_cons, get_map_group m i]
    split <;> rfl

theorem Fade.doc {k k' : Keyhive} (h : Fade k k') (i : Id) :
    (AMap.get k'.docs i).map Doc.group = (AMap.get k.docs i).map Doc.group := by
  rw [← get_map_group, ← get_map_group, h.docs]

theorem contains_eq_isSome {α β : Type} [DecidableEq α] (m : AMap α β) (a : α) : AMap.contains m a = (AMap.get m a).isSome := by
  cases hg : AMap.get m a with
  | none =>
    cases hc : AMap.contains m a with
    | false => rfl
    | true => exact absurd hg ((AMap.mem_keys_iff m a).1 ((AMap.contains_iff m a).1 hc))
  | some v => exact (AMap.contains_iff m a).2 ((AMap.mem_keys_iff m a).2 (by rw [hg]; simp))

theorem Fade.getAgent {k k' : Keyhive} (h : Fade k k') (i : Id) :
    k'.getAgent i = none ∨ k'.getAgent i = k.getAgent i := by
  have hd := h.doc i
  have hc : AMap.contains k'.docs i = AMap.contains k.docs i := by
    rw [contains_eq_isSome, contains_eq_isSome, ← Option.isSome_map (f := Doc.group), hd, Option.isSome_map]
  unfold Keyhive.getAgent
  rw [h.me, h.groups, hc]
  split
  · exact .inr rfl
  · split
    · exact .inr rfl
    · split
      · exact .inr rfl
      · split
        · rename_i hs
          rw [if_pos (h.indies i hs)]
          exact .inr rfl
        · exact .inl rfl

theorem Fade.findProof {k k' : Keyhive} (h : Fade k k') (x : Option Nat) : k'.findProof x = k.findProof x := by
  cases x with
  | none => rfl
  | some n => simp only [Keyhive.findProof, h.dlgs]

theorem Fade.findRevs {k k' : Keyhive} (h : Fade k k') : ∀ x : List Nat, k'.findRevs x = k.findRevs x
  | [] => rfl
  | n :: x => by simp only [Keyhive.findRevs, h.revs, h.findRevs x]

theorem Fade.toDlg {k k' : Keyhive} (h : Fade k k') (s : SDlg) :
    (∃ e, k'.toDlg s = .error e) ∨ k'.toDlg s = k.toDlg s := by
  unfold Keyhive.toDlg
  rw [h.findProof]
  split
  · exact .inl ⟨_, rfl⟩
  · rcases h.getAgent s.delegate with ha | ha
    · rw [ha]; exact .inl ⟨_, rfl⟩
    · rw [ha]
      split
      · exact .inl ⟨_, rfl⟩
      · rw [h.findRevs]
        exact .inr rfl

theorem Fade.toRev {k k' : Keyhive} (h : Fade k k') (s : SRev) : k'.toRev s = k.toRev s := by
  unfold Keyhive.toRev
  rw [h.dlgs]
  split
  · rfl
  · rw [h.findProof]

/-- Removing an individual and storing a delegation again. -/
theorem fade_drop {k : Keyhive} {h : Nat} {d : Dlg} (i : Id) (hd : AMap.get k.dlgs h = some d) (hh : E.dlgDigest d = h) :
    Fade k ((k.removeIndividual i).storeDlg E d) := by
  have hget : ∀ x, AMap.get ((CaMap.insert E.dlgDigest k.dlgs d).1) x = AMap.get k.dlgs x := by
    intro x
    rw [CaMap.insert, AMap.get_insert]
    split
    · rename_i hx
      rw [hx, hh, hd]
    · rfl
  unfold Keyhive.removeIndividual
  split
  · rename_i hi
    refine ⟨rfl, rfl, rfl, fun j hj => ?_, hget, rfl⟩
    simp only [Keyhive.individual, Keyhive.storeDlg] at hj ⊢
    split at hj
    · simp at hj
    · rename_i hn
      rw [if_neg]
      · exact hj
      · rintro ⟨h1, _⟩
        exact hn ⟨h1, trivial⟩
  · refine ⟨rfl, rfl, rfl, fun j hj => ?_, hget, rfl⟩
    simp only [Keyhive.individual, Keyhive.storeDlg, AMap.get_erase] at hj ⊢
    split at hj
    · simp at hj
    · rename_i hn
      rw [if_neg hn]
      split at hj
      · simp at hj
      · exact hj

/-- A delegation that fails, with the call returning, changes nothing. -/
theorem dlg_fails_same {k k' : Keyhive} {s : SDlg} {e : Err} (h : k.receiveDelegation E s = (k', .error e)) (hf : e.fatal = false) :
    k' = k := by
  unfold Keyhive.receiveDelegation at h
  split at h
  · cases h
  · split at h
    · cases h; rfl
    · split at h
      · cases h; rfl
      · rename_i d _
        unfold Keyhive.applyDlg at h
        split at h
        · split at h
          · cases h; rfl
          · cases h
        · split at h
          · split at h
            · cases h; rfl
            · cases h
          · split at h
            · split at h
              · rename_i heq
                cases h
                unfold Keyhive.promote at heq
                simp only at heq
                split at heq
                · cases heq
                · cases heq
                  split at hf <;> cases hf
              · cases h
            · cases h

theorem rev_fails_fade {k k' : Keyhive} (hs : StoreOk E k) {s : SRev} {e : Err} (h : k.receiveRevocation E s = (k', .error e))
    (hf : e.fatal = false) : Fade k k' := by
  unfold Keyhive.receiveRevocation at h
  split at h
  · cases h
  · split at h
    · cases h; exact .rfl' k
    · split at h
      · cases h; exact .rfl' k
      · rename_i r hr
        have hd := toRev_revoke hr
        unfold Keyhive.applyRev at h
        split at h
        · split at h
          · cases h; exact .rfl' k
          · cases h
        · split at h
          · split at h
            · cases h; exact .rfl' k
            · cases h
          · split at h
            · have hp := promote_fst (E := E) (k.removeIndividual r.subject) r.revoke
              split at h
              · rename_i heq
                cases h
                unfold Keyhive.promote at heq
                simp only at heq
                split at heq
                · cases heq
                · cases heq
                  split at hf <;> cases hf
              · rename_i k1 g heq
                rw [heq] at hp
                simp only at hp
                split at h
                · cases h
                  rw [hp]
                  exact fade_drop _ hd (hs.dlg _ _ hd).1
                · cases h
            · cases h
              cases hf

theorem setDoc_fade {k : Keyhive} {id : Id} {d d' : Doc} (hd : AMap.get k.docs id = some d) (hg : d'.group = d.group) :
    Fade k (k.setDoc id d') := by
  refine ⟨rfl, rfl, ?_, fun _ h => h, fun _ => rfl, rfl⟩
  refine map_replace (fun p => (p.1, p.2.group)) id d' k.docs (fun d0 h0 => ?_)
  rw [hd] at h0
  cases h0
  rw [hg]

theorem mergeCgkaOp_group (H : SOp → Nat) (d : Doc) (op : SOp) : (d.mergeCgkaOp H op).1.group = d.group := by
  unfold Doc.mergeCgkaOp
  split
  · rfl
  · split
    · split
      · rfl
      · split <;> rfl
    · rfl

theorem mergeCgkaInviteOp_group (H : SOp → Nat) (d : Doc) (op : SOp) (sk : Sk) : (d.mergeCgkaInviteOp H op sk).1.group = d.group := by
  unfold Doc.mergeCgkaInviteOp
  split
  · split
    · rfl
    · split
      · rfl
      · rw [mergeCgkaOp_group]
  · rfl

theorem resetCgkaOwner_group (d : Doc) (i : Id) : (d.resetCgkaOwner i).1.group = d.group := by
  unfold Doc.resetCgkaOwner
  split <;> rfl

theorem cgka_fade (k : Keyhive) (id : Id) (op : SOp) : Fade k (k.receiveCgkaOp E id op).1 := by
  unfold Keyhive.receiveCgkaOp
  split
  · exact .rfl' k
  · split
    · exact .rfl' k
    · rename_i d hd
      split
      · split
        · split
          · exact .rfl' k
          · exact setDoc_fade hd (mergeCgkaInviteOp_group ..)
        · split
          · unfold Keyhive.mergePublicInvite
            have hg := mergeCgkaInviteOp_group (E.hashCgka id) d op publicSk
            split
            · rename_i heq
              rw [heq] at hg
              exact setDoc_fade hd hg
            · rename_i heq
              rw [heq] at hg
              exact setDoc_fade hd ((resetCgkaOwner_group ..).trans hg)
          · exact setDoc_fade hd (mergeCgkaOp_group ..)
      · exact setDoc_fade hd (mergeCgkaOp_group ..)

theorem fails_fade {k k' : Keyhive} (hs : StoreOk E k) {e : Event} {err : Err} (h : k.receive E e = (k', .error err))
    (hf : err.fatal = false) (hp : err.isPrekey = false) : Fade k k' := by
  cases e with
  | prekey op =>
    have : (k.receive E (.prekey op)).2 = .error err := by rw [h]
    simp only [Keyhive.receive, Keyhive.receivePrekeyOp] at this
    split at this
    · cases this; cases hp
    · cases this
  | cgka doc op =>
    have := cgka_fade (E := E) k doc op
    rw [show k.receiveCgkaOp E doc op = k.receive E (.cgka doc op) from rfl, h] at this
    exact this
  | dlg s =>
    have := dlg_fails_same (E := E) h hf
    subst this
    exact .rfl' _
  | rev s => exact rev_fails_fade hs h hf

/-- Events about members. -/
def Event.isMembership : Event → Bool
  | .dlg _ => true
  | .rev _ => true
  | _ => false

theorem promote_snd {k k' : Keyhive} (hr : k'.revs = k.revs) (d : Dlg) : (k'.promote E d).2 = (k.promote E d).2 := by
  unfold Keyhive.promote
  simp only [Keyhive.storeDlg, hr]
  split <;> rfl

theorem removeIndividual_revs (k : Keyhive) (i : Id) : (k.removeIndividual i).revs = k.revs := by
  unfold Keyhive.removeIndividual
  split <;> rfl

theorem removeIndividual_world (k : Keyhive) (i : Id) : (k.removeIndividual i).world = k.world := by
  unfold Keyhive.removeIndividual Keyhive.world
  split <;> rfl

theorem dlg_still_fails {k k' : Keyhive} (hk : Fade k k') {s : SDlg} {e : Err} (h : (k.receiveDelegation E s).2 = .error e)
    (hf : e.fatal = false) : ∃ e', (k'.receiveDelegation E s).2 = .error e' := by
  unfold Keyhive.receiveDelegation at h ⊢
  rw [contains_eq_isSome, hk.dlgs, ← contains_eq_isSome]
  split at h
  · cases h
  · rename_i hc
    rw [if_neg hc]
    split at h
    · rename_i hv
      rw [if_pos hv]
      exact ⟨_, rfl⟩
    · rename_i hv
      rw [if_neg hv]
      rcases hk.toDlg s with ⟨e', he⟩ | he
      · rw [he]; exact ⟨_, rfl⟩
      · rw [he]
        split at h
        · exact ⟨_, rfl⟩
        · rename_i d hd
          unfold Keyhive.applyDlg at h ⊢
          rw [hk.groups, hk.world]
          split at h
          · split at h
            · exact ⟨_, rfl⟩
            · cases h
          · have hdoc := hk.doc d.subject
            split at h
            · rename_i doc hdo
              rw [hdo] at hdoc
              cases hdo' : AMap.get k'.docs d.subject with
              | none => rw [hdo'] at hdoc; cases hdoc
              | some doc' =>
                rw [hdo'] at hdoc
                simp only [Option.map_some, Option.some.injEq] at hdoc
                simp only [hdoc]
                split at h
                · exact ⟨_, rfl⟩
                · cases h
            · split at h
              · split at h
                · rename_i heq
                  cases h
                  unfold Keyhive.promote at heq
                  simp only at heq
                  split at heq
                  · cases heq
                  · cases heq
                    split at hf <;> cases hf
                · cases h
              · cases h

theorem rev_still_fails {k k' : Keyhive} (hk : Fade k k') {s : SRev} {e : Err} (h : (k.receiveRevocation E s).2 = .error e)
    : ∃ e', (k'.receiveRevocation E s).2 = .error e' := by
  unfold Keyhive.receiveRevocation at h ⊢
  rw [hk.revs, hk.toRev]
  split at h
  · cases h
  · rename_i hc
    rw [if_neg hc]
    split at h
    · rename_i hv
      rw [if_pos hv]
      exact ⟨_, rfl⟩
    · rename_i hv
      rw [if_neg hv]
      split at h
      · exact ⟨_, rfl⟩
      · rename_i r hr
        unfold Keyhive.applyRev at h ⊢
        rw [hk.groups, hk.world]
        split at h
        · split at h
          · exact ⟨_, rfl⟩
          · cases h
        · have hdoc := hk.doc r.subject
          split at h
          · rename_i doc hdo
            rw [hdo] at hdoc
            cases hdo' : AMap.get k'.docs r.subject with
            | none => rw [hdo'] at hdoc; cases hdoc
            | some doc' =>
              rw [hdo'] at hdoc
              simp only [Option.map_some, Option.some.injEq] at hdoc
              simp only [hdoc]
              split at h
              · exact ⟨_, rfl⟩
              · cases h
          · rename_i hdo
            rw [hdo] at hdoc
            cases hdo' : AMap.get k'.docs r.subject with
            | some doc' => rw [hdo'] at hdoc; cases hdoc
            | none =>
              simp only
              split
              · rename_i i' hi'
                have hi := hk.indies r.subject (by rw [hi']; rfl)
                have h2 : ((k'.removeIndividual r.subject).promote E r.revoke).2 = ((k.removeIndividual r.subject).promote E r.revoke).2 :=
                  promote_snd (by rw [removeIndividual_revs, removeIndividual_revs, hk.revs]) _
                have h3 := promote_fst (E := E) (k.removeIndividual r.subject) r.revoke
                have h3' := promote_fst (E := E) (k'.removeIndividual r.subject) r.revoke
                split at h
                · rename_i i hi
                  split
                  · exact ⟨_, rfl⟩
                  · rename_i k1' g' heq'
                    rw [heq'] at h2 h3'
                    split at h
                    · rename_i heq
                      rw [heq] at h2
                      cases h2
                    · rename_i k1 g heq
                      rw [heq] at h2 h3
                      simp only at h2 h3 h3'
                      cases h2
                      have hw : k1'.world = k1.world := by
                        rw [h3, h3']
                        show (k'.removeIndividual r.subject).world = (k.removeIndividual r.subject).world
                        rw [removeIndividual_world, removeIndividual_world, hk.world]
                      rw [hw]
                      split at h
                      · exact ⟨_, rfl⟩
                      · cases h
                · rename_i hn
                  rw [hn] at hi
                  cases hi
              · exact ⟨_, rfl⟩

theorem still_fails {k k' : Keyhive} (hk : Fade k k') {e : Event} (hm : e.isMembership = true) {err : Err}
    (h : (k.receive E e).2 = .error err) (hf : err.fatal = false) : ∃ err', (k'.receive E e).2 = .error err' := by
  cases e with
  | dlg s => exact dlg_still_fails hk h hf
  | rev s => exact rev_still_fails hk h
  | prekey op => cases hm
  | cgka doc op => cases hm

/-- In a pass in which every event fails, the events fail against the final state, too. -/
theorem pass_still_fails : ∀ {es : List Event} {k k' : Keyhive} {next out : List Event}, StoreOk E k →
    Keyhive.pass E k es next = (k', .ok out) → out.length = next.length + es.length →
    Fade k k' ∧ ∀ e ∈ es, e.isMembership = true → ∀ k2, Fade k' k2 → ∃ err, (k2.receive E e).2 = .error err := by
  intro es
  induction es with
  | nil =>
    intro k k' next out _ h _
    cases h
    exact ⟨.rfl' _, by simp⟩
  | cons e es ih =>
    intro k k' next out hs h hl
    have hbound : ∀ {k1 : Keyhive}, Keyhive.pass E k1 es next = (k', .ok out) → False := by
      intro k1 h1
      obtain ⟨_, failed, h2, h3, _⟩ := pass_spec h1
      have := h3.length_le
      rw [h2, List.length_append, List.length_cons] at hl
      omega
    unfold Keyhive.pass at h
    split at h
    · exact absurd h hbound
    · rename_i k1 err hk
      split at h
      · cases h
      · rename_i hfat
        split at h
        · exact absurd h hbound
        · rename_i hpre
          have hk1 : (k.receive E e).1 = k1 := by rw [hk]
          have hf1 := fails_fade hs hk (by simpa using hfat) (by simpa using hpre)
          obtain ⟨h1, h2⟩ := ih (hk1 ▸ storeOk_receive hs e) h (by simp at hl ⊢; omega)
          refine ⟨hf1.trans h1, fun e' he' hm k2 hk2 => ?_⟩
          rcases List.mem_cons.1 he' with rfl | he'
          · exact still_fails ((hf1.trans h1).trans hk2) hm (by rw [hk]) (by simpa using hfat)
          · exact h2 e' he' hm k2 hk2

theorem mergeCgkaOp_heads (H : SOp → Nat) (d : Doc) (op : SOp) : (d.mergeCgkaOp H op).1.heads = d.heads := by
  unfold Doc.mergeCgkaOp
  split
  · rfl
  · split
    · split
      · rfl
      · split <;> rfl
    · rfl

theorem mergeCgkaInviteOp_heads (H : SOp → Nat) (d : Doc) (op : SOp) (sk : Sk) : (d.mergeCgkaInviteOp H op sk).1.heads = d.heads := by
  unfold Doc.mergeCgkaInviteOp
  split
  · split
    · rfl
    · split
      · rfl
      · rw [mergeCgkaOp_heads]
  · rfl

theorem resetCgkaOwner_heads (d : Doc) (i : Id) : (d.resetCgkaOwner i).1.heads = d.heads := by
  unfold Doc.resetCgkaOwner
  split <;> rfl

/-- What ingestion returns. -/
theorem ingest_every (hE : Function.Injective E.hashEvent) {ord : List Event → List Event} (hord : ∀ l, (ord l).Perm l)
    {k k' : Keyhive} (hs : StoreOk E k) {events left : List Event} (h : k.ingest E ord events = (k', some (.ok left))) :
    k'.pending = left ∧
    (∃ k1, k' = { k1 with pending := left } ∧ Fed E k k1 ∧
      ∀ e ∈ events ++ k.pending,
        Handled E k k1 e (.ok ()) ∨ (∃ err, Handled E k k1 e (.error (.prekey err))) ∨ e ∈ left) ∧
    (∀ e ∈ left, e ∈ events ++ k.pending) ∧
    (∀ e ∈ left, e.isMembership = true → ∃ err, (k'.receive E e).2 = .error err) := by
  have hmem : ∀ e, e ∈ ord (Keyhive.dedup E (events ++ k.pending)) ↔ e ∈ events ++ k.pending := fun e => by
    rw [(hord _).mem_iff, dedup_mem hE]
  obtain ⟨k1, h1, h2, h3, h4, h5⟩ := rounds_spec h
  have hfilt : k.pending.filter (fun e => !decide (E.hashEvent e ∈ k.pending.map E.hashEvent)) = [] := by
    rw [List.filter_eq_nil_iff]
    intro e he
    have : E.hashEvent e ∈ k.pending.map E.hashEvent := List.mem_map_of_mem he
    simp [this]
  have hpend : k' = { k1 with pending := left } := by
    rw [h3]
    by_cases hl : left = []
    · rw [if_pos hl, hfilt, hl]
    · rw [if_neg hl]
  refine ⟨by rw [hpend], ⟨k1, hpend, h1, fun e he => h4 e ((hmem e).2 he)⟩, fun e he => (hmem e).1 (h2.subset he), fun e he hm => ?_⟩
  obtain ⟨k2, g1, g2⟩ := h5 (fun hl => by rw [hl] at he; cases he)
  obtain ⟨_, f2⟩ := pass_still_fails (g1.storeOk hs) g2 (by simp)
  rw [hpend]
  exact f2 e he hm _ ((Fade.rfl' k1).pend left)

end Verif.Keyhive
