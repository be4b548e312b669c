import Verif.Keyhive.SecretsLemmas
import Verif.Keyhive.KeptSample
import Verif.Keyhive.ToldLemmas
import Verif.Keyhive.StatsLemmas
import Verif.Keyhive.Props

/-! # C101: importing prekey secrets -/

namespace Verif.Keyhive.SecretsProps

open Verif.Group Verif.Cgka Verif.BeeKem Sample

variable {E : Env}

/-- C101: whatever comes of trying the pending events again, the device then holds the imported secrets and, under all other public
keys, those it held before. -/
theorem C101_secrets {m : ShareKeyMap} (hw : AMap.WF m) (ord : List Event → List Event) (k : Keyhive) (pk : Pk) :
    AMap.get (k.importSecrets E ord m).1.pairs pk = (AMap.get m pk).or (AMap.get k.pairs pk) := by
  unfold Keyhive.importSecrets
  rw [(ingest_self _ _ _).pairs, extend_pairs k hw]

/-- C101: a device that imports what another one exported holds every secret that one held. -/
theorem C101_moved {k k2 : Keyhive} (hw : AMap.WF k2.pairs) (ord : List Event → List Event) {pk : Pk} {sk : Sk}
    (h : AMap.get k2.pairs pk = some sk) : AMap.get (k.importSecrets E ord k2.exportSecrets).1.pairs pk = some sk := by
  rw [C101_secrets (show AMap.WF k2.exportSecrets from hw)]
  show (AMap.get k2.pairs pk).or _ = _
  rw [h]; rfl

/-- C101: the device after an import is one that it can get into by the calls of the library, so all that is proved about those
holds of it. -/
theorem C101_reach {k : Keyhive} (hk : Reach E k) (ord : List Event → List Event) (m : ShareKeyMap) : Reach E (k.importSecrets E ord m).1 := by
  have h : k.importSecrets E ord m = k.ingestArchive E ord ⟨⟨k.reg.me, k.reg.pub, [], []⟩, false, m, [], [], [], []⟩ := by
    unfold Keyhive.importSecrets Keyhive.ingestArchive Keyhive.extendPairs Keyhive.mergeActive
    cases AMap.get k.reg.indies k.reg.me <;> rfl
  rw [h]
  exact .call (.ingestArchive ord _) hk trivial

/-- C101: no delegation or revocation on record is lost. -/
theorem C101_keeps {k : Keyhive} (hk : Reach E k) (ord : List Event → List Event) (m : ShareKeyMap) {o : SMem} (ho : k.HasOp E o) :
    (k.importSecrets E ord m).1.HasOp E o := by
  have h : k.importSecrets E ord m = k.ingestArchive E ord ⟨⟨k.reg.me, k.reg.pub, [], []⟩, false, m, [], [], [], []⟩ := by
    unfold Keyhive.importSecrets Keyhive.ingestArchive Keyhive.extendPairs Keyhive.mergeActive
    cases AMap.get k.reg.indies k.reg.me <;> rfl
  rw [h]
  exact (grown_call hk (.ingestArchive ord _)).hasOp ho

/-- C101: every event that was pending is tried again: when the call returns, it has been applied, or was a refused prekey event, or
is reported back and still pending. Nothing else is reported. -/
theorem C101_retried (hE : Function.Injective E.hashEvent) {ord : List Event → List Event} (hord : ∀ l, (ord l).Perm l)
    {k k' : Keyhive} (hk : Reach E k) {m : ShareKeyMap} {left : List Event} (h : k.importSecrets E ord m = (k', some (.ok left))) :
    k'.pending = left ∧ (∀ e ∈ left, e ∈ k.pending) ∧
    ∃ k1, k' = { k1 with pending := left } ∧ Fed E (k.extendPairs m) k1 ∧
      ∀ e ∈ k.pending, Handled E (k.extendPairs m) k1 e (.ok ()) ∨ (∃ err, Handled E (k.extendPairs m) k1 e (.error (.prekey err))) ∨ e ∈ left := by
  obtain ⟨h1, ⟨k1, h2, h3, h4⟩, h5, _⟩ := ingest_every hE hord (extend_storeOk (reach_storeOk hk) m) h
  exact ⟨h1, h5, k1, h2, h3, h4⟩

/-- C101: after the import, receiving an invitation for one of the imported secrets no longer fails for want of the secret. -/
theorem C101_no_longer_lacking {m : ShareKeyMap} (hw : AMap.WF m) (ord : List Event → List Event) (k : Keyhive) {op : SOp} {i : Id} {pk : Pk}
    {l : Nat} {ps as : List Nat} (ho : op.payload = .add i pk l ps as) (hm : AMap.get m pk ≠ none) (did : Id) :
    ((k.importSecrets E ord m).1.receive E (.cgka did op)).2 ≠ .error .unknownInvitePrekey := by
  have hp := C101_secrets (E := E) hw ord k pk
  cases hg : AMap.get m pk with
  | none => exact absurd hg hm
  | some sk =>
    rw [hg] at hp
    have hp : AMap.get (k.importSecrets E ord m).1.pairs pk = some sk := hp
    simp only [Keyhive.receive, Keyhive.receiveCgkaOp, ho, hp, Keyhive.mergePublicInvite, Keyhive.closeDoc]
    repeat' split
    all_goals (intro hc; cases hc)

/-- C101: an invitation of this device whose secret it neither held nor imported stays pending. -/
theorem C101_stays (hE : Function.Injective E.hashEvent) {ord : List Event → List Event} (hord : ∀ l, (ord l).Perm l)
    {k k' : Keyhive} (hk : Reach E k) {m : ShareKeyMap} (hw : AMap.WF m) {left : List Event}
    (h : k.importSecrets E ord m = (k', some (.ok left))) {did : Id} {op : SOp} {pk : Pk} {l : Nat} {ps as : List Nat}
    (ho : op.payload = .add k.reg.me pk l ps as) (he : .cgka did op ∈ k.pending) (h1 : AMap.get m pk = none) (h2 : AMap.get k.pairs pk = none) :
    .cgka did op ∈ left := by
  obtain ⟨_, _, k1, _, _, h4⟩ := C101_retried hE hord hk h
  have key : ∀ k2, Fed E (k.extendPairs m) k2 → ∀ r, (k2.receive E (.cgka did op)).2 = r → r ≠ .ok () ∧ ∀ err, r ≠ .error (.prekey err) := by
    intro k2 hf r hr
    have hs := fed_self hf
    have hp : AMap.get k2.pairs pk = none := by rw [hs.pairs, extend_pairs k hw, h1, h2]; rfl
    have hm : k2.reg.me = k.reg.me := hs.me
    subst hr
    simp only [Keyhive.receive, Keyhive.receiveCgkaOp, ho, hp, hm, if_true]
    repeat' split
    all_goals exact ⟨(fun hc => by cases hc), (fun _ hc => by cases hc)⟩
  rcases h4 _ he with ⟨k2, f, hr, _⟩ | ⟨err, k2, f, hr, _⟩ | h5
  · exact absurd rfl (key k2 f _ hr).1
  · exact absurd rfl ((key k2 f _ hr).2 err)
  · exact h5

/-- C101: an invitation that was pending alone, for want of its secret, is merged by the import if the operations it builds on are on
record: the call returns, nothing is pending, and the device owns a leaf of the document's tree and holds its secret.
Missing from the full property: that the merge does not fail if the tree has to be put together again from concurrent operations (which can
fail, `CutOff` and C86), and several pending events. -/
theorem C101_invited_partial {ord : List Event → List Event} (hord : ∀ l, (ord l).Perm l) {k : Keyhive} (hk : Reach E k) {m : ShareKeyMap}
    (hw : AMap.WF m) {did : Id} {op : SOp} {pk : Pk} {sk : Sk} {l : Nat} {ps as : List Nat} (hp : k.pending = [.cgka did op])
    (hpk : pk ≠ shareKey publicSk) (hv : E.validCgka did op = true) (ho : op.payload = .add k.reg.me pk l ps as) (hm : AMap.get m pk = some sk) {d : Doc} {c : Cgka}
    (hd : AMap.get k.docs did = some d) (hc : d.cgka = some c) (hpre : ∀ h ∈ op.payload.preds, AMap.get c.graph.ops h ≠ none)
    (hh : (c.pending = false ∧ c.graph.heads.length = 1) ∨ ∃ h ∈ c.graph.heads, h ∉ op.payload.preds) :
    ∃ k' d' c', k.importSecrets E ord m = (k', some (.ok [])) ∧ k'.pending = [] ∧
      AMap.get k'.docs did = some d' ∧ d'.cgka = some c' ∧ AMap.get c'.graph.ops (E.hashCgka did op) ≠ none ∧
      c'.ownerId = k.reg.me ∧ AMap.get c'.ownerSks pk = some sk := by
  have hps : AMap.get (k.extendPairs m).pairs pk = some sk := by rw [extend_pairs k hw, hm]; rfl
  have hcp : c.graph.containsPredecessors op.payload.preds = true :=
    List.all_eq_true.2 (fun h hx => (AMap.contains_iff _ _).2 ((AMap.mem_keys_iff _ _).2 (hpre h hx)))
  have hrep : c.shouldReplay = false ∨ c.graph.headsContainedIn op.payload.preds = false := by
    rcases hh with ⟨h1, h2⟩ | ⟨h, h1, h2⟩
    · left
      unfold Cgka.shouldReplay Graph.hasSingleHead
      simp [h1, h2]
    · right
      unfold Graph.headsContainedIn
      rw [Bool.eq_false_iff]
      intro ha
      exact h2 (of_decide_eq_true (List.all_eq_true.1 ha h h1))
  obtain ⟨c', b, e1, e2, e3, e4⟩ := merge_add (H := E.hashCgka did) (c := withPublic (c.withNewOwner k.reg.me (AMap.insert c.ownerSks pk sk)))
    (show HasFit c.tree from reach_fit (doc_reach hk hd hc)) ho hcp hrep
  have hr : (k.extendPairs m).receive E (.cgka did op) = ((k.extendPairs m).setDoc did { d with cgka := some c' }, .ok ()) := by
    have hd' : AMap.get (k.extendPairs m).docs did = some d := hd
    have hme : (k.extendPairs m).reg.me = k.reg.me := rfl
    have hinv : d.mergeCgkaInviteOp (E.hashCgka did) op sk = ({ d with cgka := some c' }, .ok b) := by
      unfold Doc.mergeCgkaInviteOp Doc.mergeCgkaOp
      simp only [ho] at hcp ⊢
      simp only [hc, hcp, Bool.not_true, Bool.false_eq_true, if_false, e1]
    simp only [Keyhive.receive, Keyhive.receiveCgkaOp, hv, hd', ho, hme, hps, hinv, Keyhive.closeDoc, Bool.not_true, Bool.false_eq_true,
      if_false, if_true]
  have hord1 : ord [.cgka did op] = [.cgka did op] := List.perm_singleton.1 (hord _)
  have hdd : Keyhive.dedup E ([] ++ (k.extendPairs m).pending) = [.cgka did op] := by
    show Keyhive.dedup E ([] ++ k.pending) = _
    rw [hp]; rfl
  refine ⟨{ (k.extendPairs m).setDoc did { d with cgka := some c' } with pending := [] }, { d with cgka := some c' }, c', ?_, rfl, ?_, rfl, e4,
    e2, by rw [e3]; show AMap.get (AMap.insert _ _ _) pk = _; rw [AMap.get_insert, if_neg hpk]; exact AMap.get_insert_self _ _ _⟩
  · unfold Keyhive.importSecrets Keyhive.ingest
    rw [hdd, hord1]
    simp only [Keyhive.rounds, Keyhive.pass, hr]
    have : ((k.extendPairs m).setDoc did { d with cgka := some c' }).pending = [.cgka did op] := hp
    rw [this]
    have hpe : (k.extendPairs m).pending = [.cgka did op] := hp
    simp [hpe]
  · show AMap.get (Keyhive.replace did _ k.docs) did = _
    rw [get_replace]
    simp [hd]

/-- Agent 5's new device, without secrets, hears of Alice's document and of the invitation. -/
noncomputable def fresh : Keyhive := ((Keyhive.start reg []).ingest EI List.reverse [.cgka 300 s5, .cgka 300 s0, .dlg docAlice]).1

theorem reach_fresh : Reach EI fresh := .call (.ingest List.reverse _) (.start reg []) trivial

-- The invitation waits for its secret.
example : fresh.pending = [.cgka 300 s5] ∧ AMap.get fresh.pairs ⟨55⟩ = none ∧ EI.validCgka 300 s5 = true ∧
    s5.payload = .add fresh.reg.me ⟨55⟩ 1 [0] [0] ∧
    (treeOf fresh 300).any (fun c => decide (c.pending = false ∧ c.graph.heads.length = 1 ∧ ∀ h ∈ s5.payload.preds, AMap.get c.graph.ops h ≠ none)) = true :=
  ⟨by decide +kernel, by decide +kernel, by decide +kernel, by decide +kernel, by decide +kernel⟩

-- The secrets of the old device let it in; those of another do not.
example : ∃ k1 k2, fresh.importSecrets EI List.reverse k0.exportSecrets = (k1, some (.ok [])) ∧
    (treeOf k1 300).any (fun c => decide (c.ownerId = 5 ∧ AMap.get c.ownerSks ⟨55⟩ = some 55)) = true ∧
    fresh.importSecrets EI List.reverse [(⟨66⟩, 66)] = (k2, some (.ok [.cgka 300 s5])) ∧ AMap.get k2.pairs ⟨66⟩ = some 66 :=
  ⟨(fresh.importSecrets EI List.reverse k0.exportSecrets).1, (fresh.importSecrets EI List.reverse [(⟨66⟩, 66)]).1, by decide +kernel,
    by decide +kernel, by decide +kernel, by decide +kernel⟩

/-- C101 fails: that an imported secret belongs to its public key is not checked, and it takes the place of the right one. -/
theorem C101_fails : ∃ (E : Env) (k k' : Keyhive) (m : ShareKeyMap) (pk : Pk) (sk sk' : Sk), Reach E k ∧ AMap.WF m ∧
    AMap.get k.pairs pk = some sk ∧ shareKey sk = pk ∧ k.importSecrets E List.reverse m = (k', some (.ok [])) ∧
    AMap.get k'.pairs pk = some sk' ∧ shareKey sk' ≠ pk :=
  ⟨Sample.E, k0, (k0.importSecrets Sample.E List.reverse [(⟨55⟩, 99)]).1, [(⟨55⟩, 99)], ⟨55⟩, 55, 99, reach_k0, by unfold AMap.WF; decide +kernel,
    by decide +kernel, by decide +kernel, by decide +kernel, by decide +kernel, by decide +kernel⟩

end Verif.Keyhive.SecretsProps
