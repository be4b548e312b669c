import Verif.Keyhive.StatsLemmas
import Verif.Keyhive.KeyedLemmas
import Verif.Keyhive.ArchiveProps

/-! # Properties of counting, looking up and converting -/

namespace Verif.Keyhive.StatsProps

open Verif.Group Verif.Cgka Verif.BeeKem Sample Verif.Keyhive.ArchiveProps

variable {E : Env}

/-! ## C94: the statistics are true -/

/-- C94, what is held: the numbers of individuals, groups, documents, delegations, revocations, announced and replaced prekeys and
group-key operations are those of the things the device has. The number called `activePrekeyCount` is that of all prekey operations of
the device's own agent.
Missing from the full property: that `activePrekeyCount` is the number of active prekeys (`C94_fails`). -/
theorem C94_held_partial (hE : E.NoClash) (hH : ∀ did, Function.Injective (E.hashCgka did)) {k : Keyhive} (hk : Reach E k) (hp : KeyedPrekeys E k) :
    Numbers k.stats.individuals (fun i => k.individual i ≠ none) ∧
    Numbers k.stats.groups (fun i => AMap.get k.groups i ≠ none) ∧
    Numbers k.stats.docs (fun i => AMap.get k.docs i ≠ none) ∧
    Numbers k.stats.delegations (fun s => k.HasOp E (.dlg s)) ∧
    Numbers k.stats.revocations (fun s => k.HasOp E (.rev s)) ∧
    Numbers k.stats.prekeysExpanded (fun x : Id × Prekey.KeyOp => HasPrekeyOp k x.1 x.2 ∧ Announces x.2) ∧
    Numbers k.stats.prekeyRotations (fun x : Id × Prekey.KeyOp => HasPrekeyOp k x.1 x.2 ∧ Replaces x.2) ∧
    Numbers k.stats.cgkaOperations (fun x : Id × SOp => HasKeyOp E k x.1 x.2) ∧
    Numbers k.stats.activePrekeyCount (fun op => ∃ x, AMap.get k.reg.indies k.reg.me = some x ∧ op ∈ AMap.values x.state) := by
  have hst := reach_stocked hk
  have hok := reach_storeOk hk
  have hwi := individuals_wf hp.1
  have hheld := stats_held k
  have hsub : ∀ i x, AMap.get k.individuals i = some x → AMap.get k.reg.indies i = some x := by
    intro i x hx
    rw [individuals_get] at hx
    unfold Keyhive.individual at hx
    split at hx
    · cases hx
    · exact hx
  have hvn : ∀ i x, AMap.get k.individuals i = some x → (AMap.values x.state).Nodup := fun i x hx =>
    values_nodup (hp.2 i x (hsub i x hx)).1 E.hashKey (hp.2 i x (hsub i x hx)).2
  simp only [Stats.held, Prod.mk.injEq] at hheld
  obtain ⟨e1, e2, e3⟩ := hheld
  refine ⟨?_, numbers_keys hst.wfgs, numbers_keys hst.wfds, ?_, ?_, ?_, ?_, ?_, ?_⟩
  · exact (numbers_keys hwi).congr (fun i => by rw [individuals_get])
  · refine ⟨(AMap.values k.dlgs).map E.sdlg, ?_, fun s => ?_, by simp [AMap.values]; rfl⟩
    · have h1 := values_nodup hst.wfd E.dlgDigest (fun a b hb => (hok.dlg a b hb).1)
      refine List.Nodup.map_on (fun a ha b hb hab => ?_) h1
      obtain ⟨x, hx⟩ := (values_iff hst.wfd a).1 ha
      obtain ⟨y, hy⟩ := (values_iff hst.wfd b).1 hb
      have h2 := (hok.dlg x a hx).1
      have h3 := (hok.dlg y b hy).1
      rw [dlgDigest_eq, hab, ← dlgDigest_eq, h3] at h2
      subst h2
      rw [hx] at hy
      exact Option.some.inj hy
    · simp only [List.mem_map, Keyhive.HasOp]
      constructor
      · rintro ⟨d, hd, rfl⟩
        obtain ⟨x, hx⟩ := (values_iff hst.wfd d).1 hd
        rw [← dlgDigest_eq, (hok.dlg x d hx).1, hx]
        simp
      · intro h
        cases hg : AMap.get k.dlgs (E.hashDlg s) with
        | none => exact absurd hg h
        | some d =>
          refine ⟨d, (values_iff hst.wfd d).2 ⟨_, hg⟩, hE.dlg ?_⟩
          rw [← dlgDigest_eq]
          exact (hok.dlg _ d hg).1
  · refine ⟨(AMap.values k.revs).map E.srev, ?_, fun s => ?_, by simp [AMap.values]; rfl⟩
    · have h1 := values_nodup hst.wfr E.revDigest (fun a b hb => (hok.rev a b hb).1)
      refine List.Nodup.map_on (fun a ha b hb hab => ?_) h1
      obtain ⟨x, hx⟩ := (values_iff hst.wfr a).1 ha
      obtain ⟨y, hy⟩ := (values_iff hst.wfr b).1 hb
      have h2 := (hok.rev x a hx).1
      have h3 := (hok.rev y b hy).1
      rw [revDigest_eq, hab, ← revDigest_eq, h3] at h2
      subst h2
      rw [hx] at hy
      exact Option.some.inj hy
    · simp only [List.mem_map, Keyhive.HasOp]
      constructor
      · rintro ⟨d, hd, rfl⟩
        obtain ⟨x, hx⟩ := (values_iff hst.wfr d).1 hd
        rw [← revDigest_eq, (hok.rev x d hx).1, hx]
        simp
      · intro h
        cases hg : AMap.get k.revs (E.hashRev s) with
        | none => exact absurd hg h
        | some d =>
          refine ⟨d, (values_iff hst.wfr d).2 ⟨_, hg⟩, hE.rev ?_⟩
          rw [← revDigest_eq]
          exact (hok.rev _ d hg).1
  · rw [e1]
    have := numbers_pairs hwi (f := fun x : Prekey.Indie => (AMap.values x.state).filter isAdd) (fun i x hx => (hvn i x hx).filter _)
    rw [show (AMap.values k.individuals).map (fun x => ((AMap.values x.state).filter isAdd).length)
      = k.individuals.map (fun p => ((AMap.values p.2.state).filter isAdd).length) by simp [AMap.values, Function.comp_def]]
    refine this.congr (fun x => ?_)
    simp only [HasPrekeyOp, individuals_get, List.mem_filter, isAdd_iff]
    constructor
    · rintro ⟨b, h1, h2, h3⟩; exact ⟨⟨b, h1, h2⟩, h3⟩
    · rintro ⟨⟨b, h1, h2⟩, h3⟩; exact ⟨b, h1, h2, h3⟩
  · rw [e2]
    have := numbers_pairs hwi (f := fun x : Prekey.Indie => (AMap.values x.state).filter (fun o => !isAdd o)) (fun i x hx => (hvn i x hx).filter _)
    rw [show (AMap.values k.individuals).map (fun x => ((AMap.values x.state).filter (fun o => !isAdd o)).length)
      = k.individuals.map (fun p => ((AMap.values p.2.state).filter (fun o => !isAdd o)).length) by simp [AMap.values, Function.comp_def]]
    refine this.congr (fun x => ?_)
    simp only [HasPrekeyOp, individuals_get, List.mem_filter, Bool.not_eq_true', isAdd_not]
    constructor
    · rintro ⟨b, h1, h2, h3⟩; exact ⟨⟨b, h1, h2⟩, h3⟩
    · rintro ⟨⟨b, h1, h2⟩, h3⟩; exact ⟨b, h1, h2, h3⟩
  · rw [e3]
    have htr := reach_trees hk
    have hops : ∀ i d c, AMap.get k.docs i = some d → d.cgka = some c → AMap.WF c.graph.ops ∧
        ∀ h o, AMap.get c.graph.ops h = some o → E.hashCgka i o = h := fun i d c hd hc =>
      ⟨ops_wf (htr i d hd c hc), (reach_inv (hH i) (htr i d hd c hc)).1.hash⟩
    have := numbers_pairs hst.wfds (f := Doc.keyOps) (fun i d hd => by
      unfold Doc.keyOps
      cases hc : d.cgka with
      | none => exact List.nodup_nil
      | some c => exact values_nodup (hops i d c hd hc).1 (E.hashCgka i) (hops i d c hd hc).2)
    rw [show (AMap.values k.docs).map (fun d => d.keyOps.length) = k.docs.map (fun p => p.2.keyOps.length) by simp [AMap.values, Function.comp_def]]
    refine this.congr (fun x => ?_)
    simp only [HasKeyOp, Doc.keyOps]
    constructor
    · rintro ⟨d, h1, h2⟩
      cases hc : d.cgka with
      | none => rw [hc] at h2; cases h2
      | some c =>
        rw [hc] at h2
        obtain ⟨h, hh⟩ := (values_iff (hops _ d c h1 hc).1 x.2).1 h2
        have := (hops _ d c h1 hc).2 h x.2 hh
        subst this
        exact ⟨d, c, h1, hc, hh⟩
    · rintro ⟨d, c, h1, h2, h3⟩
      exact ⟨d, h1, by rw [h2]; exact (values_iff (hops _ d c h1 h2).1 x.2).2 ⟨_, h3⟩⟩
  · cases hx : AMap.get k.reg.indies k.reg.me with
    | none => exact ⟨[], List.nodup_nil, by simp, by simp [Keyhive.stats, hx]⟩
    | some x =>
      obtain ⟨h1, h2⟩ := hp.2 _ x hx
      refine ⟨AMap.values x.state, values_nodup h1 E.hashKey h2, fun op => ?_, by simp [Keyhive.stats, hx, AMap.values]⟩
      constructor
      · intro h; exact ⟨x, rfl, h⟩
      · rintro ⟨_, he, h⟩; cases he; exact h

/-- The prekey operations are under their digests. -/
def keyedB (k : Keyhive) : Bool := decide (AMap.keys k.reg.indies).Nodup &&
  k.reg.indies.all (fun p => decide (AMap.keys p.2.state = (AMap.values p.2.state).map Prekey.Sample.H) && decide (AMap.keys p.2.state).Nodup)

theorem keyed_of {k : Keyhive} (h : keyedB k = true) : KeyedPrekeys Sample.E k := by
  unfold keyedB at h
  simp only [Bool.and_eq_true, decide_eq_true_eq, List.all_eq_true] at h
  refine ⟨h.1, fun i x hx => ?_⟩
  have := h.2 _ (AMap.mem_of_get hx)
  refine ⟨this.2, fun h op hop => ?_⟩
  have hm := AMap.mem_of_get hop
  have h1 : ∀ (m : AMap Nat Prekey.KeyOp), AMap.keys m = (AMap.values m).map Prekey.Sample.H → ∀ p ∈ m, Prekey.Sample.H p.2 = p.1 := by
    intro m
    induction m with
    | nil => intro _ p hp; cases hp
    | cons a m ih =>
      intro h p hp
      simp only [AMap.keys, AMap.values, List.map_cons, List.cons.injEq] at h
      rcases List.mem_cons.1 hp with rfl | hp
      · exact h.1.symm
      · exact ih h.2 p hp
  exact h1 _ this.1 _ hm

theorem keyed_full : KeyedPrekeys Sample.E full := keyed_of (by decide +kernel)

example : Sample.E.NoClash ∧ (∀ did, Function.Injective (Sample.E.hashCgka did)) ∧ Reach Sample.E full ∧ KeyedPrekeys Sample.E full ∧
    full.stats.individuals = 6 ∧ full.stats.groups = 2 ∧ full.stats.docs = 1 ∧ full.stats.delegations = 5 ∧ full.stats.revocations = 1 ∧
    full.stats.prekeysExpanded = 6 ∧ full.stats.cgkaOperations = 1 :=
  ⟨E_noClash, fun _ => tableH_injective _, full_meets.1, keyed_full, by decide +kernel⟩

/-- C94: prekey operations stay under their digests, as `C94_held_partial` needs it, through every call; an archive that is taken in must
have them so. -/
theorem C94_stays_keyed {k : Keyhive} (hp : KeyedPrekeys E k) (c : Call) (hc : c.Keyed E) : KeyedPrekeys E (c.run E k) := keyed_call hp c hc

example : KeyedPrekeys Sample.E full ∧ (Call.receive (.prekey ⟨5, 5, .rotate 55 56⟩)).Keyed Sample.E ∧
    ((Call.receive (.prekey ⟨5, 5, .rotate 55 56⟩)).run Sample.E full).stats.prekeyRotations = full.stats.prekeyRotations + 1 :=
  ⟨keyed_full, trivial, by decide +kernel⟩

/-- C94, what is pending: after taking in a batch, the ten numbers of pending events are those of the events reported back, by kind, in
total and by the device's own agent, and together they are as many as were reported. -/
theorem C94_pending {k k' : Keyhive} {ord : List Event → List Event} {events left : List Event}
    (h : k.ingest E ord events = (k', some (.ok left))) :
    (∀ q, k'.stats.pendingOf q = ((left.filter (fun e => decide (e.kind = q))).length,
      (left.filter (fun e => decide (e.kind = q ∧ e.issuer = k'.reg.me))).length)) ∧
    (k'.stats.pendingOf .expanded).1 + (k'.stats.pendingOf .rotated).1 + (k'.stats.pendingOf .cgka).1 + (k'.stats.pendingOf .delegated).1 +
      (k'.stats.pendingOf .revoked).1 = left.length := by
  have hl : k'.pending = left := by
    obtain ⟨k1, -, -, h1, -⟩ := rounds_spec h
    have hf : k.pending.filter (fun e => !decide (E.hashEvent e ∈ k.pending.map E.hashEvent)) = [] := by
      rw [List.filter_eq_nil_iff]
      intro e he
      have := List.mem_map_of_mem (f := E.hashEvent) he
      simp only [this, decide_true, Bool.not_true, Bool.false_eq_true, not_false_eq_true]
    rw [h1]
    simp only [hf]
    split
    · rename_i h0; exact h0.symm
    · rfl
  refine ⟨fun q => by rw [stats_pending, hl], ?_⟩
  simp only [stats_pending, hl]
  clear h hl
  induction left with
  | nil => rfl
  | cons e l ih =>
    simp only [List.filter_cons, List.length_cons]
    rw [← ih]
    cases e.kind <;> simp <;> omega

example : ∃ k' left, k0.ingest Sample.E List.reverse [.dlg kBob, .cgka 300 s0, .rev rBob] = (k', some (.ok left)) ∧ left.length = 3 ∧
    k'.stats.pendingOf .delegated = (1, 0) ∧ k'.stats.pendingOf .revoked = (1, 0) ∧ k'.stats.pendingOf .cgka = (1, 0) := by
  refine ⟨(k0.ingest Sample.E List.reverse [.dlg kBob, .cgka 300 s0, .rev rBob]).1,
    match (k0.ingest Sample.E List.reverse [.dlg kBob, .cgka 300 s0, .rev rBob]).2 with | some (.ok l) => l | _ => [], ?_⟩
  decide +kernel

/-- C94: the numbers of groups, documents, delegations and revocations never go down. -/
theorem C94_never_fewer {k : Keyhive} (hk : Reach E k) {c : Call} (hc : c.Honest E) :
    k.stats.groups ≤ (c.run E k).stats.groups ∧ k.stats.docs ≤ (c.run E k).stats.docs ∧
    k.stats.delegations ≤ (c.run E k).stats.delegations ∧ k.stats.revocations ≤ (c.run E k).stats.revocations := by
  have h1 := reach_stocked hk
  have h2 := reach_stocked (Reach.call c hk hc)
  have hg := grown_call hk c
  have hs := standing_call (E := E) k c
  exact ⟨(numbers_keys h1.wfgs).le (numbers_keys h2.wfgs) hs.groups, (numbers_keys h1.wfds).le (numbers_keys h2.wfds) hs.docs,
    (numbers_keys h1.wfd).le (numbers_keys h2.wfd) hg.dlgs, (numbers_keys h1.wfr).le (numbers_keys h2.wfr) hg.revs⟩

example : Reach Sample.E k0 ∧ (Call.receive (.dlg kAlice)).Honest Sample.E ∧ k0.stats.delegations = 0 ∧
    ((Call.receive (.dlg kAlice)).run Sample.E k0).stats.delegations = 1 ∧ ((Call.receive (.dlg kAlice)).run Sample.E k0).stats.groups = 1 :=
  ⟨reach_k0, trivial, by decide +kernel⟩

/-- C94: a device that was saved and loaded reports the same numbers.
Missing from the full property: devices that cannot be loaded (`C38_fails`), and those whose own key has been used as that of a group. -/
theorem C94_restored_partial {k : Keyhive} (h : Reach E k) (hc : NoClash E.opDigest k.heads) (ha : Acyclic k.heads)
    (hr : ∀ d ∈ AMap.values k.dlgs, KnownAs k d.delegate) (hu : k.unlisted = false) :
    ∃ k', tryFromArchive E (k.intoArchive E) = .ok k' ∧ k'.stats = k.stats := by
  obtain ⟨k', h1, h2, h3, h4, h5, h6, h7, h8, h9⟩ := round_trip h hc ha hr
  have hst := reach_stocked h
  have hwr := load_wf h1
  have hwd := load_wf_dlgs h1
  refine ⟨k', h1, ?_⟩
  have e1 : k'.dlgs.length = k.dlgs.length :=
    Nat.le_antisymm ((numbers_keys hwd).le (numbers_keys hst.wfd) (fun x hx => by rw [← h2]; exact hx))
      ((numbers_keys hst.wfd).le (numbers_keys hwd) (fun x hx => by rw [h2]; exact hx))
  have e2 : k'.revs.length = k.revs.length :=
    Nat.le_antisymm ((numbers_keys hwr).le (numbers_keys hst.wfr) (fun x hx => by rw [← h3]; exact hx))
      ((numbers_keys hst.wfr).le (numbers_keys hwr) (fun x hx => by rw [h3]; exact hx))
  have e3 : k'.individuals = k.individuals := by unfold Keyhive.individuals; rw [h6, h7, hu]
  have e4 : ∀ s, (AMap.values k'.docs).foldl Stats.doc s = (AMap.values k.docs).foldl Stats.doc s := by
    intro s
    rw [docs_fold, docs_fold, h5]
    congr 3
    simp [AMap.values, Function.comp_def, Doc.keyOps]
  unfold Keyhive.stats
  simp only [e4]
  rw [e1, e2, e3, h4, h5, h6, h9]
  simp

example : Reach Sample.E full ∧ NoClash Sample.E.opDigest full.heads ∧ Acyclic full.heads ∧
    (∀ d ∈ AMap.values full.dlgs, KnownAs full d.delegate) ∧ full.unlisted = false :=
  ⟨full_meets.1, full_meets.2.1, full_meets.2.2.1, full_meets.2.2.2, by decide +kernel⟩

/-- Agent 5 replaces its prekey. -/
def rot5 : Prekey.KeyOp := ⟨5, 5, .rotate 55 56⟩

/-- C94 fails in two ways. After the device's own agent has replaced its only prekey, one prekey is active and two are reported. When
the key of a known individual turns out to be that of a group, the number of individuals goes down and no other number of agents goes
up. -/
theorem C94_fails :
    (∃ (E : Env) (k : Keyhive) (x : Prekey.Indie), Reach E k ∧ E.NoClash ∧ KeyedPrekeys E k ∧ AMap.get k.reg.indies k.reg.me = some x ∧
      x.prekeys = [56] ∧ k.stats.activePrekeyCount = 2) ∧
    (∃ (E : Env) (k k' : Keyhive) (d : SDlg), Reach E k ∧ E.NoClash ∧ E.validDlg d = true ∧ k.receive E (.dlg d) = (k', .ok ()) ∧
      k.stats.individuals = k'.stats.individuals + 1 ∧ k'.stats.groups = k.stats.groups ∧ k'.stats.docs = k.stats.docs) := by
  refine ⟨⟨Sample.E, (k0.receive Sample.E (.prekey rot5)).1,
    ((AMap.get (k0.receive Sample.E (.prekey rot5)).1.reg.indies 5).getD (card 5).2), .call (.receive _) reach_k0 trivial, E_noClash,
    keyed_of (by decide +kernel), by decide +kernel⟩,
    ⟨Sample.E, k0, (k0.receive Sample.E (.dlg x7)).1, x7, reach_k0, E_noClash, by decide +kernel, by decide +kernel⟩⟩

/-! ## C95: membership operations can be looked up and put together -/

/-- C95, looking up: what is found under a digest has this digest, a valid signature, and is held by the device. -/
theorem C95_found {k : Keyhive} (hk : Reach E k) {h : Nat} {o : Op} (ho : k.getMembershipOperation h = some o) :
    E.opDigest o = h ∧ E.validOp o = true ∧ k.HasOp E (E.smem o) := by
  have hok := reach_storeOk hk
  unfold Keyhive.getMembershipOperation at ho
  cases hd : AMap.get k.dlgs h with
  | some d =>
    rw [hd] at ho
    cases ho
    obtain ⟨h1, h2⟩ := hok.dlg h d hd
    refine ⟨h1, h2, ?_⟩
    show AMap.get k.dlgs (E.hashDlg (E.sdlg d)) ≠ none
    rw [← dlgDigest_eq, h1, hd]
    simp
  | none =>
    rw [hd] at ho
    cases hr : AMap.get k.revs h with
    | none => rw [hr] at ho; cases ho
    | some r =>
      rw [hr] at ho
      cases ho
      obtain ⟨h1, h2⟩ := hok.rev h r hr
      refine ⟨h1, h2, ?_⟩
      show AMap.get k.revs (E.hashRev (E.srev r)) ≠ none
      rw [← revDigest_eq, h1, hr]
      simp

/-- The digest of a membership operation as it travels. -/
def wireDigest (E : Env) : SMem → Nat
  | .dlg s => E.hashDlg s
  | .rev s => E.hashRev s

/-- C95, looking up: whatever the device holds at some time is found under its digest, then and after any further calls. -/
theorem C95_stays_found (hE : E.NoClash) (hx : ∀ s r, E.hashDlg s ≠ E.hashRev r) {k : Keyhive} (hk : Reach E k) {m : SMem} (hm : k.HasOp E m) :
    (∃ o, k.getMembershipOperation (wireDigest E m) = some o ∧ E.smem o = m) ∧
    ∀ c : Call, c.Honest E → (c.run E k).HasOp E m := by
  refine ⟨?_, fun c _ => (grown_call hk c).hasOp hm⟩
  have hok := reach_storeOk hk
  unfold Keyhive.getMembershipOperation
  cases m with
  | dlg s =>
    simp only [Keyhive.HasOp, wireDigest] at hm ⊢
    cases hd : AMap.get k.dlgs (E.hashDlg s) with
    | none => exact absurd hd hm
    | some d =>
      refine ⟨.dlg d, rfl, ?_⟩
      have := (hok.dlg _ d hd).1
      rw [dlgDigest_eq] at this
      show SMem.dlg (E.sdlg d) = _
      rw [hE.dlg this]
  | rev s =>
    simp only [Keyhive.HasOp, wireDigest] at hm ⊢
    cases hd : AMap.get k.dlgs (E.hashRev s) with
    | some d =>
      have := (hok.dlg _ d hd).1
      rw [dlgDigest_eq] at this
      exact absurd this (hx _ _)
    | none =>
      cases hr : AMap.get k.revs (E.hashRev s) with
      | none => exact absurd hr hm
      | some r =>
        refine ⟨.rev r, rfl, ?_⟩
        have := (hok.rev _ r hr).1
        rw [revDigest_eq] at this
        show SMem.rev (E.srev r) = _
        rw [hE.rev this]

example : Reach Sample.E full ∧ full.HasOp Sample.E (.rev rBob) ∧ full.HasOp Sample.E (.dlg gCarol) ∧
    (full.getMembershipOperation (hashRev rBob)).isSome = true ∧ (full.getMembershipOperation 12345).isSome = false :=
  ⟨full_meets.1, by show AMap.get full.revs _ ≠ none; decide +kernel, by show AMap.get full.dlgs _ ≠ none; decide +kernel, by decide +kernel⟩

/-- C95, putting together: an event put together from its form as it travels has just this form, and it can be put together exactly when
the device knows everything it names. -/
theorem C95_converts {k : Keyhive} (hk : Reach E k) (e : Event) :
    (∀ w, k.toWhole e = .ok w → w.wire E = e) ∧ ((∃ w, k.toWhole e = .ok w) ↔ Names k e) := by
  have hok := reach_storeOk hk
  have hproof : ∀ p : Option Nat, (∃ x, k.findProof p = .ok x) ↔ ∀ h, p = some h → AMap.get k.dlgs h ≠ none := by
    intro p
    cases p with
    | none => simp [Keyhive.findProof]
    | some h =>
      simp only [Keyhive.findProof]
      cases hg : AMap.get k.dlgs h <;> simp [hg]
  have hrevs : ∀ l : List Nat, (∃ x, k.findRevs l = .ok x) ↔ ∀ h ∈ l, AMap.get k.revs h ≠ none := by
    intro l
    induction l with
    | nil => simp [Keyhive.findRevs]
    | cons h l ih =>
      simp only [Keyhive.findRevs, List.forall_mem_cons, ← ih]
      cases AMap.get k.revs h with
      | none => simp
      | some r => cases k.findRevs l <;> simp
  cases e with
  | prekey op => exact ⟨fun w h => by cases h; rfl, fun _ => trivial, fun _ => ⟨_, rfl⟩⟩
  | cgka doc op => exact ⟨fun w h => by cases h; rfl, fun _ => trivial, fun _ => ⟨_, rfl⟩⟩
  | dlg s =>
    constructor
    · intro w h
      simp only [Keyhive.toWhole] at h
      split at h
      · cases h
      · rename_i d hd
        cases h
        show Event.dlg (E.sdlg d) = _
        rw [toDlg_static hok hd]
    · simp only [Names, ← hproof, ← hrevs, Keyhive.toWhole, Keyhive.toDlg]
      cases k.findProof s.proof with
      | error e => simp
      | ok p =>
        cases k.getAgent s.delegate with
        | none => simp
        | some a => cases k.findRevs s.after <;> simp
  | rev s =>
    constructor
    · intro w h
      simp only [Keyhive.toWhole] at h
      split at h
      · cases h
      · rename_i r hr
        cases h
        show Event.rev (E.srev r) = _
        rw [toRev_static hok hr]
    · simp only [Names, ← hproof, Keyhive.toWhole, Keyhive.toRev]
      cases AMap.get k.dlgs s.revoke with
      | none => simp
      | some d => cases k.findProof s.proof <;> simp

example : Reach Sample.E full ∧ Names full (.dlg gCarol) ∧ ¬ Names k0 (.dlg gCarol) ∧ (full.toWhole (.rev rBob)).isOk = true := by
  refine ⟨full_meets.1, ?_, ?_, by decide +kernel⟩
  · refine (C95_converts full_meets.1 (.dlg gCarol)).2.1 ?_
    have : (full.toWhole (.dlg gCarol)).isOk = true := by decide +kernel
    cases h : full.toWhole (.dlg gCarol) with
    | ok w => exact ⟨w, rfl⟩
    | error e => rw [h] at this; cases this
  · intro h
    exact h.1 _ rfl (by decide +kernel)

end Verif.Keyhive.StatsProps
