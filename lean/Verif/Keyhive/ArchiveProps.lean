import Verif.Keyhive.TakeInLemmas
import Verif.Keyhive.ArchiveSample
import Verif.Keyhive.AlikeCalls
import Verif.Keyhive.LocalSample
import Verif.Keyhive.Props

/-! # Properties of archives -/

namespace Verif.Keyhive.ArchiveProps

open Verif.Group Verif.Cgka Verif.BeeKem Sample

variable {E : Env}

/-! ## C38: saving a device and loading it again -/

/-- C38, the part that holds: if the history of the device's groups has no cycle, digests do not collide, and every delegate in
the stores is known as what it is, then the archive of the device can be loaded, and the loaded device has the same delegations,
revocations, individuals, prekey pairs, pending events, and the same groups and documents with the same members, heads and key
trees. Missing: the revocations in effect, and archives of the other devices (`C38_fails`). -/
theorem C38_round_trip_partial {k : Keyhive} (h : Reach E k) (hc : NoClash E.opDigest k.heads) (ha : Acyclic k.heads)
    (hr : ∀ d ∈ AMap.values k.dlgs, KnownAs k d.delegate) :
    ∃ k', tryFromArchive E (k.intoArchive E) = .ok k' ∧ (∀ x, AMap.get k'.dlgs x = AMap.get k.dlgs x) ∧
      (∀ x, AMap.get k'.revs x = AMap.get k.revs x) ∧ k'.groups = k.groups.map (fun p => (p.1, unmark p.2)) ∧
      k'.docs = k.docs.map (fun p => (p.1, { p.2 with group := unmark p.2.group })) ∧ k'.reg = k.reg ∧ k'.unlisted = false ∧
      k'.pairs = k.pairs ∧ k'.pending = k.pending :=
  round_trip h hc ha hr

/-- A device with two groups, one in the other, a revocation and a document. -/
noncomputable def full : Keyhive := feed Sample.E k0 [.dlg kAlice, .dlg kBob, .dlg gTeam, .dlg gCarol, .rev rBob, .dlg docAlice, .cgka 300 s0]

theorem full_meets : Reach Sample.E full ∧ NoClash Sample.E.opDigest full.heads ∧ Acyclic full.heads ∧
    ∀ d ∈ AMap.values full.dlgs, KnownAs full d.delegate := by
  refine ⟨reach_feed reach_k0, noClash_of (by decide +kernel), acyclic_of_direct (noClash_of (by decide +kernel)) (direct_of (by decide +kernel)), ?_⟩
  have h : (AMap.values full.dlgs).all (fun d => knows full d.delegate) = true := by decide +kernel
  exact fun d hd => knownAs_of (List.all_eq_true.1 h d hd)

example : full.dlgs.length = 5 ∧ full.revs.length = 1 ∧ full.groups.length = 2 ∧ full.docs.length = 1 ∧ hasTree full 300 = true := by
  decide +kernel

/-- C38 fails in three ways. The members a group reports as taken out are forgotten by saving and loading. A device that has
learned that a known individual is a group, after this individual was given access, cannot be loaded. A device on which someone
has revoked the delegation that their own access comes from cannot be loaded. -/
theorem C38_fails :
    (∃ (E : Env) (k k' : Keyhive) (i : Id), Reach E k ∧ E.NoClash ∧ tryFromArchive E (k.intoArchive E) = .ok k' ∧
      revokedIn k i = [2] ∧ revokedIn k' i = []) ∧
    (∃ (E : Env) (k : Keyhive), Reach E k ∧ E.NoClash ∧ tryFromArchive E (k.intoArchive E) = .error .unknownAgent) ∧
    (∃ (E : Env) (k : Keyhive) (e : Err), Reach E k ∧ E.NoClash ∧ (AMap.values k.revs).length = 1 ∧ tryFromArchive E (k.intoArchive E) = .error e ∧
      (e = .missingRevocation ∨ e = .missingDelegation)) := by
  refine ⟨?_, ?_, ?_⟩
  · have h : (match tryFromArchive Sample.E (q5.intoArchive Sample.E) with
      | .ok k' => decide (revokedIn k' 200 = []) | .error _ => false) = true := by decide +kernel
    split at h
    · rename_i k' hk
      exact ⟨Sample.E, q5, k', 200, reach_feed reach_k0, E_noClash, hk, by decide +kernel, of_decide_eq_true h⟩
    · cases h
  · have h : (match tryFromArchive Sample.E (a1.intoArchive Sample.E) with
      | .ok _ => false | .error e => decide (e = .unknownAgent)) = true := by decide +kernel
    split at h
    · cases h
    · rename_i e he
      rw [of_decide_eq_true h] at he
      exact ⟨Sample.E, a1, reach_feed reach_k0, E_noClash, he⟩
  · have h : (match tryFromArchive Sample.E (a2.intoArchive Sample.E) with
      | .ok _ => false | .error e => decide (e = .missingRevocation ∨ e = .missingDelegation)) = true := by decide +kernel
    split at h
    · cases h
    · rename_i e he
      exact ⟨Sample.E, a2, e, reach_feed reach_k0, E_noClash, by decide +kernel, he, of_decide_eq_true h⟩

/-! ## C76: a loaded device carries on where the saved one was -/

/-- C76: take a device whose archive can be loaded as in C38. Whatever calls are then made on the saved and on the loaded device,
in the same order (receiving events, batches, contact cards and archives, creating groups and documents, adding and revoking
members, encrypting, decrypting and updating keys), the two stay alike: every further call has the same answer on both or returns on
neither, and they give every agent the same answer about the documents it can reach. Missing: devices whose own individual has been
taken out of the list (`C76_fails`), and those of `C38_fails`. -/
theorem C76_carries_on_partial {k : Keyhive} (h : Reach E k) (hc : NoClash E.opDigest k.heads) (ha : Acyclic k.heads)
    (hr : ∀ d ∈ AMap.values k.dlgs, KnownAs k d.delegate) (hu : k.unlisted = false) :
    ∃ k', tryFromArchive E (k.intoArchive E) = .ok k' ∧ ∀ calls : List Call, (∀ c ∈ calls, c.ByPrekeys) →
      Alike (k.afterCalls E calls) (k'.afterCalls E calls) ∧
      (∀ c : Call, c.ByPrekeys → c.answer E (k'.afterCalls E calls) = c.answer E (k.afterCalls E calls) ∨
        (c.answer E (k'.afterCalls E calls)).Stuck ∧ (c.answer E (k.afterCalls E calls)).Stuck) ∧
      ∀ i, (k'.afterCalls E calls).docsReachable i = (k.afterCalls E calls).docsReachable i := by
  obtain ⟨k', h1, h2, h3, h4, h5, h6, h7, h8, h9⟩ := round_trip h hc ha hr
  refine ⟨k', h1, fun calls hcalls => ?_⟩
  have hal : Alike k k' := by
    refine ⟨h6, h7.trans hu.symm, h8, h9, h2, h3, ?_, ?_⟩
    · rw [h4, List.map_map]; rfl
    · rw [h5, List.map_map]; rfl
  have ht := Twins.runAll (E := E) ⟨hal, (reach_stocked h).wfr, load_wf h1⟩ hcalls
  exact ⟨ht.alike, fun c hL => (ht.run hL).2, fun i => docsReachable_alike ht.alike i⟩

example : Reach Sample.E full ∧ NoClash Sample.E.opDigest full.heads ∧ Acyclic full.heads ∧
    (∀ d ∈ AMap.values full.dlgs, KnownAs full d.delegate) ∧ full.unlisted = false :=
  ⟨full_meets.1, full_meets.2.1, full_meets.2.2.1, full_meets.2.2.2, by decide +kernel⟩

/-- Creating a group and adding a member to it on that device succeed. -/
example : (∀ c ∈ [Call.newGroup sg 400 [], .addToGroup Sample.L 400 ⟨.individual, 1⟩ .edit []], c.ByPrekeys) ∧
    (match Call.answer Sample.E full (.newGroup sg 400 []) with | .made (.ok i) => i | _ => 0) = 400 ∧
    (match Call.answer Sample.E (full.afterCalls Sample.E [.newGroup sg 400 []])
      (.addToGroup Sample.L 400 ⟨.individual, 1⟩ .edit []) with | .added (.ok (d, _)) => d.delegate.id | _ => 0) = 1 := by
  refine ⟨?_, ?_, ?_⟩
  · intro c hc
    simp only [List.mem_cons, List.not_mem_nil, or_false] at hc
    rcases hc with rfl | rfl
    · exact trivial
    · exact fun _ _ _ => rfl
  · decide +kernel
  · decide +kernel

/-- The device's own key acts as if it were that of a group, … -/
def x5 : SDlg := ⟨5, 5001, 1, .admin, none, [], []⟩
/-- … once for Alice and once for Bob. -/
def y5 : SDlg := ⟨5, 5002, 2, .admin, none, [], []⟩
/-- A device that has received the first of these, and so has taken itself out of the list of individuals. -/
noncomputable def own : Keyhive := feed Sample.E k0 [.dlg x5]

/-- C76 fails: on loading, a device that had taken itself out of the list of individuals is in it again; receiving a delegation
makes a group on the saved device and none on the loaded one, although both calls succeed. -/
theorem C76_fails : ∃ (E : Env) (k k' : Keyhive) (s : SDlg), Reach E k ∧ NoClash E.opDigest k.heads ∧ Acyclic k.heads ∧
    (∀ d ∈ AMap.values k.dlgs, KnownAs k d.delegate) ∧ tryFromArchive E (k.intoArchive E) = .ok k' ∧
    (k.receive E (.dlg s)).2 = .ok () ∧ (k'.receive E (.dlg s)).2 = .ok () ∧
    AMap.get (k.receive E (.dlg s)).1.groups s.issuer ≠ none ∧ AMap.get (k'.receive E (.dlg s)).1.groups s.issuer = none := by
  have h : (match tryFromArchive Sample.E (own.intoArchive Sample.E) with
      | .ok k' => decide ((k'.receive Sample.E (.dlg y5)).2 = .ok ()) && decide ((AMap.get (k'.receive Sample.E (.dlg y5)).1.groups 5) = none)
      | .error _ => false) = true := by decide +kernel
  split at h
  · rename_i k' hk
    rw [Bool.and_eq_true] at h
    refine ⟨Sample.E, own, k', y5, reach_feed reach_k0, noClash_of (by decide +kernel),
      acyclic_of_direct (noClash_of (by decide +kernel)) (direct_of (by decide +kernel)), ?_, hk, by decide +kernel, of_decide_eq_true h.1,
      by decide +kernel, of_decide_eq_true h.2⟩
    have h : (AMap.values own.dlgs).all (fun d => knows own d.delegate) = true := by decide +kernel
    exact fun d hd => knownAs_of (List.all_eq_true.1 h d hd)
  · cases h

/-! ## C77: taking in an archive -/

/-- C77, the part that holds: when taking in an archive returns, the device has every prekey pair of the archive, had on the way
every individual and prekey operation of the archive besides its own, and has every delegation and revocation of the archive in
its stores or pending. The operations that are left are pending, and are reported back. Missing: that the call returns, and the
pending events and key trees of the archive (`C77_fails`). -/
theorem C77_takes_in_partial (hE : Function.Injective E.hashEvent) {ord : List Event → List Event} (hord : ∀ l, (ord l).Perm l)
    {k k' : Keyhive} (hk : Reach E k) (hu : k.unlisted = false) {a : Archive} (hp : AMap.WF a.pairs) {left : List Event}
    (h : k.ingestArchive E ord a = (k', some (.ok left))) :
    ∃ k1 k2, k1.dlgs = k.dlgs ∧ k1.revs = k.revs ∧ k1.groups = k.groups ∧ k1.docs = k.docs ∧
      (∀ pk, AMap.get k1.pairs pk = (AMap.get a.pairs pk).or (AMap.get k.pairs pk)) ∧
      Wider k.reg.indies k1.reg.indies ∧
      (∀ i x, AMap.get a.reg.indies i = some x → ¬ (i = a.reg.me ∧ a.unlisted = true) → ∃ y, AMap.get k1.reg.indies i = some y ∧
        ∀ h, AMap.get x.state h ≠ none → AMap.get y.state h ≠ none) ∧
      Fed E k1 k2 ∧ k' = { k2 with pending := left } ∧
      (∀ o ∈ a.ops, k'.HasOp E o ∨ o.event ∈ left) ∧ (∀ e ∈ left, e ∈ a.ops.map SMem.event ++ k.pending) := by
  have hm := merged_same k a
  have hs : StoreOk E (k.merged a) := (reach_storeOk hk).same hm.dlgs hm.revs
  obtain ⟨w1, w2⟩ := merged_wider hu a
  have hmem : ∀ e, e ∈ ord (Keyhive.dedup E (a.ops.map SMem.event ++ (k.merged a).pending)) ↔ e ∈ a.ops.map SMem.event ++ k.pending :=
    fun e => by rw [(hord _).mem_iff, dedup_mem hE, hm.pending]
  obtain ⟨k2, h1, h2, h3, h4, _⟩ := rounds_spec (k := k.merged a) h
  have hpend : k' = { k2 with pending := left } := by
    rw [h3]
    by_cases hl : left = []
    · rw [if_pos hl, hl]
      congr 1
      rw [List.filter_eq_nil_iff]
      intro e he
      have : E.hashEvent e ∈ (k.merged a).pending.map E.hashEvent := List.mem_map_of_mem he
      simpa [Keyhive.merged] using this
    · rw [if_neg hl]
  refine ⟨k.merged a, k2, hm.dlgs, hm.revs, hm.groups, hm.docs, merged_pairs k hp, w1, fun i x hx hn => w2 i x ?_, h1, hpend, fun o ho => ?_,
    fun e he => (hmem e).1 (h2.subset he)⟩
  · unfold Archive.individuals
    split
    · rename_i hl
      rw [AMap.get_erase, if_neg (fun e => hn ⟨e, hl⟩)]
      exact hx
    · exact hx
  rcases h4 o.event ((hmem _).2 (List.mem_append_left _ (List.mem_map_of_mem ho))) with h5 | ⟨err, h5⟩ | h5
  · have := handled_has hs h5
    rw [hpend]
    refine .inl ?_
    cases o <;> exact this
  · exact absurd h5 (handled_not_prekey o err)
  · exact .inr h5

/-- A new device of the same agent takes in the archive of the device above. -/
example : (k0.ingestArchive Sample.E id (full.intoArchive Sample.E)).2 = some (.ok []) ∧ k0.unlisted = false ∧
    (full.intoArchive Sample.E).ops.length = 6 ∧
    (k0.ingestArchive Sample.E id (full.intoArchive Sample.E)).1.dlgs.length = 5 := by decide +kernel

/-- C77 fails: a new device of the same agent that has taken in the archive knows the document but does not have its key tree,
which the archive has, so it cannot read anything; it has forgotten the event that was pending. And a device of agent 9 that
takes in an archive of agent 5 from then on counts the prekeys of agent 5 as its own. -/
theorem C77_fails :
    (∃ (E : Env) (k new k' : Keyhive), Reach E k ∧ Reach E new ∧ new.reg.me = k.reg.me ∧ E.NoClash ∧ Function.Injective E.hashEvent ∧
      new.ingestArchive E id (k.intoArchive E) = (k', some (.ok [])) ∧ AMap.contains k'.docs 300 = true ∧
      hasTree k 300 = true ∧ hasTree k' 300 = false ∧ k.pending.length = 1 ∧ k'.pending = []) ∧
    (∃ (E : Env) (k other k' : Keyhive), Reach E k ∧ Reach E other ∧ other.reg.me ≠ k.reg.me ∧
      other.ingestArchive E id (k.intoArchive E) = (k', some (.ok [])) ∧
      ownPrekeys k = [55] ∧ ownPrekeys other = [99] ∧ ownPrekeys k' = [99, 55]) := by
  refine ⟨⟨Sample.E, a3, k0, (k0.ingestArchive Sample.E id (a3.intoArchive Sample.E)).1, ?_, reach_k0, by decide +kernel, E_noClash, E_events, ?_,
    by decide +kernel, by decide +kernel, by decide +kernel, by decide +kernel, by decide +kernel⟩,
    ⟨Sample.E, k0, k9, (k9.ingestArchive Sample.E id (k0.intoArchive Sample.E)).1, reach_k0, .start _ _, by decide +kernel, by decide +kernel,
      by decide +kernel, by decide +kernel, by decide +kernel⟩⟩
  · exact .call (.ingest id [.dlg gCarol]) (reach_feed reach_k0) trivial
  · have : (k0.ingestArchive Sample.E id (a3.intoArchive Sample.E)).2 = some (.ok []) := by decide +kernel
    exact Prod.ext rfl this

/-! ## C78: archives and signatures -/

/-- C78, the part that holds: whatever an archive says, taking it in leaves no delegation or revocation in the stores whose
signature does not verify. Missing: loading a device from an archive (`C78_fails`). -/
theorem C78_taken_in_authentic_partial {k : Keyhive} (h : Reach E k) (ord : List Event → List Event) (a : Archive) :
    (∀ x d, AMap.get (k.ingestArchive E ord a).1.dlgs x = some d → E.dlgDigest d = x ∧ E.validDlg (E.sdlg d) = true) ∧
    (∀ x r, AMap.get (k.ingestArchive E ord a).1.revs x = some r → E.revDigest r = x ∧ E.validRev (E.srev r) = true) :=
  have hs := reach_storeOk (.call (.ingestArchive ord a) h trivial)
  ⟨hs.dlg, hs.rev⟩

/-- An archive with a delegation by the team's key that it did not sign. -/
def forged : Archive :=
  { reg := reg, unlisted := false, pairs := [(⟨55⟩, 55)], ops := [.dlg ⟨200, 0, 5, .admin, none, [], []⟩],
    groups := [(200, ⟨200, [(5, [hashDlg ⟨200, 0, 5, .admin, none, [], []⟩])], [hashDlg ⟨200, 0, 5, .admin, none, [], []⟩], []⟩)],
    docs := [], pending := [] }

example : (k0.ingestArchive Sample.E id forged).1.dlgs = [] := by decide +kernel

/-- C78 fails for loading: an archive that says agent 5 is admin of the team, with a signature that does not verify, is loaded, and
the team has agent 5 as a member. -/
theorem C78_fails : ∃ (E : Env) (a : Archive) (k : Keyhive) (g : Group), E.NoClash ∧ tryFromArchive E a = .ok k ∧
    AMap.get k.groups 200 = some g ∧ (∃ x, g.MemberBy 5 x ∧ E.validDlg (E.sdlg x) = false) := by
  have h : (match tryFromArchive Sample.E forged with
      | .ok k => (match AMap.get k.groups 200 with
        | some g => (match AMap.get g.members 5 with
          | some (x :: _) => !Sample.E.validDlg (Sample.E.sdlg x)
          | _ => false)
        | none => false)
      | .error _ => false) = true := by decide +kernel
  split at h
  · rename_i k hk
    split at h
    · rename_i g hg
      split at h
      · rename_i x xs hx
        exact ⟨Sample.E, forged, k, g, E_noClash, hk, hg, x, ⟨x :: xs, hx, by simp⟩, by simpa using h⟩
      · cases h
    · cases h
  · cases h

end Verif.Keyhive.ArchiveProps
