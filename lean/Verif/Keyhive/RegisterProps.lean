import Verif.Keyhive.RegisterLemmas
import Verif.Keyhive.SettleLemmas
import Verif.Keyhive.KeptSample

/-! # C102: registering peers -/

namespace Verif.Keyhive.RegisterProps

open Verif.Group Verif.Cgka Verif.BeeKem Sample

variable {E : Env}

/-- C102: registering a peer succeeds exactly if nobody is known under its id; otherwise nothing changes. -/
theorem C102_peer (k : Keyhive) (p : Peer) :
    ((k.registerPeer p).2 = true ↔ k.getPeer p.id = none) ∧ ((k.registerPeer p).2 = false → (k.registerPeer p).1 = k) := by
  unfold Keyhive.registerPeer
  cases h : k.getPeer p.id with
  | none => simp
  | some q => simp

theorem individual_insert {k : Keyhive} {i : Id} {x : Prekey.Indie} (hl : i ≠ k.reg.me ∨ k.unlisted = false) (j : Id) :
    (k.insertIndividual i x).individual j = if j = i then some x else k.individual j := by
  unfold Keyhive.insertIndividual
  rw [if_neg (fun ⟨h1, h2⟩ => hl.elim (fun h => h h1) (fun h => by rw [h] at h2; cases h2))]
  unfold Keyhive.individual
  simp only [AMap.get_insert]
  by_cases hj : j = i
  · subst hj
    rw [if_neg (fun ⟨h1, h2⟩ => hl.elim (fun h => h h1) (fun h => by rw [h] at h2; cases h2))]
    simp
  · simp [hj]

theorem insertIndividual_rest (k : Keyhive) (i : Id) (x : Prekey.Indie) :
    (k.insertIndividual i x).docs = k.docs ∧ (k.insertIndividual i x).groups = k.groups ∧ (k.insertIndividual i x).dlgs = k.dlgs ∧
    (k.insertIndividual i x).revs = k.revs ∧ (k.insertIndividual i x).pairs = k.pairs ∧ (k.insertIndividual i x).pending = k.pending ∧
    (k.insertIndividual i x).reg.me = k.reg.me ∧ (k.insertIndividual i x).unlisted = k.unlisted := by
  unfold Keyhive.insertIndividual
  split <;> exact ⟨rfl, rfl, rfl, rfl, rfl, rfl, rfl, rfl⟩

/-- C102: a registered peer is then found under its id, as it was given, and everybody else as before. (The device's own individual
has not been taken out of the list; see the model.) -/
theorem C102_peer_found {k : Keyhive} {p : Peer} (hl : p.id ≠ k.reg.me ∨ k.unlisted = false) (h : (k.registerPeer p).2 = true) (j : Id) :
    (k.registerPeer p).1.getPeer j = if j = p.id then some p else k.getPeer j := by
  have hn := (C102_peer k p).1.1 h
  have hd : AMap.get k.docs p.id = none := by
    unfold Keyhive.getPeer at hn
    split at hn
    · cases hn
    · assumption
  have hg : AMap.get k.groups p.id = none := by
    unfold Keyhive.getPeer at hn
    rw [hd] at hn
    simp only at hn
    split at hn
    · cases hn
    · assumption
  unfold Keyhive.registerPeer
  rw [hn]
  simp only [Option.isSome_none, Bool.false_eq_true, if_false]
  cases p with
  | individual i x =>
    obtain ⟨r1, r2, _⟩ := insertIndividual_rest k i x
    simp only [Peer.id] at hl hd hg ⊢
    simp only [Keyhive.insertPeer, Keyhive.getPeer, r1, r2, individual_insert hl]
    by_cases hj : j = i
    · subst hj; simp [hd, hg]
    · simp [hj]
  | group i g =>
    simp only [Peer.id] at hd hg ⊢
    simp only [Keyhive.insertPeer, Keyhive.getPeer, AMap.get_insert]
    by_cases hj : j = i
    · subst hj; simp [hd]
    · simp [hj, Keyhive.individual]
  | document i d =>
    simp only [Peer.id] at hd hg ⊢
    simp only [Keyhive.insertPeer, Keyhive.getPeer, AMap.get_insert]
    by_cases hj : j = i
    · subst hj; simp
    · simp [hj, Keyhive.individual]

/-- C102: registering a peer leaves alone the operations on record, the secrets, the pending events and the device's own id. -/
theorem C102_peer_rest (k : Keyhive) (p : Peer) : (k.registerPeer p).1.dlgs = k.dlgs ∧ (k.registerPeer p).1.revs = k.revs ∧
    (k.registerPeer p).1.pairs = k.pairs ∧ (k.registerPeer p).1.pending = k.pending ∧ (k.registerPeer p).1.reg.me = k.reg.me := by
  unfold Keyhive.registerPeer
  split
  · exact ⟨rfl, rfl, rfl, rfl, rfl⟩
  · cases p with
    | individual i x =>
      obtain ⟨_, _, r3, r4, r5, r6, r7, _⟩ := insertIndividual_rest k i x
      exact ⟨r3, r4, r5, r6, r7⟩
    | group i g => exact ⟨rfl, rfl, rfl, rfl, rfl⟩
    | document i d => exact ⟨rfl, rfl, rfl, rfl, rfl⟩

/-- C102: registering an individual succeeds exactly if no individual is known under its id, and then it is found among the individuals,
and the others as before; otherwise nothing changes. -/
theorem C102_individual (k : Keyhive) (x : Prekey.Indie) :
    ((k.registerIndividual x).2 = true ↔ k.individual x.id = none) ∧ ((k.registerIndividual x).2 = false → (k.registerIndividual x).1 = k) ∧
    ((x.id ≠ k.reg.me ∨ k.unlisted = false) → (k.registerIndividual x).2 = true →
      ∀ j, (k.registerIndividual x).1.individual j = if j = x.id then some x else k.individual j) := by
  unfold Keyhive.registerIndividual
  cases h : k.individual x.id with
  | none => simpa using fun hl => individual_insert hl
  | some q => simp

/-- C102: whoever was found under an id is found there after registering an individual. -/
theorem C102_individual_known {k : Keyhive} {x : Prekey.Indie} (hl : x.id ≠ k.reg.me ∨ k.unlisted = false) {j : Id} {p : Peer}
    (h : k.getPeer j = some p) : (k.registerIndividual x).1.getPeer j = some p := by
  cases hr : (k.registerIndividual x).2 with
  | false => rw [(C102_individual k x).2.1 hr]; exact h
  | true =>
    have hn := (C102_individual k x).1.1 hr
    have hi := (C102_individual k x).2.2 hl hr j
    have hrest : (k.registerIndividual x).1.docs = k.docs ∧ (k.registerIndividual x).1.groups = k.groups := by
      unfold Keyhive.registerIndividual
      split
      · exact ⟨rfl, rfl⟩
      · exact ⟨(insertIndividual_rest k x.id x).1, (insertIndividual_rest k x.id x).2.1⟩
    unfold Keyhive.getPeer at h ⊢
    rw [hrest.1, hrest.2, hi]
    by_cases hj : j = x.id
    · subst hj
      rw [hn] at h
      rw [if_pos rfl]
      split
      · rename_i d hd; rw [hd] at h; exact h
      · rename_i hd
        rw [hd] at h
        dsimp only at h
        split
        · rename_i g hg; rw [hg] at h; exact h
        · rename_i hg; rw [hg] at h; cases h
    · rw [if_neg hj]; exact h

/-- C102: registering a group succeeds exactly if no group is known under the subject of the delegation; otherwise nothing changes. -/
theorem C102_group (k : Keyhive) (d : Dlg) :
    ((k.registerGroup E d).2 = true ↔ AMap.get k.groups d.subject = none) ∧ ((k.registerGroup E d).2 = false → (k.registerGroup E d).1 = k) := by
  unfold Keyhive.registerGroup
  rw [contains_eq_isSome]
  cases h : AMap.get k.groups d.subject with
  | none => simp
  | some q => simp

/-- C102: after registering a group there is, under the issuer of the delegation, a group whose history is the past of the delegation;
the delegation and its lineage are on record; no other group, no document, individual or secret has changed, and no operation is lost. -/
theorem C102_group_made {k : Keyhive} {d : Dlg} (h : (k.registerGroup E d).2 = true) :
    (∃ g, AMap.get (k.registerGroup E d).1.groups d.issuer = some g ∧ g.id = d.issuer ∧ g.heads = [.dlg d]) ∧
    (∀ j, j ≠ d.issuer → AMap.get (k.registerGroup E d).1.groups j = AMap.get k.groups j) ∧
    (k.registerGroup E d).1.docs = k.docs ∧ (∀ j, (k.registerGroup E d).1.individual j = k.individual j) ∧
    (k.registerGroup E d).1.pairs = k.pairs ∧ (k.registerGroup E d).1.pending = k.pending ∧
    AMap.get (k.registerGroup E d).1.dlgs (E.dlgDigest d) ≠ none ∧
    (AMap.get k.dlgs (E.dlgDigest d) = none → ∀ x ∈ d.lineage, AMap.get (k.registerGroup E d).1.dlgs (E.dlgDigest x) ≠ none) ∧
    (∀ x, AMap.get k.dlgs x ≠ none → AMap.get (k.registerGroup E d).1.dlgs x ≠ none) ∧
    (∀ x, AMap.get k.revs x ≠ none → AMap.get (k.registerGroup E d).1.revs x ≠ none) := by
  have hn := (C102_group k d).1.1 h
  have he : k.registerGroup E d = ((Keyhive.storePast E d.weight [d] k).insertGroup (Group.new E.opDigest d), true) := by
    unfold Keyhive.registerGroup
    rw [if_neg]
    rw [contains_eq_isSome, hn]; exact Bool.false_ne_true
  obtain ⟨n, hw⟩ : ∃ n, d.weight = n + 1 := ⟨d.weight - 1, by have := weight_pos d; omega⟩
  have hs := richer_past (E := E) d.weight [d] k
  have hid : (Group.new E.opDigest d).id = d.issuer := rfl
  rw [he]
  refine ⟨⟨Group.new E.opDigest d, ?_, rfl, (new_heads d).1⟩, fun j hj => ?_, hs.docs, fun j => ?_, hs.pairs, hs.pending, ?_, fun h0 x hx => ?_, hs.dlgs, hs.revs⟩
  · show AMap.get (AMap.insert _ (Group.new E.opDigest d).id _) d.issuer = _
    rw [hid, AMap.get_insert_self]
  · show AMap.get (AMap.insert _ (Group.new E.opDigest d).id _) j = _
    rw [hid, AMap.get_insert, if_neg hj, hs.groups]
  · simp only [Keyhive.individual, Keyhive.insertGroup, hs.reg, hs.unlisted]
  · rw [hw]; exact past_has n d [] k
  · rw [hw]; exact past_lineage n [] h0 hx

/-- C102: registering a group changes no group that the device knows.
Missing from the full property: the delegation is by the group itself (`C102_fails`). -/
theorem C102_group_partial {k : Keyhive} {d : Dlg} (hi : d.subject = d.issuer) {j : Id} {g : Group} (h : AMap.get k.groups j = some g) :
    AMap.get (k.registerGroup E d).1.groups j = some g := by
  cases hr : (k.registerGroup E d).2 with
  | false => rw [(C102_group k d).2 hr]; exact h
  | true =>
    rw [(C102_group_made hr).2.1 j ?_]
    · exact h
    · rintro rfl
      have := (C102_group k d).1.1 hr
      rw [hi, h] at this
      cases this

/-- C102: the bound on the rounds in the model is never used up: more rounds give the same. -/
theorem C102_rounds (k : Keyhive) (d : Dlg) (n : Nat) (h : d.weight ≤ n) :
    Keyhive.storePast E n [d] k = Keyhive.storePast E d.weight [d] k :=
  past_fuel _ _ _ _ (by simpa [weights] using h) (by simp [weights])

/-- A device that knows team 200, with Alice and Bob, and Alice's document 300. -/
noncomputable def crew : Keyhive := feed Sample.E k0 [.dlg kAlice, .dlg kBob, .dlg docAlice]

theorem reach_crew : Reach Sample.E crew := reach_feed' reach_k0

/-- Team 900 makes team 200 a member; … -/
def d900 : Dlg := .root 900 900001 ⟨.group, 200⟩ .admin .nil []
/-- … the key of team 200 passes this on to Carol. -/
def d200 : Dlg := .link 200 200009 ⟨.individual, 3⟩ .read d900 .nil []

-- A group, an individual and a document come from elsewhere.
example : crew.getPeer 900 = none ∧ (crew.registerPeer (.group 900 (Group.new Sample.E.opDigest d900))).2 = true ∧
    (crew.registerPeer (.individual 200 (card 9).2)).2 = false ∧ (crew.registerIndividual (card 9).2).2 = true ∧
    (crew.registerIndividual (card 7).2).2 = false ∧ (crew.registerGroup Sample.E d900).2 = true ∧ d900.subject = d900.issuer ∧
    (AMap.get crew.groups 200).isSome = true ∧ (crew.registerGroup Sample.E (.root 200 200010 ⟨.individual, 3⟩ .admin .nil [])).2 = false ∧
    crew.unlisted = false :=
  ⟨by decide +kernel, by decide +kernel, by decide +kernel, by decide +kernel, by decide +kernel, by decide +kernel, by decide +kernel,
    by decide +kernel, by decide +kernel, by decide +kernel⟩

/-- C102 fails for groups: with a delegation by the key of a known group about an unknown one, all properly signed, registering a group
succeeds and puts a new group in the place of the known one, in which nobody is a member.
A delegation whose signature is wrong is taken as well, and is then on record. And a group is registered under the id of a known
document, an individual under that of a known group. -/
theorem C102_fails :
    (∃ (E : Env) (k : Keyhive) (d : Dlg) (g g' : Group), Reach E k ∧ E.NoClash ∧ E.validDlg (E.sdlg d) = true ∧
      (∀ x ∈ d.lineage, E.validDlg (E.sdlg x) = true) ∧ AMap.get k.groups d.issuer = some g ∧ (k.registerGroup E d).2 = true ∧
      AMap.get (k.registerGroup E d).1.groups d.issuer = some g' ∧ (∃ x, g.MemberBy 1 x) ∧ (∃ x, g.MemberBy 2 x) ∧
      ∀ i x, ¬ g'.MemberBy i x) ∧
    (∃ (E : Env) (k : Keyhive) (d : Dlg), Reach E k ∧ E.NoClash ∧ E.validDlg (E.sdlg d) = false ∧ (k.registerGroup E d).2 = true ∧
      AMap.get (k.registerGroup E d).1.dlgs (E.dlgDigest d) = some d) ∧
    (∃ (E : Env) (k : Keyhive) (d : Dlg), Reach E k ∧ E.NoClash ∧ E.validDlg (E.sdlg d) = true ∧ d.proof = none ∧
      AMap.get k.docs d.issuer ≠ none ∧ (k.registerGroup E d).2 = true) ∧
    (∃ (E : Env) (k : Keyhive) (x : Prekey.Indie), Reach E k ∧ AMap.get k.groups x.id ≠ none ∧ (k.registerIndividual x).2 = true) := by
  refine ⟨?_, ?_, ?_, ?_⟩
  · have h : (match AMap.get crew.groups 200, AMap.get (crew.registerGroup Sample.E d200).1.groups 200 with
      | some g, some g' => (match AMap.get g.members 1 with | some (_ :: _) => true | _ => false) &&
          (match AMap.get g.members 2 with | some (_ :: _) => true | _ => false) && decide (g'.members = [])
      | _, _ => false) = true := by decide +kernel
    split at h
    · rename_i g g' h1 h2
      simp only [Bool.and_eq_true, decide_eq_true_eq] at h
      refine ⟨Sample.E, crew, d200, g, g', reach_crew, E_noClash, by decide +kernel, by decide +kernel, h1, by decide +kernel, h2, ?_, ?_, ?_⟩
      · have := h.1.1
        split at this
        · rename_i x l hx; exact ⟨x, _, hx, by simp⟩
        · cases this
      · have := h.1.2
        split at this
        · rename_i x l hx; exact ⟨x, _, hx, by simp⟩
        · cases this
      · rintro i x ⟨l, hl, _⟩
        rw [h.2] at hl; cases hl
    · cases h
  · exact ⟨Sample.E, crew, .root 900 1 ⟨.group, 200⟩ .admin .nil [], reach_crew, E_noClash, by decide +kernel, by decide +kernel, by decide +kernel⟩
  · exact ⟨Sample.E, crew, .root 300 300009 ⟨.individual, 3⟩ .admin .nil [], reach_crew, E_noClash, by decide +kernel, by decide +kernel,
      by decide +kernel, by decide +kernel⟩
  · exact ⟨Sample.E, crew, (card 200).2, reach_crew, by decide +kernel, by decide +kernel⟩

end Verif.Keyhive.RegisterProps
