import Verif.Keyhive.RoleLemmas
import Verif.Keyhive.KeptSample

/-! # Individuals stay individuals, and forged events stand in nobody's way -/

namespace Verif.Keyhive.RoleProps

open Verif.Group Verif.Cgka Verif.BeeKem Verif.Keyhive.Sample

variable {E : Env} {Ind : Id → Prop}

/-! ## C83: an individual stays an individual -/

/-- C83: whatever a device receives and does, an individual never becomes a group or a document there.
Missing from the full property: here no key is used both for an individual and for a group (`C83_fails`), and no call that makes a
document fails half-way. -/
theorem C83_never_group_partial (hI : E.Individuals Ind) {k : Keyhive} (h : ReachPlain E Ind k) {i : Id} (hi : Ind i) :
    AMap.get k.groups i = none ∧ AMap.get k.docs i = none := by
  have := (reach_roles hI h).free i hi
  unfold Keyhive.Taken at this
  simpa using this

/-- C83: an individual that the device knows stays known, with every call.
Missing from the full property: as above. -/
theorem C83_stays_known_partial (hI : E.Individuals Ind) {k : Keyhive} (h : ReachPlain E Ind k) {c : Call} (hc : c.Honest E) (hp : c.Plain E Ind k)
    {i : Id} (hi : k.individual i ≠ none) : (c.run E k).individual i ≠ none := by
  have h0 := reach_roles hI h
  have hu : ∀ {k : Keyhive}, k.unlisted = false → k.individual i = AMap.get k.reg.indies i := by
    intro k hk
    unfold Keyhive.individual
    rw [hk]
    simp
  rw [hu h0.here] at hi
  have h1 := roles_call (J := fun j => j = i) hI (reach_kept h.reach)
    ⟨h0.free, h0.subj, h0.reg, h0.pend, h0.here, fun j hj => by rw [hj]; exact hi⟩ c hc hp
  rw [hu h1.here]
  exact h1.known i rfl

/-- C83: operations that name a known individual are about that individual.
Missing from the full property: as above. -/
theorem C83_resolved_partial (hI : E.Individuals Ind) {k : Keyhive} (h : ReachPlain E Ind k) {i : Id} (hi : k.individual i ≠ none) (hne : i ≠ k.reg.me) :
    k.getAgent i = some ⟨.individual, i⟩ := by
  have h0 := reach_roles hI h
  have hi' : Ind i := by
    unfold Keyhive.individual at hi
    split at hi
    · exact absurd rfl hi
    · cases hx : AMap.get k.reg.indies i with
      | none => exact absurd hx hi
      | some x => exact (h0.reg i x hx).2
  obtain ⟨h1, h2⟩ := C83_never_group_partial hI h hi'
  unfold Keyhive.getAgent
  rw [if_neg hne, if_neg (by simp [AMap.contains, h2]), if_neg (by simp [AMap.contains, h1]), if_pos (Option.isSome_iff_ne_none.2 hi)]

-- A team with Alice and Bob, a group with the team in it, and a document: Alice is still an individual.
example : EP.Individuals (fun i => i < 100) ∧
    ReachPlain EP (fun i => i < 100) (feed EP k0 [.dlg kAlice, .dlg kBob, .dlg gTeam, .dlg gCarol, .rev rBob, .dlg docAlice]) ∧
    (1 < 100) ∧ (feed EP k0 [.dlg kAlice, .dlg kBob, .dlg gTeam, .dlg gCarol, .rev rBob, .dlg docAlice]).individual 1 ≠ none ∧
    (feed EP k0 [.dlg kAlice, .dlg kBob, .dlg gTeam, .dlg gCarol, .rev rBob, .dlg docAlice]).revs.length = 1 :=
  ⟨EP_individuals, plain_feed (by intro op h; simp at h) plain_k0, by decide, by decide +kernel, by decide +kernel⟩

/-- C83 fails: agent 7, known as an individual, signs a delegation to Alice as if it were a group, and Alice passes the access on to Bob.
Alice's key has signed no delegation without a proof, but the device now takes Alice for a group, and one without members. When a
document's key then makes Alice admin, Alice is not among the individuals with access (those get keys), as they otherwise would be. -/
theorem C83_fails : ∃ (E : Env) (k : Keyhive) (x y s : SDlg) (d d' : Doc) (l l' : List (Id × Agent × Access)),
    E.NoClash ∧ E.Individuals (fun i => i = 1) ∧ Reach E k ∧ k.individual 1 ≠ none ∧ x.issuer = 7 ∧ y.issuer = 1 ∧ s.delegate = 1 ∧ s.can = .admin ∧
    AMap.get (feed E k [.dlg x, .dlg y]).groups 1 ≠ none ∧
    AMap.get (feed E k [.dlg s]).docs s.issuer = some d ∧ transitiveMembers (feed E k [.dlg s]).world [] d.group = .ok l ∧
    (1, ⟨.individual, 1⟩, .admin) ∈ l ∧
    AMap.get (feed E k [.dlg x, .dlg y, .dlg s]).docs s.issuer = some d' ∧
    transitiveMembers (feed E k [.dlg x, .dlg y, .dlg s]).world [] d'.group = .ok l' ∧ (∀ m ∈ l', m.2.1.kind ≠ .individual) := by
  have h : (match AMap.get (feed EA k0 [.dlg docAlice]).docs 300 with
    | some d =>
      (match transitiveMembers (feed EA k0 [.dlg docAlice]).world [] d.group with
      | .ok l => decide ((1, ⟨.individual, 1⟩, .admin) ∈ l)
      | .error _ => false)
    | none => false) = true := by decide +kernel
  have h' : (match AMap.get (feed EA k0 [.dlg x7, .dlg share, .dlg docAlice]).docs 300 with
    | some d =>
      (match transitiveMembers (feed EA k0 [.dlg x7, .dlg share, .dlg docAlice]).world [] d.group with
      | .ok l => decide (∀ m ∈ l, m.2.1.kind ≠ .individual)
      | .error _ => false)
    | none => false) = true := by decide +kernel
  split at h
  · rename_i d hd
    split at h
    · rename_i l hl
      split at h'
      · rename_i d' hd'
        split at h'
        · rename_i l' hl'
          exact ⟨EA, k0, x7, share, docAlice, d, d', l, l', ⟨hashDlg_injective, hashRev_injective⟩, EA_alice, .start reg _, by decide +kernel, rfl, rfl, rfl, rfl,
            by decide +kernel, hd, hl, of_decide_eq_true h, hd', hl', of_decide_eq_true h'⟩
        · cases h'
      · cases h'
    · cases h
  · cases h

/-! ## C85: forged events -/

/-- The signature of the event does not verify. -/
def Forged (E : Env) : Event → Prop
  | .prekey op => E.validKey op = false
  | .cgka did op => E.validCgka did op = false
  | .dlg s => E.validDlg s = false
  | .rev s => E.validRev s = false

/-- C85: a forged event changes nothing.
Missing from the full property: prekeys of agents of which the device has no prekeys yet (`C85_fails`). -/
theorem C85_forged_partial {k : Keyhive} {e : Event} (hf : Forged E e)
    (hk : ∀ op, e = .prekey op → k.reg.Known (.event op)) : (k.receive E e).1 = k := by
  cases e with
  | prekey op =>
    have h1 : (k.reg.receivePrekeyOp E.hashKey E.validKey op).1 = k.reg := Prekey.Registry.forged_known E.hashKey (.event op) hf (hk op rfl)
    show ({ k with reg := _ } : Keyhive) = k
    rw [h1]
  | cgka did op =>
    show (k.receiveCgkaOp E did op).1 = k
    unfold Keyhive.receiveCgkaOp
    rw [show E.validCgka did op = false from hf]
    rfl
  | dlg s =>
    show (k.receiveDelegation E s).1 = k
    unfold Keyhive.receiveDelegation
    rw [show E.validDlg s = false from hf]
    split <;> rfl
  | rev s =>
    show (k.receiveRevocation E s).1 = k
    unfold Keyhive.receiveRevocation
    rw [show E.validRev s = false from hf]
    split <;> rfl

/-- C85: a genuine first delegation of a group or document, once received, makes it known, whatever was received before.
Missing from the full property: here the device has not received prekeys in the name of the group or document (`C85_fails`). -/
theorem C85_genuine_partial (hn : E.NoClash) (hI : E.Individuals Ind) {k k' : Keyhive} (h : ReachPlain E Ind k) {s : SDlg} (hs : s.proof = none)
    (hr : k.receive E (.dlg s) = (k', .ok ())) : AMap.get k'.groups s.issuer ≠ none ∨ AMap.get k'.docs s.issuer ≠ none := by
  have hk' : Roles Ind (fun _ => False) k' := by
    have := reach_roles hI (.call (.receive (.dlg s)) h trivial trivial)
    rwa [show Call.run E k (.receive (.dlg s)) = k' from congrArg Prod.fst hr] at this
  have hst := reach_storeOk (.call (.receive (.dlg s)) h.reach trivial)
  rw [show Call.run E k (.receive (.dlg s)) = k' from congrArg Prod.fst hr] at hst
  have hg := (grown_receiveDelegation (reach_storeOk h.reach) s).2 (congrArg Prod.snd hr)
  rw [show (k.receiveDelegation E s).1 = k' from congrArg Prod.fst hr] at hg
  cases hd : AMap.get k'.dlgs (E.hashDlg s) with
  | none => exact absurd hd hg
  | some d =>
    obtain ⟨h1, -⟩ := hst.dlg _ _ hd
    have ht := hk'.subj _ _ hd
    have : d.subject = s.issuer := by
      cases d with
      | root i t a c rs x => exact congrArg SDlg.issuer (hn.dlg h1)
      | link i t a c p rs x =>
        have := congrArg SDlg.proof (hn.dlg h1)
        rw [hs] at this
        cases this
    rw [this] at ht
    exact ht

-- The document of which the device lost sight in `C85_fails`.
example : ReachPlain EP (fun i => i < 100) (feed EP k0 [.dlg kAlice]) ∧ docAlice.proof = none ∧
    (feed EP k0 [.dlg kAlice]).receive EP (.dlg docAlice) = (feed EP k0 [.dlg kAlice, .dlg docAlice], .ok ()) :=
  ⟨plain_feed (by intro op h; simp at h) plain_k0, rfl, by decide +kernel⟩

example : Forged Sample.E (.prekey ⟨1, 9, .add 309⟩) ∧ k0.reg.Known (.event ⟨1, 9, .add 309⟩) := by
  unfold Forged
  exact ⟨by decide +kernel, by decide +kernel⟩

/-- C85 fails: an unsigned prekey of document 300, received before the first delegation of the document, makes the device lose the
document: it says that it has taken in the delegation, and does not know the document. -/
theorem C85_fails : ∃ (E : Env) (k k' : Keyhive) (op : Prekey.KeyOp) (s : SDlg), E.NoClash ∧ Reach E k ∧
    E.validKey op = false ∧ E.validDlg s = true ∧ s.proof = none ∧ s.issuer = 300 ∧
    AMap.get (k.receive E (.dlg s)).1.docs 300 ≠ none ∧
    (k.receive E (.prekey op)).1.receive E (.dlg s) = (k', .ok ()) ∧
    AMap.get k'.docs 300 = none ∧ AMap.get k'.groups 300 = none ∧ k'.getAgent 300 = none :=
  ⟨Sample.E, k0, feed Sample.E k0 [.prekey forged300, .dlg docAlice], forged300, docAlice, E_noClash, reach_k0, by decide +kernel, by decide +kernel, rfl, rfl,
    by decide +kernel, by decide +kernel, by decide +kernel, by decide +kernel, by decide +kernel⟩

end Verif.Keyhive.RoleProps
