import Verif.Keyhive.AgainSpec
import Verif.Keyhive.StatsLemmas
import Verif.Keyhive.HandedProps
import Verif.Keyhive.KeptProps
import Verif.Keyhive.RefuseProps
import Verif.Keyhive.ToldLemmas
import Verif.Prekey.Props

/-!
# Receiving an event again (C133)
-/

namespace Verif.Keyhive.AgainProps

open Verif.Group Verif.Cgka Verif.BeeKem

variable {E : Env}

theorem since_reach {k k' : Keyhive} (hk : Reach E k) (h : Since E k k') : Reach E k' := by
  induction h with
  | refl => exact hk
  | call c _ hc ih => exact .call c ih hc

theorem since_grown {k k' : Keyhive} (hk : Reach E k) (h : Since E k k') : Grown k k' := by
  induction h with
  | refl => exact .rfl' k
  | call c h hc ih => exact ih.trans (grown_call (since_reach hk h) c)

theorem replace_same {did : Id} {d : Doc} : ∀ {m : AMap Id Doc}, AMap.get m did = some d → Keyhive.replace did d m = m
  | [], h => by cases h
  | p :: m, h => by
    unfold Keyhive.replace
    by_cases hp : p.1 = did
    · rw [if_pos hp]
      obtain ⟨i, x⟩ := p
      cases hp
      have : x = d := by simpa [AMap.get] using h
      rw [this]
    · rw [if_neg hp, replace_same (m := m) (by simpa [AMap.get, hp] using h)]

theorem setDoc_same {k : Keyhive} {did : Id} {d : Doc} (h : AMap.get k.docs did = some d) : k.setDoc did d = k := by
  unfold Keyhive.setDoc
  rw [replace_same h]

theorem merge_known {H : SOp → Nat} {c : Cgka} {op : SOp} (h : AMap.get c.graph.ops (H op) ≠ none) :
    c.mergeConcurrentOperation H op = (c, .ok false) := by
  unfold Cgka.mergeConcurrentOperation
  rw [if_pos]
  unfold Graph.containsOpHash
  rw [contains_eq_isSome]
  exact Option.isSome_iff_ne_none.2 h

theorem insert_insert {K V : Type} [DecidableEq K] (m : AMap K V) (a : K) (v w : V) : AMap.insert (AMap.insert m a v) a w = AMap.insert m a w := by
  simp [AMap.insert, AMap.erase, List.filter_filter]

theorem receive_valid {H : Prekey.KeyOp → Nat} {valid : Prekey.KeyOp → Bool} {op : Prekey.KeyOp} (hv : valid op = true) {i : Prekey.Indie} (hi : op.issuer = i.id) :
    i.receive H valid op = .ok { i with state := AMap.insert i.state (H op) op, prekeys := Prekey.State.build (AMap.insert i.state (H op) op) } := by
  simp [Prekey.Indie.receive, hi, Prekey.State.insertOp, hv, bind, Except.bind, pure, Except.pure, CaMap.insert]

theorem indie_again {H : Prekey.KeyOp → Nat} {valid : Prekey.KeyOp → Bool} {op : Prekey.KeyOp} (hv : valid op = true) {i i' : Prekey.Indie}
    (h : i.receive H valid op = .ok i') : op.issuer = i.id ∧ i'.id = i.id ∧ i'.receive H valid op = .ok i' := by
  have hi : op.issuer = i.id := by
    unfold Prekey.Indie.receive at h
    by_contra hn
    rw [if_pos hn] at h
    cases h
  rw [receive_valid hv hi] at h
  cases h
  refine ⟨hi, rfl, ?_⟩
  rw [receive_valid hv (by exact hi)]
  simp only [insert_insert]

theorem new_again {H : Prekey.KeyOp → Nat} {valid : Prekey.KeyOp → Bool} {op : Prekey.KeyOp} (hv : valid op = true) :
    (Prekey.Indie.new H op).receive H valid op = .ok (Prekey.Indie.new H op) := by
  rw [receive_valid hv rfl]
  simp [Prekey.Indie.new, Prekey.State.new, CaMap.insert, CaMap.new, AMap.insert, AMap.erase]

theorem receiveIndie_again {H : Prekey.KeyOp → Nat} {valid : Prekey.KeyOp → Bool} {op : Prekey.KeyOp} (hv : valid op = true) {r r1 : Prekey.Registry}
    {i : Prekey.Indie} (h : r.receiveIndie H valid i op = (r1, .ok ())) :
    r1.me = r.me ∧ r1.pub = r.pub ∧ r1.membered = r.membered ∧
      ∃ i', AMap.get r1.indies op.issuer = some i' ∧ r1.receiveIndie H valid i' op = (r1, .ok ()) := by
  unfold Prekey.Registry.receiveIndie at h
  split at h
  · cases h
  · rename_i i' hi
    cases h
    obtain ⟨h1, h2, h3⟩ := indie_again hv hi
    refine ⟨rfl, rfl, rfl, i', by rw [h1, AMap.get_insert, if_pos rfl], ?_⟩
    unfold Prekey.Registry.receiveIndie
    rw [h3]
    simp only [h2, insert_insert]

theorem registry_again {H : Prekey.KeyOp → Nat} {valid : Prekey.KeyOp → Bool} {op : Prekey.KeyOp} (hv : valid op = true) {r r1 : Prekey.Registry}
    (h : r.receivePrekeyOp H valid op = (r1, .ok ())) : r1.receivePrekeyOp H valid op = (r1, .ok ()) := by
  unfold Prekey.Registry.receivePrekeyOp at h
  split at h
  · rename_i hp
    cases h
    unfold Prekey.Registry.receivePrekeyOp
    rw [if_pos hp]
  · rename_i hp
    split at h
    · rename_i known hk
      have hm : op.issuer ≠ r.me := fun he => by rw [if_pos he] at hk; cases hk
      unfold Prekey.Registry.receiveMembered at h
      split at h
      · cases h
        unfold Prekey.Registry.receivePrekeyOp
        rw [if_neg hp]
        simp only [if_neg hm, AMap.get_insert, if_true, Prekey.Registry.receiveMembered, new_again hv, insert_insert]
      · split at h
        · cases h
        · rename_i i' hi
          cases h
          unfold Prekey.Registry.receivePrekeyOp
          rw [if_neg hp]
          simp only [if_neg hm, AMap.get_insert, if_true, Prekey.Registry.receiveMembered, (indie_again hv hi).2.2, insert_insert]
    · rename_i hk
      have key : ∀ {r0 : Prekey.Registry} {i : Prekey.Indie}, r0.me = r.me → r0.pub = r.pub → r0.membered = r.membered →
          r0.receiveIndie H valid i op = (r1, .ok ()) → r1.receivePrekeyOp H valid op = (r1, .ok ()) := by
        intro r0 i e1 e2 e3 h
        obtain ⟨h1, h2, h3, i', h4, h5⟩ := receiveIndie_again hv h
        unfold Prekey.Registry.receivePrekeyOp
        rw [h2, e2, if_neg hp, h1, e1, h3, e3, hk]
        simp only [h4, h5]
      split at h
      · exact key rfl rfl rfl h
      · refine key ?_ ?_ ?_ h <;> (unfold Prekey.Registry.registerIndividual; split <;> rfl)

theorem still_owner {d : Doc} {c : Cgka} (hc : d.cgka = some c) (id : MemberId) {sks : ShareKeyMap}
    (hs : ∀ pk, AMap.get c.ownerSks pk ≠ none → AMap.get sks pk ≠ none) :
    Still d { d with cgka := some (withPublic (c.withNewOwner id sks)) } := by
  refine Still.before (c1 := withPublic (c.withNewOwner id sks)) hc rfl rfl rfl ?_ (.refl _)
  intro pk hp
  simp only [withPublic, Cgka.withNewOwner, AMap.get_insert]
  split
  · simp
  · exact hs pk hp

theorem invite_again {H : SOp → Nat} (hH : Function.Injective H) {d : Doc} {c : Cgka} (hc : d.cgka = some c) (hr : Cgka.Reach H c) {op : SOp}
    (ho : AMap.get c.graph.ops (H op) = some op) {id : MemberId} {pk : Pk} {l : Nat} {ps qs : List Nat} (hp : op.payload = .add id pk l ps qs) (sk : Sk) :
    d.mergeCgkaInviteOp H op sk =
      ({ d with cgka := some (withPublic (c.withNewOwner id (AMap.insert c.ownerSks pk sk))) }, .ok false) := by
  have hg := (reach_inv hH hr).1
  have hpre : c.graph.containsPredecessors op.payload.preds = true :=
    (containsPredecessors_iff _ _).2 fun p hp => by
      obtain ⟨qs, h1, h2⟩ := (hg.predOf p (H op)).2 ⟨op, ho, hp⟩
      exact (hg.keys p).2 (hg.closed _ _ h1 p h2)
  unfold Doc.mergeCgkaInviteOp
  rw [hp]
  rw [hp] at hpre
  simp only [hc, hpre, Bool.not_true, Bool.false_eq_true, if_false]
  unfold Doc.mergeCgkaOp
  simp only
  rw [merge_known]
  show AMap.get c.graph.ops (H op) ≠ none
  rw [ho]
  simp

/-! ## The properties -/

/-- C133 for delegations: one that was taken in can be received again at any later time, and then changes nothing. -/
theorem C133_delegation {k k1 k2 : Keyhive} (hk : Reach E k) {s : SDlg} (h : k.receive E (.dlg s) = (k1, .ok ())) (hs : Since E k1 k2) :
    k2.receive E (.dlg s) = (k2, .ok ()) := by
  have hk1 : Reach E k1 := by
    have : k1 = (Call.receive (.dlg s)).run E k := by simp [Call.run, h]
    rw [this]
    exact .call _ hk trivial
  have h1 := (grown_receiveDelegation (reach_storeOk hk) s).2
  change k.receiveDelegation E s = _ at h
  rw [h] at h1
  have h2 := (since_grown hk1 hs).dlgs _ (h1 rfl)
  show k2.receiveDelegation E s = _
  unfold Keyhive.receiveDelegation
  rw [if_pos (by rw [contains_eq_isSome]; exact Option.isSome_iff_ne_none.2 h2)]

/-- C133 for revocations. -/
theorem C133_revocation {k k1 k2 : Keyhive} (hk : Reach E k) {s : SRev} (h : k.receive E (.rev s) = (k1, .ok ())) (hs : Since E k1 k2) :
    k2.receive E (.rev s) = (k2, .ok ()) := by
  have hk1 : Reach E k1 := by
    have : k1 = (Call.receive (.rev s)).run E k := by simp [Call.run, h]
    rw [this]
    exact .call _ hk trivial
  have h1 := (grown_receiveRevocation (reach_storeOk hk) s).2
  change k.receiveRevocation E s = _ at h
  rw [h] at h1
  have h2 := (since_grown hk1 hs).revs _ (h1 rfl)
  show k2.receiveRevocation E s = _
  unfold Keyhive.receiveRevocation
  rw [if_pos (by rw [contains_eq_isSome]; exact Option.isSome_iff_ne_none.2 h2)]

/-- C133 for group-key operations that are on record and invite neither the device nor the public: receiving them again changes nothing. Missing:
invitations of the device and of the public (`C133_invited_partial`). -/
theorem C133_key_op_partial {k : Keyhive} {did : Id} {op : SOp} (hv : E.validCgka did op = true) (ho : HasKeyOp E k did op) (hi : NoInvite k op) :
    k.receive E (.cgka did op) = (k, .ok ()) := by
  obtain ⟨d, c, h1, h2, h3⟩ := ho
  have hm : d.mergeCgkaOp (E.hashCgka did) op = (d, .ok false) := by
    unfold Doc.mergeCgkaOp
    rw [h2]
    simp only [merge_known (show AMap.get c.graph.ops (E.hashCgka did op) ≠ none by rw [h3]; simp)]
    obtain ⟨g, hs, cg⟩ := d
    cases h2
    rfl
  have hc : k.closeDoc did (d.mergeCgkaOp (E.hashCgka did) op) = (k, .ok ()) := by
    rw [hm]
    unfold Keyhive.closeDoc
    rw [setDoc_same h1]
  show k.receiveCgkaOp E did op = _
  unfold Keyhive.receiveCgkaOp
  rw [hv, h1]
  simp only [Bool.not_true, Bool.false_eq_true, if_false]
  split
  · rename_i id pk l ps qs hp
    obtain ⟨h4, h5⟩ := hi id pk l ps qs hp
    rw [if_neg (Ne.symm h4), if_neg (Ne.symm h5)]
    exact hc
  · exact hc

/-- C133 for group-key operations, at any later time. Missing: as `C82_stays_partial`, and invitations. -/
theorem C133_key_op_later_partial {k k1 k2 : Keyhive} (hk : Reach E k) {did : Id} (hr : E.OnlyRoots did)
    (hH : Function.Injective (E.hashCgka did)) {op : SOp} (h : k.receive E (.cgka did op) = (k1, .ok ())) (hs : Onward E did k1 k2)
    (hi : NoInvite k2 op) : k2.receive E (.cgka did op) = (k2, .ok ()) := by
  refine C133_key_op_partial ?_ (KeptProps.C82_stays_partial hr hH hs (KeptProps.C82_recorded hk hH h)) hi
  change k.receiveCgkaOp E did op = _ at h
  unfold Keyhive.receiveCgkaOp at h
  by_contra hv
  rw [Bool.not_eq_true] at hv
  rw [hv] at h
  cases h

/-- C133 for invitations that are on record: of the device, which has the secret of the key it was invited with, and of the public. Receiving them again
succeeds; nothing that is on record changes and no secret is lost. Missing: in which member's name the device goes on (`C133_fails`). -/
theorem C133_invited_partial {k : Keyhive} (hk : Reach E k) {did : Id} (hH : Function.Injective (E.hashCgka did)) {op : SOp}
    (hv : E.validCgka did op = true) (ho : HasKeyOp E k did op) {id : MemberId} {pk : Pk} {l : Nat} {ps qs : List Nat}
    (hp : op.payload = .add id pk l ps qs) (hi : (id = k.reg.me ∧ AMap.get k.pairs pk ≠ none) ∨ (id = k.reg.pub ∧ id ≠ k.reg.me)) :
    (k.receive E (.cgka did op)).2 = .ok () ∧ Untouched k (k.receive E (.cgka did op)).1 := by
  obtain ⟨d, c, h1, h2, h3⟩ := ho
  have hr := doc_reach hk h1 h2
  have hins : ∀ sk : Sk, ∀ x, AMap.get c.ownerSks x ≠ none → AMap.get (AMap.insert c.ownerSks pk sk) x ≠ none := by
    intro sk x hx
    rw [AMap.get_insert]
    split
    · simp
    · exact hx
  show (k.receiveCgkaOp E did op).2 = .ok () ∧ Untouched k (k.receiveCgkaOp E did op).1
  unfold Keyhive.receiveCgkaOp
  rw [hv, h1]
  simp only [Bool.not_true, Bool.false_eq_true, if_false, hp]
  rcases hi with ⟨rfl, hs⟩ | ⟨rfl, hn⟩
  · rw [if_pos rfl]
    cases hq : AMap.get k.pairs pk with
    | none => exact absurd hq hs
    | some sk =>
      simp only [invite_again hH h2 hr h3 hp]
      exact ⟨rfl, untouched_doc h1 (still_owner h2 _ (hins sk))⟩
  · rw [if_neg (Ne.symm hn), if_pos rfl]
    unfold Keyhive.mergePublicInvite
    simp only [invite_again hH h2 hr h3 hp]
    refine ⟨rfl, untouched_doc h1 ?_⟩
    show Still d { d with cgka := some (withPublic ((withPublic (c.withNewOwner _ (AMap.insert c.ownerSks pk publicSk))).withNewOwner k.reg.me
      (withPublic (c.withNewOwner k.reg.pub (AMap.insert c.ownerSks pk publicSk))).ownerSks)) }
    refine still_owner h2 k.reg.me (sks := (withPublic (c.withNewOwner k.reg.pub (AMap.insert c.ownerSks pk publicSk))).ownerSks) ?_
    intro x hx
    simp only [withPublic, Cgka.withNewOwner, AMap.get_insert]
    split
    · simp
    · split
      · simp
      · exact hx

/-- C133 for prekeys: a genuine one that was taken in, received again at once. Missing: that it comes later. -/
theorem C133_prekey_partial {k k1 : Keyhive} {op : Prekey.KeyOp} (hv : E.validKey op = true) (h : k.receive E (.prekey op) = (k1, .ok ())) :
    k1.receive E (.prekey op) = (k1, .ok ()) := by
  have hr : k.reg.receivePrekeyOp E.hashKey E.validKey op = (k1.reg, .ok ()) ∧ k1 = { k with reg := k1.reg } := by
    change k.receivePrekeyOp E op = _ at h
    unfold Keyhive.receivePrekeyOp at h
    dsimp only at h
    rcases hq : k.reg.receivePrekeyOp E.hashKey E.validKey op with ⟨r, e | u⟩
    · rw [hq] at h; cases h
    · rw [hq] at h; cases h; exact ⟨rfl, rfl⟩
  show k1.receivePrekeyOp E op = _
  unfold Keyhive.receivePrekeyOp
  rw [registry_again hv hr.1]

/-- C133 for prekeys, for the individual they belong to: an operation that is part of the individual's history, received at any later time, changes
none of its active prekeys. Missing: the rest of the device. -/
theorem C133_prekey_later_partial {H : Prekey.KeyOp → Nat} {valid : Prekey.KeyOp → Bool} (hH : Function.Injective H) {i i' : Prekey.Indie}
    {l : List Prekey.KeyOp} (h : Prekey.History H valid i l) {op : Prekey.KeyOp} (ho : op ∈ l) (hr : i.receive H valid op = .ok i') (key : Prekey.Key) :
    key ∈ i'.prekeys ↔ key ∈ i.prekeys :=
  Prekey.Props.C40_order_independent hH (.receive op h hr) h (fun o => by
    constructor
    · intro hm
      rcases List.mem_cons.1 hm with rfl | hm
      · exact ho
      · exact hm
    · exact List.mem_cons_of_mem _) key

/-! ## Examples -/

/-- An individual whose first prekey was replaced gets the operation for the first prekey again. -/
example : ∃ i i' : Prekey.Indie, Prekey.History Prekey.Sample.H Prekey.Sample.valid i [Prekey.Sample.rot 1 3, Prekey.Sample.add 1] ∧
    i.receive Prekey.Sample.H Prekey.Sample.valid (Prekey.Sample.add 1) = .ok i' ∧ i'.prekeys = [3] := by
  have h : ∃ i, (Prekey.Indie.new Prekey.Sample.H (Prekey.Sample.add 1)).receive Prekey.Sample.H Prekey.Sample.valid (Prekey.Sample.rot 1 3) = .ok i ∧
      ∃ i', i.receive Prekey.Sample.H Prekey.Sample.valid (Prekey.Sample.add 1) = .ok i' ∧ i'.prekeys = [3] :=
    ⟨_, rfl, _, rfl, by decide +kernel⟩
  obtain ⟨i, h1, i', h2, h3⟩ := h
  exact ⟨i, i', .receive _ (.new _) h1, h2, h3⟩


/-- The delegation of document 301, taken in, followed by making document 300 and letting group 200 read it, and received again. -/
example : HandedProps.h3.receive Sample.EL (.dlg HandedProps.other) = (HandedProps.h3, .ok ()) := by
  have h : (Sample.m1.receive Sample.EL (.dlg HandedProps.other)).2 = .ok () := by decide +kernel
  refine C133_delegation Sample.reach_m1 (k1 := HandedProps.h1) (Prod.ext rfl h) ?_
  exact .call (.addToDoc Sample.L 300 ⟨.group, 200⟩ .read []) (.call (.newDoc Sample.L Sample.sg 300 [] [1]) .refl
    ⟨Sample.sg_signs Sample.hcL, Sample.L_signs⟩) Sample.L_signs

/-- The update of document 300, received back from somebody else. -/
example : Sample.m2.receive Sample.EL (.cgka 300 Sample.t2) = (Sample.m2, .ok ()) := by
  refine C133_key_op_partial (by decide +kernel) (hasKeyOp_of (by decide +kernel)) ?_
  intro id pk l ps qs h
  cases h

/-- The invitation of agent 5 to document 300, received back. -/
example : (Sample.m2.receive Sample.EL (.cgka 300 Sample.t1)).2 = .ok () ∧ Untouched Sample.m2 (Sample.m2.receive Sample.EL (.cgka 300 Sample.t1)).1 :=
  C133_invited_partial Sample.reach_m2 (HandedProps.EL_noKeyClash 300) (by decide +kernel) (hasKeyOp_of (by decide +kernel)) rfl
    (.inl ⟨by decide +kernel, by decide +kernel⟩)

/-- The revocation of Bob. -/
example : ∃ k k1 : Keyhive, Reach Sample.E k ∧ k.receive Sample.E (.rev Sample.rBob) = (k1, .ok ()) ∧ k1.revs ≠ k.revs ∧
    k1.receive Sample.E (.rev Sample.rBob) = (k1, .ok ()) := by
  have hr : Reach Sample.E (Sample.feed Sample.E Sample.k0 [.dlg Sample.kAlice, .dlg Sample.kBob]) := Sample.reach_feed Sample.reach_k0
  have h : ((Sample.feed Sample.E Sample.k0 [.dlg Sample.kAlice, .dlg Sample.kBob]).receive Sample.E (.rev Sample.rBob)).2 = .ok () := by
    decide +kernel
  have hl : (Sample.feed Sample.E Sample.k0 [.dlg Sample.kAlice, .dlg Sample.kBob]).revs.length ≠
      ((Sample.feed Sample.E Sample.k0 [.dlg Sample.kAlice, .dlg Sample.kBob]).receive Sample.E (.rev Sample.rBob)).1.revs.length := by
    decide +kernel
  exact ⟨_, _, hr, Prod.ext rfl h, fun e => hl (congrArg List.length e.symm), C133_revocation hr (Prod.ext rfl h) .refl⟩

/-- A prekey. -/
example : ∃ k1 : Keyhive, Sample.k0.receive Sample.E (.prekey (Prekey.Sample.add 1)) = (k1, .ok ()) ∧
    k1.receive Sample.E (.prekey (Prekey.Sample.add 1)) = (k1, .ok ()) := by
  have h : (Sample.k0.receive Sample.E (.prekey (Prekey.Sample.add 1))).2 = .ok () := by decide +kernel
  exact ⟨_, Prod.ext rfl h, C133_prekey_partial (by decide +kernel) (Prod.ext rfl h)⟩

/-! ## Where it fails -/

/-- In whose name a key update is made. -/
def updates (r : Except Err (SOp × Sk)) : Option MemberId :=
  match r with
  | .ok (o, _) => (match o.payload with | .update id _ _ => some id | _ => none)
  | .error _ => none

/-- C133 fails: the device that made a document acts in it in the name of the document's own key. When it receives back the invitation it issued to
itself, which it has on record, it goes on in its own name: the same call makes an update for another member. -/
theorem C133_fails : ∃ (E : Env) (L : Local) (k k' : Keyhive) (did : Id) (op : SOp), E.NoKeyClash ∧ Reach E k ∧ HasKeyOp E k did op ∧
    k.receive E (.cgka did op) = (k', .ok ()) ∧ updates (k.forcePcsUpdate E L did).2 = some did ∧
    updates (k'.forcePcsUpdate E L did).2 = some k.reg.me ∧ k.reg.me ≠ did := by
  have h : (Sample.m2.receive Sample.EL (.cgka 300 Sample.t1)).2 = .ok () := by decide +kernel
  refine ⟨Sample.EL, Sample.L, Sample.m2, (Sample.m2.receive Sample.EL (.cgka 300 Sample.t1)).1, 300, Sample.t1, HandedProps.EL_noKeyClash, Sample.reach_m2,
    hasKeyOp_of (by decide +kernel), Prod.ext rfl h, by decide +kernel, by decide +kernel, by decide +kernel⟩

end Verif.Keyhive.AgainProps
