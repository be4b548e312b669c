import Verif.Keyhive.WaitSpec
import Verif.Keyhive.StatsProps
import Verif.Keyhive.Props
import Verif.Cgka.Errors

/-! # C117: whether an error says to wait -/

namespace Verif.Keyhive.WaitProps

open Verif.Group Verif.Cgka Verif.BeeKem

variable {E : Env}

theorem findProof_err {k : Keyhive} {p : Option Nat} {e : Err} (h : k.findProof p = .error e) : e.isMissingDependency = true := by
  unfold Keyhive.findProof at h
  split at h
  · cases h
  · split at h <;> cases h; rfl

theorem findRevs_err {k : Keyhive} : ∀ {l : List Nat} {e : Err}, k.findRevs l = .error e → e.isMissingDependency = true
  | [], e, h => by cases h
  | x :: l, e, h => by
    unfold Keyhive.findRevs at h
    split at h
    · cases h; rfl
    · split at h
      · rename_i he
        cases h
        exact findRevs_err he
      · cases h

theorem toDlg_err {k : Keyhive} {s : SDlg} {e : Err} (h : k.toDlg s = .error e) : e.isMissingDependency = true := by
  unfold Keyhive.toDlg at h
  split at h
  · rename_i he; cases h; exact findProof_err he
  · split at h
    · cases h; rfl
    · split at h
      · rename_i he; cases h; exact findRevs_err he
      · cases h

theorem toRev_err {k : Keyhive} {s : SRev} {e : Err} (h : k.toRev s = .error e) : e.isMissingDependency = true := by
  unfold Keyhive.toRev at h
  split at h
  · cases h; rfl
  · split at h
    · rename_i he; cases h; exact findProof_err he
    · cases h

theorem promote_err {k k' : Keyhive} {d : Dlg} {e : Err} (h : k.promote E d = (k', .error e)) : e.isMissingDependency = false := by
  unfold Keyhive.promote at h
  dsimp only at h
  split at h
  · cases h
  · cases h
    split <;> rfl

theorem applyDlg_err {k : Keyhive} {d : Dlg} {e : Err} (h : (k.applyDlg E d).2 = .error e) : e.isMissingDependency = false := by
  unfold Keyhive.applyDlg at h
  split at h
  · split at h <;> cases h; rfl
  · split at h
    · split at h <;> cases h; rfl
    · split at h
      · split at h
        · rename_i hp; cases h; exact promote_err hp
        · cases h
      · cases h

theorem applyRev_err {k : Keyhive} {r : Rev} {e : Err} (h : (k.applyRev E r).2 = .error e) : e.isMissingDependency = false := by
  unfold Keyhive.applyRev at h
  split at h
  · split at h <;> cases h; rfl
  · split at h
    · split at h <;> cases h; rfl
    · split at h
      · split at h
        · rename_i hp; cases h; exact promote_err hp
        · split at h <;> cases h; rfl
      · cases h; rfl

theorem contains_none {V : Type} {m : AMap Nat V} {h : Nat} (hn : ¬ AMap.get m h ≠ none) : AMap.contains m h = false := by
  unfold AMap.contains
  rw [not_not.1 hn]
  rfl

/-- C117, delegations and revocations: for one that is genuine and new to the device, the error says to wait exactly if the device
does not know everything the event names: the delegation that is its proof, the one it revokes, the revocations it comes after and the
agent it is for. -/
theorem C117_membership {k : Keyhive} (hk : Reach E k) {e : Event} (hm : (∃ s, e = .dlg s) ∨ ∃ s, e = .rev s) (hg : E.Genuine e)
    (hn : ¬ OnRecord E k e) : SaysWait E k e ↔ ¬ Names k e := by
  have hc := (StatsProps.C95_converts hk e).2
  rcases hm with ⟨s, rfl⟩ | ⟨s, rfl⟩
  · have hr : k.receive E (.dlg s) = match k.toDlg s with
        | .error e => (k, .error e)
        | .ok d => k.applyDlg E d := by
      show k.receiveDelegation E s = _
      unfold Keyhive.receiveDelegation
      rw [contains_none hn, show E.validDlg s = true from hg]
      rfl
    rw [← hc]
    unfold SaysWait
    rw [hr]
    cases ht : k.toDlg s with
    | error x =>
      refine ⟨fun _ ⟨w, hw⟩ => ?_, fun _ => ⟨x, rfl, toDlg_err ht⟩⟩
      simp [Keyhive.toWhole, ht] at hw
    | ok d =>
      refine ⟨fun ⟨x, hx, hf⟩ => ?_, fun h => (h ⟨.dlg d, by simp [Keyhive.toWhole, ht]⟩).elim⟩
      rw [applyDlg_err hx] at hf
      cases hf
  · have hr : k.receive E (.rev s) = match k.toRev s with
        | .error e => (k, .error e)
        | .ok d => k.applyRev E d := by
      show k.receiveRevocation E s = _
      unfold Keyhive.receiveRevocation
      rw [contains_none hn, show E.validRev s = true from hg]
      rfl
    rw [← hc]
    unfold SaysWait
    rw [hr]
    cases ht : k.toRev s with
    | error x =>
      refine ⟨fun _ ⟨w, hw⟩ => ?_, fun _ => ⟨x, rfl, toRev_err ht⟩⟩
      simp [Keyhive.toWhole, ht] at hw
    | ok d =>
      refine ⟨fun ⟨x, hx, hf⟩ => ?_, fun h => (h ⟨.rev d, by simp [Keyhive.toWhole, ht]⟩).elim⟩
      rw [applyRev_err hx] at hf
      cases hf

/-! ## Key operations -/

theorem waits_of {e : CgkaError} (h : Cgka.isMissingDependency e = true) (hi : e ≠ .identifierNotFound) : waits e = true := by
  cases e <;> simp_all [Cgka.isMissingDependency, waits]

theorem close_err {k : Keyhive} {i : Id} {α : Type} {r : Doc × Res α} {err : Err} (h : (k.closeDoc i r).2 = .error err) :
    ∃ e, r.2 = .error e ∧ err = .cgka e := by
  unfold Keyhive.closeDoc at h
  obtain ⟨d, r⟩ := r
  cases r with
  | error e => cases h; exact ⟨e, rfl, rfl⟩
  | ok _ => cases h

/-- The tree has what the operation builds on. -/
def Ready (d : Doc) (op : SOp) : Prop :=
  match d.cgka with
  | some c => ∀ h ∈ op.payload.preds, AMap.get c.graph.ops h ≠ none
  | none => op.payload.preds = [] ∧ ∃ id pk i ps as, op.payload = .add id pk i ps as

theorem preds_of {g : Graph} {l : List Nat} : g.containsPredecessors l = true ↔ ∀ h ∈ l, AMap.get g.ops h ≠ none := by
  simp [Graph.containsPredecessors, AMap.contains, Option.isSome_iff_ne_none]

theorem preds_nil {l : List Nat} : sextend [] l = [] ↔ l = [] := by
  constructor
  · intro h
    cases l with
    | nil => rfl
    | cons a l =>
      have : a ∈ sextend [] (a :: l) := (mem_sextend _ _ _).2 (.inr (by simp))
      rw [h] at this
      cases this
  · rintro rfl; rfl

theorem merge_err {H : SOp → Nat} {d : Doc} {op : SOp} {e : CgkaError} (h : (d.mergeCgkaOp H op).2 = .error e) (hw : waits e = true) :
    ¬ Ready d op := by
  unfold Doc.mergeCgkaOp at h
  unfold Ready
  split at h
  · rename_i c hc
    rw [hc]
    have := ((Cgka.merge_waits H c op).1 e h hw).2
    intro hr
    rw [preds_of.2 hr] at this
    cases this
  · rename_i hc
    rw [hc]
    split at h
    · rename_i hp
      split at h
      · rename_i hne
        intro hr
        rw [hp] at hr
        rw [preds_nil.1 hr.1] at hne
        cases hne
      · split at h
        · rename_i he
          cases h
          rw [Cgka.soft_newFromInitAdd _ _ _ _ _ he] at hw
          cases hw
        · cases h
    · rename_i hp
      rintro ⟨_, id, pk, i, ps, as, ho⟩
      exact hp _ _ _ _ _ ho

theorem merge_waits {H : SOp → Nat} {d : Doc} {op : SOp} (hn : ∀ c, d.cgka = some c → AMap.get c.graph.ops (H op) = none) (hr : ¬ Ready d op) :
    ∃ e, (d.mergeCgkaOp H op).2 = .error e ∧ Cgka.isMissingDependency e = true := by
  unfold Doc.mergeCgkaOp
  unfold Ready at hr
  split
  · rename_i c hc
    rw [hc] at hr
    refine ⟨_, (Cgka.merge_waits H c op).2 ?_ ?_, rfl⟩
    · unfold Graph.containsOpHash AMap.contains
      rw [hn c hc]
      rfl
    · rw [← Bool.not_eq_true, preds_of]
      exact hr
  · rename_i hc
    rw [hc] at hr
    split
    · rename_i hp
      split
      · exact ⟨_, rfl, rfl⟩
      · rename_i hne
        refine (hr ⟨?_, _, _, _, _, _, hp⟩).elim
        rw [hp]
        exact preds_nil.2 (by simpa using hne)
    · exact ⟨_, rfl, rfl⟩

theorem invite_err {H : SOp → Nat} {d : Doc} {op : SOp} {sk : Sk} {e : CgkaError} (ha : ∃ id, AddsAgent op id)
    (h : (d.mergeCgkaInviteOp H op sk).2 = .error e) (hw : waits e = true) : d.cgka = none ∨ ¬ Ready d op := by
  unfold Doc.mergeCgkaInviteOp at h
  split at h
  · split at h
    · left; assumption
    · rename_i c hc
      right
      split at h
      · rename_i hp
        unfold Ready
        rw [hc]
        intro hr
        rw [preds_of.2 hr] at hp
        cases hp
      · have := merge_err h hw
        unfold Ready at this ⊢
        rw [hc]
        exact this
  · rename_i hp
    obtain ⟨id, pk, i, ps, as, ho⟩ := ha
    exact (hp _ _ _ _ _ ho).elim

theorem invite_waits {H : SOp → Nat} {d : Doc} {op : SOp} {sk : Sk} (hr : ¬ Ready d op) :
    ∃ e, (d.mergeCgkaInviteOp H op sk).2 = .error e ∧ Cgka.isMissingDependency e = true := by
  unfold Doc.mergeCgkaInviteOp
  unfold Ready at hr
  split
  · split
    · exact ⟨_, rfl, rfl⟩
    · rename_i c hc
      rw [hc] at hr
      split
      · exact ⟨_, rfl, rfl⟩
      · rename_i hp
        refine (hr (preds_of.1 ?_)).elim
        simpa using hp
  · exact ⟨_, rfl, rfl⟩

theorem reset_err {H : SOp → Nat} {d d' : Doc} {op : SOp} {sk : Sk} {b : Bool} (h : d.mergeCgkaInviteOp H op sk = (d', .ok b)) (me : Id) :
    ∃ u, (d'.resetCgkaOwner me).2 = .ok u := by
  unfold Doc.resetCgkaOwner
  split
  · rename_i hn
    exfalso
    unfold Doc.mergeCgkaInviteOp at h
    split at h
    · split at h
      · cases h
      · split at h
        · cases h
        · unfold Doc.mergeCgkaOp at h
          have := congrArg (·.1.cgka) h
          dsimp only at this
          rw [hn] at this
          cases this
    · cases h
  · exact ⟨_, rfl⟩

/-- C117, key operations, what the error tells: if the error for a genuine operation on a document the device knows says to wait, and is not
`IdentifierNotFound`, then the device has not received what the operation builds on, or the operation adds the device's own or the public
agent and there is no tree yet. -/
theorem C117_key_missing_partial {k : Keyhive} {doc : Id} {op : SOp} {err : Err} (hd : AMap.get k.docs doc ≠ none)
    (h : (k.receive E (.cgka doc op)).2 = .error err) (hw : err.isMissingDependency = true) (hi : err ≠ .cgka .identifierNotFound) :
    ¬ Grounded k doc op ∨
      ((AddsAgent op k.reg.me ∨ AddsAgent op k.reg.pub) ∧ ∃ d, AMap.get k.docs doc = some d ∧ d.cgka = none) := by
  change (k.receiveCgkaOp E doc op).2 = .error err at h
  obtain ⟨d, hd⟩ := Option.ne_none_iff_exists'.1 hd
  have hG : ¬ Ready d op → ¬ Grounded k doc op := by
    rintro hn ⟨d', hd', hr⟩
    rw [hd] at hd'
    cases hd'
    exact hn hr
  have key : ∀ {e : CgkaError}, err = .cgka e → waits e = true := by
    rintro e rfl
    exact waits_of hw (fun hc => hi (by rw [hc]))
  unfold Keyhive.receiveCgkaOp at h
  rw [hd] at h
  split at h
  · cases h; cases hw
  · dsimp only at h
    split at h
    · rename_i id pk i ps as hp
      have ha : AddsAgent op id := ⟨_, _, _, _, hp⟩
      split at h
      · rename_i hme
        split at h
        · cases h; cases hw
        · obtain ⟨e, he, hx⟩ := close_err h
          rcases invite_err ⟨_, ha⟩ he (key hx) with hn | hn
          · exact .inr ⟨.inl (hme ▸ ha), d, hd, hn⟩
          · exact .inl (hG hn)
      · split at h
        · rename_i hpub
          unfold Keyhive.mergePublicInvite at h
          split at h
          · rename_i d' x hq
            obtain ⟨e, he, hx⟩ := close_err h
            cases he
            rcases invite_err (e := x) ⟨_, ha⟩ (by rw [hq]) (key hx) with hn | hn
            · exact .inr ⟨.inr (hpub ▸ ha), d, hd, hn⟩
            · exact .inl (hG hn)
          · rename_i d' b hq
            obtain ⟨e, he, hx⟩ := close_err h
            obtain ⟨u, hu⟩ := reset_err hq k.reg.me
            rw [hu] at he
            cases he
        · obtain ⟨e, he, hx⟩ := close_err h
          exact .inl (hG (merge_err he (key hx)))
    · obtain ⟨e, he, hx⟩ := close_err h
      exact .inl (hG (merge_err he (key hx)))

/-- C117, key operations, when the error says to wait: a genuine operation, new to the device and on a document it knows, whose
predecessors it has not received is refused with an error that says to wait, unless it adds the device's own agent with a prekey whose
secret the device does not hold. -/
theorem C117_key_waits_partial {k : Keyhive} {doc : Id} {op : SOp} (hg : E.Genuine (.cgka doc op)) (hd : AMap.get k.docs doc ≠ none)
    (hn : ¬ OnRecord E k (.cgka doc op)) (hr : ¬ Grounded k doc op)
    (hs : ∀ pk i ps as, op.payload = .add k.reg.me pk i ps as → AMap.get k.pairs pk ≠ none) : SaysWait E k (.cgka doc op) := by
  obtain ⟨d, hd⟩ := Option.ne_none_iff_exists'.1 hd
  have hR : ¬ Ready d op := fun h => hr ⟨d, hd, h⟩
  have hN : ∀ c, d.cgka = some c → AMap.get c.graph.ops (E.hashCgka doc op) = none := by
    intro c hc
    by_contra hx
    exact hn ⟨d, c, hd, hc, hx⟩
  have close : ∀ {r : Doc × Res Bool}, (∃ e, r.2 = .error e ∧ Cgka.isMissingDependency e = true) →
      ∃ err, (k.closeDoc doc r).2 = .error err ∧ err.isMissingDependency = true := by
    rintro r ⟨e, he, hm⟩
    exact ⟨.cgka e, by unfold Keyhive.closeDoc; rw [he], hm⟩
  unfold SaysWait
  show ∃ err, (k.receiveCgkaOp E doc op).2 = .error err ∧ _
  unfold Keyhive.receiveCgkaOp
  rw [hd, show E.validCgka doc op = true from hg]
  dsimp only [Bool.not_true]
  rw [if_neg (by decide)]
  split
  · rename_i id pk i ps as hp
    have ha : AddsAgent op id := ⟨_, _, _, _, hp⟩
    split
    · rename_i hme
      split
      · rename_i hn
        exact (hs pk i ps as (hme ▸ hp) hn).elim
      · exact close (invite_waits hR)
    · split
      · unfold Keyhive.mergePublicInvite
        obtain ⟨e, he, hm⟩ := invite_waits (H := E.hashCgka doc) (sk := publicSk) hR
        split
        · rename_i d' x hq
          rw [hq] at he
          injection he with he
          exact ⟨.cgka x, rfl, he ▸ hm⟩
        · rename_i hq
          rw [hq] at he
          cases he
      · exact close (merge_waits hN hR)
  · exact close (merge_waits hN hR)

/-- C117, forged events: no device ever says to wait for one. -/
theorem C117_forged {k : Keyhive} (hE : E.NoClash) (hk : Reach E k) {e : Event} (hg : ¬ E.Genuine e) : ¬ SaysWait E k e := by
  rintro ⟨err, h, hw⟩
  by_cases hp : ∃ op, e = .prekey op
  · obtain ⟨op, rfl⟩ := hp
    change (k.receivePrekeyOp E op).2 = .error err at h
    unfold Keyhive.receivePrekeyOp at h
    dsimp only at h
    split at h <;> cases h
    cases hw
  · rw [Props.C35_forged_refused hE hk (by cases e <;> simpa [Env.Genuine, Env.Forged] using hg) (fun op ho => hp ⟨op, ho⟩)] at h
    cases h
    cases hw

namespace WaitSample

open Verif.Keyhive.Sample

/-- Alice adds agent 5, whose device this is, with a prekey the device has no secret for. -/
def invited : SOp := ⟨.add 5 ⟨77⟩ 1 [0] [0], 1, 1600⟩
/-- Alice removes agent 77, who is not in the group. -/
def stranger : SOp := ⟨.remove 77 1 [] [1], 1, 1700⟩
/-- The tree of document 300 begins with agent 5. -/
def begun : SOp := ⟨.initAdd 5 ⟨55⟩, 5, 5500⟩

/-- Digests and signatures. -/
noncomputable def EU : Env := env (tableH [s0, s1, invited, stranger, begun])
theorem EU_noClash : EU.NoClash := env_noClash _

/-- The device knows document 300, but has received none of its key operations. -/
noncomputable def known : Keyhive := feed EU k0 [.dlg docAlice]
/-- It has received the first. -/
noncomputable def rooted : Keyhive := feed EU k0 [.dlg docAlice, .cgka 300 s0]
/-- And the second. -/
noncomputable def two : Keyhive := feed EU k0 [.dlg docAlice, .cgka 300 s0, .cgka 300 s1]
/-- It knows team 200 and group 100, but not that Bob belongs to the team. -/
noncomputable def teams : Keyhive := feed EU k0 [.dlg kAlice, .dlg gTeam]

theorem reach (es : List Event) : Reach EU (feed EU k0 es) := by
  have : ∀ {k : Keyhive}, Reach EU k → Reach EU (feed EU k es) := by
    induction es with
    | nil => intro k h; exact h
    | cons e es ih => intro k h; exact ih (.call (.receive e) h trivial)
  exact this (.start reg [(⟨55⟩, 55)])

/-- What receiving the event returns. -/
noncomputable def told (k : Keyhive) (e : Event) : Except Err Unit := (k.receive EU e).2

theorem told_dlg : told k0 (.dlg gCarol) = .error .missingDelegation ∧ told teams (.dlg gCarol) = .error (.group .invalidProofChain) := by
  decide +kernel
theorem told_late : told (feed EU k0 [.dlg kAlice, .dlg gTeam, .dlg kBob]) (.dlg gCarol) = .ok () := by decide +kernel
theorem told_doc : told k0 (.cgka 300 s0) = .error .unknownDocument ∧ told known (.cgka 300 s0) = .ok () := by decide +kernel
theorem told_order : told known (.cgka 300 s1) = .error (.cgka .outOfOrderOperation) ∧ told rooted (.cgka 300 s1) = .ok () := by
  decide +kernel
theorem told_invite : told rooted (.cgka 300 invited) = .error .unknownInvitePrekey ∧
    told { rooted with pairs := AMap.insert rooted.pairs ⟨77⟩ 77 } (.cgka 300 invited) = .ok () := by decide +kernel
theorem told_stranger : told two (.cgka 300 stranger) = .error (.cgka .identifierNotFound) := by decide +kernel
theorem told_begun : told known (.cgka 300 begun) = .error (.cgka .notInitialized) := by decide +kernel

end WaitSample

open Verif.Keyhive.Sample WaitSample

/-- Carol's addition names a delegation the device does not know. -/
example : SaysWait EU k0 (.dlg gCarol) :=
  (C117_membership (reach []) (.inl ⟨_, rfl⟩) (show EU.validDlg gCarol = true by decide +kernel)
    (fun h => h (show AMap.get k0.dlgs _ = none by decide +kernel))).2
    (fun h => h.1 (hashDlg gTeam) rfl (show AMap.get k0.dlgs _ = none by decide +kernel))

/-- With the team known, it names nothing unknown: the error does not say to wait. -/
example : ¬ SaysWait EU teams (.dlg gCarol) := by
  rw [C117_membership (k := teams) (reach [.dlg kAlice, .dlg gTeam]) (.inl ⟨_, rfl⟩) (show EU.validDlg gCarol = true by decide +kernel)
    (fun h => h (show AMap.get teams.dlgs _ = none by decide +kernel)), not_not]
  refine ⟨fun h hh => ?_, show teams.getAgent 3 ≠ none by decide +kernel, fun h hh => by cases hh⟩
  cases hh
  decide +kernel

theorem not_grounded : ¬ Grounded known 300 s1 := by
  rintro ⟨d, hd, h⟩
  have hc : (AMap.get known.docs 300).bind (·.cgka) = none := by decide +kernel
  rw [hd] at hc
  rw [show d.cgka = none from hc] at h
  exact absurd h.1 (by decide)

theorem known_no (op : SOp) : ¬ OnRecord EU known (.cgka 300 op) := by
  rintro ⟨d, c, hd, hc, _⟩
  have : (AMap.get known.docs 300).bind (·.cgka) = none := by decide +kernel
  rw [hd] at this
  rw [show d.cgka = none from this] at hc
  cases hc

/-- The second key operation, before the first one. -/
example : SaysWait EU known (.cgka 300 s1) :=
  C117_key_waits_partial (show EU.validCgka 300 s1 = true by decide +kernel) (by decide +kernel) (known_no s1) not_grounded
    (fun pk i ps as h => by cases h)

/-- And what its error tells. -/
example : ¬ Grounded known 300 s1 ∨ ((AddsAgent s1 known.reg.me ∨ AddsAgent s1 known.reg.pub) ∧ ∃ d, AMap.get known.docs 300 = some d ∧ d.cgka = none) :=
  C117_key_missing_partial (E := EU) (by decide +kernel) told_order.1 rfl (by simp)

/-- A forged delegation. -/
example : ¬ SaysWait EU teams (.dlg ⟨2, 1000, 3, .edit, some (hashDlg gTeam), [], []⟩) :=
  C117_forged EU_noClash (reach _) (show ¬ EU.validDlg _ = true by decide +kernel)

/-- C117 fails. Errors that do not say to wait, although the event is accepted once more has been received: a key operation of a document
the device does not know yet; an invitation with a prekey whose secret it does not hold yet; a delegation by someone whose own membership
in a member group it does not know yet. And errors that say to wait although nothing is missing: the removal of somebody who is not a
member, and a tree that begins with the device's own agent. -/
theorem C117_fails :
    (told k0 (.cgka 300 s0) = .error .unknownDocument ∧ Err.unknownDocument.isMissingDependency = false ∧
      told known (.cgka 300 s0) = .ok ()) ∧
    (told rooted (.cgka 300 invited) = .error .unknownInvitePrekey ∧ Err.unknownInvitePrekey.isMissingDependency = false ∧
      told { rooted with pairs := AMap.insert rooted.pairs ⟨77⟩ 77 } (.cgka 300 invited) = .ok ()) ∧
    (told teams (.dlg gCarol) = .error (.group .invalidProofChain) ∧ (Err.group .invalidProofChain).isMissingDependency = false ∧
      told (feed EU k0 [.dlg kAlice, .dlg gTeam, .dlg kBob]) (.dlg gCarol) = .ok ()) ∧
    (SaysWait EU two (.cgka 300 stranger) ∧ Grounded two 300 stranger) ∧
    (SaysWait EU known (.cgka 300 begun) ∧ Grounded known 300 begun) := by
  refine ⟨⟨told_doc.1, rfl, told_doc.2⟩, ⟨told_invite.1, rfl, told_invite.2⟩, ⟨told_dlg.2, rfl, told_late⟩,
    ⟨⟨_, told_stranger, rfl⟩, ?_⟩, ⟨_, told_begun, rfl⟩, ?_⟩
  · have h : ∃ d, AMap.get two.docs 300 = some d := Option.ne_none_iff_exists'.1 (by decide +kernel)
    obtain ⟨d, hd⟩ := h
    have hs : ((AMap.get two.docs 300).bind (·.cgka)).map (fun c => AMap.contains c.graph.ops 1) = some true := by decide +kernel
    refine ⟨d, hd, ?_⟩
    rw [hd] at hs
    cases hc : d.cgka with
    | none => rw [Option.bind_some, hc] at hs; cases hs
    | some c =>
      rw [Option.bind_some, hc] at hs
      intro h hh
      rw [show stranger.payload.preds = [1] by decide, List.mem_singleton] at hh
      subst hh
      have : AMap.contains c.graph.ops 1 = true := Option.some.inj hs
      unfold AMap.contains at this
      intro hn
      rw [hn] at this
      cases this
  · have h : ∃ d, AMap.get known.docs 300 = some d := Option.ne_none_iff_exists'.1 (by decide +kernel)
    obtain ⟨d, hd⟩ := h
    have hs : (AMap.get known.docs 300).bind (·.cgka) = none := by decide +kernel
    refine ⟨d, hd, ?_⟩
    rw [hd] at hs
    rw [show d.cgka = none from hs]
    exact ⟨by decide, _, _, _, _, _, rfl⟩

end Verif.Keyhive.WaitProps
