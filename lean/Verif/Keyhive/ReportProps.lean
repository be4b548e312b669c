import Verif.Keyhive.TransactProps

/-!
# What a device tells its listener (C112)

`Call.log` (`Verif.Keyhive.Transact`) is what a call reports; `HasOp` and `HasKeyOp` say what a device holds.
-/

namespace Verif.Keyhive

open Verif.Group Verif.Cgka Verif.BeeKem

variable {E : Env}

/-- Every revocation held by the second device is held by the first or among the events. -/
def ReportsRevs (E : Env) (k k' : Keyhive) (es : List Event) : Prop :=
  ∀ s, k'.HasOp E (.rev s) → k.HasOp E (.rev s) ∨ .rev s ∈ es

theorem ReportsRevs.trans {k k1 k2 : Keyhive} {l1 l2 : List Event} (h1 : ReportsRevs E k k1 l1) (h2 : ReportsRevs E k1 k2 l2) :
    ReportsRevs E k k2 (l1 ++ l2) := by
  intro s h
  rw [List.mem_append]
  rcases h2 s h with h | h
  · exact (h1 s h).imp id .inl
  · exact .inr (.inr h)

theorem reportsRevs_same {k k' : Keyhive} (h : k'.revs = k.revs) (l : List Event) : ReportsRevs E k k' l := by
  intro s hs
  simp only [Keyhive.HasOp, h] at hs
  exact .inl hs

theorem receive_reportsRevs (hE : E.NoClash) {k : Keyhive} (hs : StoreOk E k) (e : Event) :
    ReportsRevs E k (k.receive E e).1 (k.receiveLog E e) := by
  intro s h
  rcases receive_has_back hE hs e h with h1 | rfl
  · exact .inl h1
  · by_cases hk : k.HasOp E (.rev s)
    · exact .inl hk
    · right
      change (k.receiveRevocation E s).1.HasOp E (.rev s) at h
      show Event.rev s ∈ k.receiveRevLog E s
      unfold Keyhive.receiveRevocation at h
      unfold Keyhive.receiveRevLog
      split at h
      · exact absurd h hk
      · rename_i hc
        rw [if_neg hc]
        split at h
        · exact absurd h hk
        · rename_i hv
          rw [if_neg hv]
          cases hr : k.toRev s with
          | error err => rw [hr] at h; exact absurd h hk
          | ok r =>
            rw [hr] at h
            dsimp only at h ⊢
            unfold Keyhive.applyRev at h
            cases hg : AMap.get k.groups r.subject with
            | some g => simp
            | none =>
              cases hd : AMap.get k.docs r.subject with
              | some d => simp
              | none =>
                rw [hg, hd] at h
                dsimp only at h ⊢
                cases hi : k.individual r.subject with
                | some i => simp
                | none => rw [hi] at h; exact absurd h hk

theorem pass_reportsRevs (hE : E.NoClash) : ∀ (es : List Event) {k : Keyhive} (next : List Event), StoreOk E k →
    ReportsRevs E k (Keyhive.pass E k es next).1 (k.passLog E es) ∧ StoreOk E (Keyhive.pass E k es next).1
  | [], k, next, hs => ⟨reportsRevs_same rfl _, hs⟩
  | e :: es, k, next, hs => by
    have h := receive_reportsRevs hE hs e
    have hs' := storeOk_receive hs e
    unfold Keyhive.pass Keyhive.passLog
    cases hr : k.receive E e with
    | mk k' r =>
      rw [hr] at h hs'
      cases r with
      | ok u => exact ⟨h.trans (pass_reportsRevs hE es next hs').1, (pass_reportsRevs hE es next hs').2⟩
      | error err =>
        dsimp only
        split
        · exact ⟨h, hs'⟩
        · split <;> exact ⟨h.trans (pass_reportsRevs hE es _ hs').1, (pass_reportsRevs hE es _ hs').2⟩

theorem rounds_reportsRevs (hE : E.NoClash) (replayed : List Nat) : ∀ (n : Nat) {k : Keyhive} (epoch : List Event), StoreOk E k →
    ReportsRevs E k (Keyhive.rounds E replayed n k epoch).1 (k.roundsLog E n epoch)
  | 0, k, _, _ => reportsRevs_same rfl _
  | n + 1, k, epoch, hs => by
    obtain ⟨h, hs'⟩ := pass_reportsRevs hE epoch [] hs
    unfold Keyhive.rounds Keyhive.roundsLog
    cases hr : Keyhive.pass E k epoch [] with
    | mk k' r =>
      rw [hr] at h hs'
      cases r with
      | error e => exact h
      | ok l =>
        cases l with
        | nil => exact h
        | cons e es =>
          dsimp only
          split
          · exact h
          · exact h.trans (rounds_reportsRevs hE replayed n (e :: es) hs')

namespace ReportProps

/-- C112, calls of the device's own: a delegation or revocation is held after the call exactly if it was held before or is reported by the
call, whether the call succeeds or not. -/
theorem C112_own_partial (hE : E.NoClash) {c : Call} (hc : c.Own) (k : Keyhive) (m : SMem) :
    (c.run E k).HasOp E m ↔ k.HasOp E m ∨ m.event ∈ c.log E k := own_has hE hc k m

/-- C112, revocations: every revocation a device comes to hold through a call, its own or receiving anything, is reported by the call. -/
theorem C112_revocations_partial (hE : E.NoClash) {k : Keyhive} (hk : Reach E k) (c : Call) {s : SRev} (h : (c.run E k).HasOp E (.rev s)) :
    k.HasOp E (.rev s) ∨ .rev s ∈ c.log E k := by
  have hs := reach_storeOk hk
  cases c with
  | receive e => exact receive_reportsRevs hE hs e s h
  | ingest ord es => exact rounds_reportsRevs hE _ _ _ hs s h
  | ingestArchive ord a =>
    have hm := merged_same k a
    refine (rounds_reportsRevs hE _ _ _ (hs.same hm.dlgs hm.revs) s h).imp (fun h => ?_) id
    simp only [Keyhive.HasOp, hm.revs] at h
    exact h
  | contactCard op => exact (own_has hE (c := .contactCard op) trivial k (.rev s)).1 h
  | newGroup S gid co => exact (own_has hE (c := .newGroup S gid co) trivial k (.rev s)).1 h
  | newDoc L S did co hs => exact (own_has hE (c := .newDoc L S did co hs) trivial k (.rev s)).1 h
  | addToGroup L gid who can x => exact (own_has hE (c := .addToGroup L gid who can x) trivial k (.rev s)).1 h
  | addToDoc L did who can x => exact (own_has hE (c := .addToDoc L did who can x) trivial k (.rev s)).1 h
  | revokeFromGroup L gid w r x => exact (own_has hE (c := .revokeFromGroup L gid w r x) trivial k (.rev s)).1 h
  | revokeFromDoc L did w r x => exact (own_has hE (c := .revokeFromDoc L did w r x) trivial k (.rev s)).1 h
  | encrypt L did r p x => exact (own_has hE (c := .encrypt L did r p x) trivial k (.rev s)).1 h
  | decrypt did e => exact (own_has hE (c := .decrypt did e) trivial k (.rev s)).1 h
  | pcsUpdate L did => exact (own_has hE (c := .pcsUpdate L did) trivial k (.rev s)).1 h

/-- C112, group-key operations: every one that a device comes to hold through a call that succeeds is reported by the call. -/
theorem C112_key_ops_partial (hE : E.NoKeyClash) {k : Keyhive} {c : Call} (hf : (c.answer E k).Fine) {did : Id} {op : SOp}
    (h : HasKeyOp E (c.run E k) did op) : HasKeyOp E k did op ∨ .cgka did op ∈ c.log E k := call_reports hE hf did op h

/-- C112, received delegations: one is reported exactly if the device comes to hold it and knew no group or document it is about. Missing: the
others, which are not reported (`C112_fails`). -/
theorem C112_delegation_partial {k : Keyhive} (hk : Reach E k) (s : SDlg) :
    .dlg s ∈ (Call.receive (.dlg s)).log E k ↔ ¬ k.HasOp E (.dlg s) ∧ ∃ d, AMap.get (k.receive E (.dlg s)).1.dlgs (E.hashDlg s) = some d ∧
      AMap.get k.groups d.subject = none ∧ AMap.get k.docs d.subject = none := by
  have hs := reach_storeOk hk
  obtain ⟨h1, h2⟩ := receiveDelegation_stores hs s
  show .dlg s ∈ k.receiveDlgLog E s ↔ _
  have hrem : ∀ i, (k.removeIndividual i).dlgs = k.dlgs := by
    intro i; unfold Keyhive.removeIndividual; split <;> rfl
  constructor
  · intro h
    unfold Keyhive.receiveDlgLog at h
    split at h
    · cases h
    · rename_i hc
      have hn : AMap.get k.dlgs (E.hashDlg s) = none := by
        rw [contains_eq_isSome] at hc
        simpa using hc
      refine ⟨fun h' => h' hn, ?_⟩
      split at h
      · cases h
      · rename_i hv
        split at h
        · cases h
        · rename_i d hd
          split at h
          · rename_i hg hdoc
            have hdig : E.dlgDigest d = E.hashDlg s := by rw [dlgDigest_eq, toDlg_static hs hd]
            refine ⟨d, ?_, hg, hdoc⟩
            show AMap.get (k.receiveDelegation E s).1.dlgs (E.hashDlg s) = some d
            unfold Keyhive.receiveDelegation Keyhive.applyDlg
            rw [if_neg hc, if_neg hv, hd]
            dsimp only
            rw [hg, hdoc]
            dsimp only
            cases k.individual d.subject with
            | none =>
              dsimp only
              unfold Keyhive.adopt
              dsimp only
              split <;> simp [Keyhive.insertDoc, Keyhive.insertGroup, Keyhive.storeDlg, CaMap.insert, hdig, AMap.get_insert]
            | some i =>
              dsimp only
              have h3 := promote_fst (E := E) (k.removeIndividual d.subject) d
              split <;> rename_i heq <;> rw [heq] at h3 <;> simp only at h3 <;> rw [h3] <;>
                simp [Keyhive.storeDlg, CaMap.insert, hdig, AMap.get_insert]
          · cases h
  · rintro ⟨hn, d, hd, hg, hdoc⟩
    have hn' : AMap.get k.dlgs (E.hashDlg s) = none := Classical.not_not.1 hn
    have hc : AMap.contains k.dlgs (E.hashDlg s) = false := by rw [contains_eq_isSome, hn']; rfl
    change AMap.get (k.receiveDelegation E s).1.dlgs (E.hashDlg s) = some d at hd
    unfold Keyhive.receiveDlgLog
    rcases h2 with h2 | ⟨_, d', h3, h4⟩
    · rw [h2, hn'] at hd; cases hd
    · rw [h4, AMap.get_insert, if_pos rfl] at hd
      cases hd
      have hv : E.validDlg s = true := by
        cases hv : E.validDlg s with
        | true => rfl
        | false =>
          have : (k.receiveDelegation E s).1.dlgs = k.dlgs := by simp [Keyhive.receiveDelegation, hc, hv]
          rw [this] at h4
          rw [h4, AMap.get_insert, if_pos rfl] at hn'
          cases hn'
      simp [hc, hv, h3, hg, hdoc]

/-! ## Cases -/

open Verif.Keyhive.Sample Verif.Keyhive.TransactProps

-- A device that knows nothing of the team hears of the first delegation.
example : Reach Sample.E k0 ∧ (Call.receive (.dlg kAlice)).log Sample.E k0 = [.dlg kAlice] := ⟨reach_k0, by decide +kernel⟩

-- Received revocations are heard of.
example : Reach Sample.E (feed Sample.E y [.dlg kBob]) ∧ ((Call.receive (.rev rBob)).run Sample.E (feed Sample.E y [.dlg kBob])).HasOp Sample.E (.rev rBob) ∧
    (Call.receive (.rev rBob)).log Sample.E (feed Sample.E y [.dlg kBob]) = [.rev rBob] :=
  ⟨reach_feed (reach_feed reach_k0), by unfold Keyhive.HasOp; decide +kernel, by decide +kernel⟩

-- A new document: delegations and group-key operations.
example : (Call.Own (.newDoc L sg 300 [] [1])) ∧ ((Call.newDoc L sg 300 [] [1]).log EL k0).length = 4 := ⟨trivial, by decide +kernel⟩

/-- C112 fails: a delegation to a known group that a device accepts from another is not reported. -/
theorem C112_fails : ∃ (E : Env) (k : Keyhive) (s : SDlg), E.NoClash ∧ Reach E k ∧ (k.receive E (.dlg s)).2 = .ok () ∧
    ¬ k.HasOp E (.dlg s) ∧ (k.receive E (.dlg s)).1.HasOp E (.dlg s) ∧ (Call.receive (.dlg s)).log E k = [] :=
  ⟨Sample.E, y, kBob, E_noClash, reach_feed reach_k0, by decide +kernel, by unfold Keyhive.HasOp; decide +kernel,
    by unfold Keyhive.HasOp; decide +kernel, by decide +kernel⟩

/-- Carol, who may not, revokes Bob. -/
def rCarol : SRev := ⟨3, 3001, hashDlg kBob, none, []⟩

/-- C112 fails the other way round: a revocation that a device refuses is reported. -/
theorem C112_refused_fails : ∃ (E : Env) (k : Keyhive) (s : SRev) (err : Err), E.NoClash ∧ Reach E k ∧ (k.receive E (.rev s)).2 = .error err ∧
    ¬ (k.receive E (.rev s)).1.HasOp E (.rev s) ∧ (Call.receive (.rev s)).log E k = [.rev s] :=
  ⟨Sample.E, feed Sample.E y [.dlg kBob], rCarol, _, E_noClash, reach_feed (reach_feed reach_k0), by rfl, by unfold Keyhive.HasOp; decide +kernel,
    by decide +kernel⟩

end ReportProps

end Verif.Keyhive
