import Verif.Keyhive.TransactKeys
import Verif.Keyhive.ArchiveProps
import Verif.Keyhive.KeptSample

/-!
# C93: transactions on a device

The specification is `Verif.Keyhive.Keyhive.transact`'s result compared with the device after the same calls made directly
(`Keyhive.afterCalls`), see `Keyhive/AnswerSpec.lean` and `Keyhive/TransactSpec.lean`.
-/

namespace Verif.Keyhive.TransactProps

open Verif Verif.Group Verif.Cgka Verif.BeeKem Verif.Keyhive Verif.Keyhive.Sample Verif.Keyhive.ArchiveProps

variable {E : Env}

/-- The number of operations in the key tree of a document. -/
def treeOps (k : Keyhive) (did : Id) : Nat := match (AMap.get k.docs did).bind Doc.cgka with
  | none => 0
  | some c => c.graph.ops.length

/-- C93, a transaction that fails: the device is as if only the calls made on it meanwhile had been made, and the error is
returned. -/
theorem C93_abort_partial {k : Keyhive} (h : Reach E k) (hc : NoClash E.opDigest k.heads) (ha : Acyclic k.heads)
    (hr : ∀ d ∈ AMap.values k.dlgs, KnownAs k d.delegate) (hu : k.unlisted = false) (calls others : List Call) (e : Err) :
    k.transact E calls (.error e) others = (k.afterCalls E others, .error e) := by
  obtain ⟨f, hf, _⟩ := fork_twins h hc ha hr hu
  unfold Keyhive.transact
  rw [hf]
  rfl

/-- C93, a transaction that commits: the device knows exactly the membership operations it would know if the calls had been made
on it directly, and those of the calls made on it meanwhile. -/
theorem C93_commit_partial (hE : E.NoClash) {k : Keyhive} (h : Reach E k) (hc : NoClash E.opDigest k.heads) (ha : Acyclic k.heads)
    (hr : ∀ d ∈ AMap.values k.dlgs, KnownAs k d.delegate) (hu : k.unlisted = false) {calls others : List Call}
    (hown : ∀ c ∈ calls, c.Own) (hby : ∀ c ∈ calls, c.ByPrekeys) (hon : ∀ c ∈ others, c.Honest E) {k' : Keyhive}
    (ht : k.transact E calls (.ok ()) others = (k', .ok ())) (m : SMem) :
    k'.HasOp E m ↔ (k.afterCalls E calls).HasOp E m ∨ (k.afterCalls E others).HasOp E m := by
  obtain ⟨f, hf, htw⟩ := fork_twins h hc ha hr hu
  unfold Keyhive.transact at ht
  rw [hf] at ht
  simp only at ht
  obtain ⟨hr1, hk1⟩ := afterCalls_has hE (m := m) others h hon
  obtain ⟨h1, h2⟩ := runLogged_spec hE m calls f hown
  have hm := merged_same (k.afterCalls E others) ((Keyhive.runLogged E f calls).1.intoArchive E)
  have hs : StoreOk E ((k.afterCalls E others).merged ((Keyhive.runLogged E f calls).1.intoArchive E)) :=
    (reach_storeOk hr1).same hm.dlgs hm.revs
  have hrep := replayLog_has hE m (Keyhive.runLogged E f calls).2 hs ht
  rw [hrep, hasOp_same hm.dlgs hm.revs, ← (Twins.runAll (E := E) htw hby).has m]
  change _ ↔ (f.afterCalls E calls).HasOp E m ∨ _
  rw [h2, htw.has]
  constructor
  · rintro (h | h)
    · exact .inr h
    · exact .inl (.inr h)
  · rintro ((h | h) | h)
    · exact .inl (hk1 h)
    · exact .inr h
    · exact .inl h

/-- C93, contact cards: before the reported events are received, every individual that the device would know after the calls made
directly is known, with its prekey operations, and so is every individual known from the calls made meanwhile. -/
theorem C93_cards_partial {k : Keyhive} (h : Reach E k) (hc : NoClash E.opDigest k.heads) (ha : Acyclic k.heads)
    (hr : ∀ d ∈ AMap.values k.dlgs, KnownAs k d.delegate) (hu : k.unlisted = false) {calls others : List Call}
    (hby : ∀ c ∈ calls, c.ByPrekeys) (h1 : (k.afterCalls E calls).unlisted = false) (h2 : (k.afterCalls E others).unlisted = false)
    {k' : Keyhive} (ht : k.transact E calls (.ok ()) others = (k', .ok ())) :
    ∃ km, Wider (k.afterCalls E calls).reg.indies km.reg.indies ∧ Wider (k.afterCalls E others).reg.indies km.reg.indies ∧
      Fed E km k' := by
  obtain ⟨f, hf, htw⟩ := fork_twins h hc ha hr hu
  unfold Keyhive.transact at ht
  rw [hf] at ht
  simp only at ht
  have hrun := runLogged_fst (E := E) calls f
  have hal : Twins (k.afterCalls E calls) (f.afterCalls E calls) := Twins.runAll (E := E) htw hby
  obtain ⟨w1, w2⟩ := merged_wider h2 ((Keyhive.runLogged E f calls).1.intoArchive E)
  refine ⟨_, ?_, w1, replayLog_fed _ ht⟩
  have : ((Keyhive.runLogged E f calls).1.intoArchive E).individuals = (k.afterCalls E calls).reg.indies := by
    rw [hrun]
    unfold Archive.individuals
    have e1 : ((f.afterCalls E calls).intoArchive E).unlisted = false := hal.alike.unlisted.trans h1
    rw [if_neg (by rw [e1]; simp)]
    show (f.afterCalls E calls).reg.indies = _
    rw [hal.alike.reg]
  rw [this] at w2
  exact w2

/-- Creating a group with Alice in it and adding Bob, on the device of `C38`; meanwhile a revocation that the device knows comes in
again. -/
def work : List Call := [.newGroup sg 400 [⟨.individual, 1⟩], .addToGroup Sample.L 400 ⟨.individual, 2⟩ .read []]

/-- The hypotheses are met, the transaction commits, and three delegations are new. -/
example : (∀ c ∈ work, c.Own) ∧ (∀ c ∈ work, c.ByPrekeys) ∧
    (full.transact Sample.E work (.ok ()) [.receive (.rev rBob)]).2 = .ok () ∧
    (full.transact Sample.E work (.ok ()) [.receive (.rev rBob)]).1.dlgs.length = 8 := by
  refine ⟨?_, ?_, ?_, ?_⟩
  · intro c hc
    simp only [work, List.mem_cons, List.not_mem_nil, or_false] at hc
    rcases hc with rfl | rfl <;> exact trivial
  · intro c hc
    simp only [work, List.mem_cons, List.not_mem_nil, or_false] at hc
    rcases hc with rfl | rfl
    · exact trivial
    · exact fun _ _ _ => rfl
  · decide +kernel
  · decide +kernel

/-- C93, group-key operations: after a transaction whose calls all succeed has committed, every group-key operation that the device
would have recorded if the calls had been made on it directly is recorded, and every one recorded from the calls made on it
meanwhile. Missing: what the device can do with them (`C93_keys_fails`), and the converse. -/
theorem C93_key_ops_partial (hK : E.NoKeyClash) {did : Id} (ho : E.OnlyRoots did) {k : Keyhive} (h : Reach E k)
    (hc : NoClash E.opDigest k.heads) (ha : Acyclic k.heads) (hr : ∀ d ∈ AMap.values k.dlgs, KnownAs k d.delegate)
    (hu : k.unlisted = false) {calls others : List Call} (hby : ∀ c ∈ calls, c.ByPrekeys)
    (hf : AllFine E k calls) (hon : ∀ c ∈ others, c.Honest E) (hn : ∀ L S co heads, Call.newDoc L S did co heads ∉ others)
    {k' : Keyhive} (ht : k.transact E calls (.ok ()) others = (k', .ok ())) {op : SOp}
    (hop : HasKeyOp E (k.afterCalls E calls) did op ∨ HasKeyOp E (k.afterCalls E others) did op) : HasKeyOp E k' did op := by
  obtain ⟨f, hff, htw⟩ := fork_twins h hc ha hr hu
  unfold Keyhive.transact at ht
  rw [hff] at ht
  simp only at ht
  have ht' : ((k.afterCalls E others).merged ((Keyhive.runLogged E f calls).1.intoArchive E)).replayLog E (Keyhive.runLogged E f calls).2
    = (k', .ok ()) := ht
  have hm := merged_same (k.afterCalls E others) ((Keyhive.runLogged E f calls).1.intoArchive E)
  have hrest : HasKeyOp E (k.afterCalls E others) did op → HasKeyOp E k' did op := by
    intro hk
    refine KeptProps.C82_stays_partial ho (hK did) (onward_fed (replayLog_fed _ ht')) ?_
    unfold HasKeyOp at hk ⊢
    rw [hm.docs]
    exact hk
  rcases hop with hop | hop
  · have h1 : HasKeyOp E (f.afterCalls E calls) did op := (Twins.runAll (E := E) htw hby : Twins (k.afterCalls E calls) (f.afterCalls E calls)).hasKeyOp hop
    rcases runLogged_reports hK calls f (htw.allFine hby hf) did op h1 with h2 | h2
    · exact hrest (KeptProps.C82_stays_partial ho (hK did) (onward_calls others hon hn) (htw.hasKeyOp' h2))
    · refine replayLog_recorded ho (hK did) _ ((reach_trees ?_).same hm.docs) ht' h2
      exact reach_calls others h hon
  · exact hrest hop

/-- Adding Alice to document 300, on the device of `C82` that has encrypted for the document. -/
def invite : List Call := [.addToDoc LR 300 ⟨.individual, 1⟩ .read []]

/-- The hypotheses are met, the transaction commits, and the key tree has one operation more than before. -/
example : ER.NoKeyClash ∧ ER.OnlyRoots 300 ∧ Reach ER w2 ∧ NoClash ER.opDigest w2.heads ∧ Acyclic w2.heads ∧
    (∀ d ∈ AMap.values w2.dlgs, KnownAs w2 d.delegate) ∧ w2.unlisted = false ∧ (∀ c ∈ invite, c.Own) ∧ (∀ c ∈ invite, c.ByPrekeys) ∧
    AllFine ER w2 invite ∧ (w2.transact ER invite (.ok ()) []).2 = .ok () ∧
    treeOps w2 300 = 3 ∧ treeOps (w2.afterCalls ER invite) 300 = 4 ∧ treeOps (w2.transact ER invite (.ok ()) []).1 300 = 4 := by
  refine ⟨fun _ => tableH_injective _, ER_roots, reach_w2, Sample.noClash_of (by decide +kernel),
    acyclic_of_direct (Sample.noClash_of (by decide +kernel)) (Sample.direct_of (by decide +kernel)), ?_, by decide +kernel, ?_, ?_, ?_,
    by decide +kernel, by decide +kernel, by decide +kernel, by decide +kernel⟩
  · have h : (AMap.values w2.dlgs).all (fun d => knows w2 d.delegate) = true := by decide +kernel
    exact fun d hd => knownAs_of (List.all_eq_true.1 h d hd)
  · intro c hc
    rw [List.mem_singleton.1 hc]
    exact trivial
  · intro c hc
    rw [List.mem_singleton.1 hc]
    exact fun _ _ _ => rfl
  · intro pre c post hp
    rcases pre with _ | ⟨x, pre⟩
    · cases hp
      have h : (match (w2.addMemberToDoc ER LR 300 ⟨.individual, 1⟩ .read []).2 with | .ok _ => true | .error _ => false) = true := by
        decide +kernel
      show ∃ a, (w2.addMemberToDoc ER LR 300 ⟨.individual, 1⟩ .read []).2 = .ok a
      split at h
      · rename_i a ha; exact ⟨a, ha⟩
      · cases h
    · have := congrArg List.length hp
      simp [invite] at this

/-! ## What is lost -/

/-- Updating the key of document 300 with other secrets. -/
def L8 : Local := { Sample.L with gen := fun n => 800 + n }

/-- The secret that is sent. -/
def boxed8 : EncryptedSecret := { key := { lo := 55, hi := 800 }, plain := 801, pairedPk := ⟨55⟩ }
/-- The update. -/
def tU : SOp :=
  let store := { versions := [{ pk := ⟨801⟩, sk := [(.leaf 1, boxed8), (.leaf 0, boxed8)], encrypterPk := ⟨800⟩ }] }
  ⟨.update 300 { leafId := 300, leafIdx := 0, leafPk := .share ⟨800⟩, path := [(0, store)], removedKeys := [⟨700⟩, ⟨701⟩] } [2], 5, 5900⟩

/-- Digests and signatures. -/
noncomputable def ET : Env := env (tableH [t0, t1, t2, tU])

/-- Agent 5 has created document 300. -/
noncomputable def w : Keyhive := (k0.generateDoc ET Sample.L sg 300 [] [1]).1

theorem reach_w : Reach ET w :=
  .call (.newDoc Sample.L sg 300 [] [1]) (.start reg [(⟨55⟩, 55)]) ⟨sg_signs _, sg_signs _, fun _ _ _ h => by cases h; rfl⟩

/-- After a transaction that updates the key. -/
noncomputable def w' : Keyhive := (w.transact ET [.pcsUpdate L8 300] (.ok ()) []).1

/-- The update made elsewhere and received in a transaction, alone or in a batch, is recorded on the device. -/
example : (w.transact ET [.receive (.cgka 300 tU)] (.ok ()) []).2 = .ok () ∧ treeOps w 300 = 3 ∧
    treeOps (w.afterCalls ET [.receive (.cgka 300 tU)]) 300 = 4 ∧
    treeOps (w.transact ET [.receive (.cgka 300 tU)] (.ok ()) []).1 300 = 4 ∧
    treeOps (w.transact ET [.ingest List.reverse [.cgka 300 tU]] (.ok ()) []).1 300 = 4 :=
  ⟨by decide +kernel, by decide +kernel, by decide +kernel, by decide +kernel, by decide +kernel⟩

/-- What the call says about content. -/
def errOf {α : Type} : Except Err α → Option Err
  | .ok _ => none
  | .error e => some e

/-- C93 fails for key updates: the new secret of the device's leaf stays in the fork. After a transaction that only updates the key
of a document, the device can no longer encrypt for that document, which it could before and could after a direct update. -/
theorem C93_keys_fails : ∃ (E : Env) (k k' : Keyhive) (L : Local) (did : Id), Reach E k ∧ E.NoClash ∧
    k.transact E [.pcsUpdate L did] (.ok ()) [] = (k', .ok ()) ∧
    errOf (k.encryptContent E L did 1 0 42).2 = none ∧
    errOf ((k.afterCalls E [.pcsUpdate L did]).encryptContent E L did 1 0 42).2 = none ∧
    errOf (k'.encryptContent E L did 1 0 42).2 = some (.cgka .secretKeyNotFound) :=
  ⟨ET, w, w', L8, 300, reach_w, env_noClash _, Prod.ext rfl (by decide +kernel), by decide +kernel, by decide +kernel, by decide +kernel⟩

/-- Alice's group 100, with Bob added by Alice elsewhere. -/
noncomputable def y : Keyhive := feed Sample.E k0 [.dlg kAlice]

/-- C93 fails for received delegations: a delegation for a known group that is received in a transaction is not known after the
transaction has committed. -/
theorem C93_received_fails : ∃ (E : Env) (k k' : Keyhive) (s : SDlg), Reach E k ∧ E.NoClash ∧
    k.transact E [.receive (.dlg s)] (.ok ()) [] = (k', .ok ()) ∧
    (k.afterCalls E [.receive (.dlg s)]).HasOp E (.dlg s) ∧ ¬ k'.HasOp E (.dlg s) :=
  ⟨Sample.E, y, (y.transact Sample.E [.receive (.dlg kBob)] (.ok ()) []).1, kBob, reach_feed reach_k0, E_noClash,
    Prod.ext rfl (by decide +kernel), by unfold Keyhive.HasOp; decide +kernel, by unfold Keyhive.HasOp; decide +kernel⟩

/-- C93 fails: committing panics when the transaction has received such a delegation and then its revocation, although both are
accepted when they are received directly. -/
theorem C93_commit_fails : ∃ (E : Env) (k : Keyhive) (s : SDlg) (r : SRev), Reach E k ∧ E.NoClash ∧
    (k.transact E [.receive (.dlg s), .receive (.rev r)] (.ok ()) []).2 = .error .panic ∧
    (k.receive E (.dlg s)).2 = .ok () ∧ ((k.receive E (.dlg s)).1.receive E (.rev r)).2 = .ok () :=
  ⟨Sample.E, y, kBob, rBob, reach_feed reach_k0, E_noClash, by decide +kernel, by decide +kernel, by decide +kernel⟩

end Verif.Keyhive.TransactProps
