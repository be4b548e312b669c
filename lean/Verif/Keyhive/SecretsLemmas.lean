import Verif.Keyhive.Secrets
import Verif.Keyhive.TakeInLemmas
import Verif.Keyhive.KeptLemmas
import Verif.Cgka.FitInv
import Mathlib.Tactic.ByContra

/-! # What receiving events leaves alone, and when an invitation is merged -/

namespace Verif.Keyhive

open Verif.Group Verif.Cgka Verif.BeeKem

variable {E : Env}

/-- The same active agent with the same prekey pairs. -/
structure SameSelf (k k' : Keyhive) : Prop where
  me : k'.reg.me = k.reg.me
  pub : k'.reg.pub = k.reg.pub
  pairs : k'.pairs = k.pairs

theorem SameSelf.rfl' (k : Keyhive) : SameSelf k k := ⟨rfl, rfl, rfl⟩

theorem SameSelf.trans {k k1 k2 : Keyhive} (h : SameSelf k k1) (h' : SameSelf k1 k2) : SameSelf k k2 :=
  ⟨h'.me.trans h.me, h'.pub.trans h.pub, h'.pairs.trans h.pairs⟩

theorem registry_self (H : Prekey.KeyOp → Nat) (valid : Prekey.KeyOp → Bool) (r : Prekey.Registry) (op : Prekey.KeyOp) :
    (r.receivePrekeyOp H valid op).1.me = r.me ∧ (r.receivePrekeyOp H valid op).1.pub = r.pub := by
  have put : ∀ (r : Prekey.Registry) (x : Prekey.Indie),
      (r.receiveIndie H valid x op).1.me = r.me ∧ (r.receiveIndie H valid x op).1.pub = r.pub := by
    intro r x
    unfold Prekey.Registry.receiveIndie
    split <;> exact ⟨rfl, rfl⟩
  have reg : ∀ x, (r.registerIndividual x).me = r.me ∧ (r.registerIndividual x).pub = r.pub := by
    intro x
    unfold Prekey.Registry.registerIndividual
    split <;> exact ⟨rfl, rfl⟩
  have mem : ∀ x, (r.receiveMembered H valid x op).1.me = r.me ∧ (r.receiveMembered H valid x op).1.pub = r.pub := by
    intro x
    unfold Prekey.Registry.receiveMembered
    repeat' split
    all_goals exact ⟨rfl, rfl⟩
  unfold Prekey.Registry.receivePrekeyOp
  repeat' split
  all_goals first
    | exact ⟨rfl, rfl⟩
    | exact mem _
    | exact put _ _
    | exact ⟨(put _ _).1.trans (reg _).1, (put _ _).2.trans (reg _).2⟩
    | exact reg _

theorem promote_self (k : Keyhive) (d : Dlg) : SameSelf k (k.promote E d).1 := by
  unfold Keyhive.promote
  dsimp only
  split <;> exact ⟨rfl, rfl, rfl⟩

theorem remove_self (k : Keyhive) (i : Id) : SameSelf k (k.removeIndividual i) := by
  unfold Keyhive.removeIndividual
  split <;> exact ⟨rfl, rfl, rfl⟩

theorem adopt_self (k : Keyhive) (d : Dlg) : SameSelf k (k.adopt E d) := by
  unfold Keyhive.adopt
  dsimp only
  split <;> exact ⟨rfl, rfl, rfl⟩

theorem receive_self (k : Keyhive) (e : Event) : SameSelf k (k.receive E e).1 := by
  cases e with
  | prekey op => exact ⟨(registry_self _ _ _ _).1, (registry_self _ _ _ _).2, rfl⟩
  | cgka i op =>
    simp only [Keyhive.receive, Keyhive.receiveCgkaOp, Keyhive.mergePublicInvite, Keyhive.closeDoc, Keyhive.setDoc]
    repeat' split
    all_goals exact ⟨rfl, rfl, rfl⟩
  | dlg s =>
    simp only [Keyhive.receive, Keyhive.receiveDelegation]
    repeat' split
    all_goals try exact SameSelf.rfl' k
    rename_i d _
    unfold Keyhive.applyDlg
    repeat' split
    all_goals first
      | exact ⟨rfl, rfl, rfl⟩
      | exact adopt_self k d
      | (rename_i heq; exact (remove_self k d.subject).trans (by rw [show _ = _ from (congrArg Prod.fst heq).symm]; exact promote_self _ _))
  | rev s =>
    simp only [Keyhive.receive, Keyhive.receiveRevocation]
    repeat' split
    all_goals try exact SameSelf.rfl' k
    rename_i r _
    unfold Keyhive.applyRev
    have pr : ∀ {k' : Keyhive} {x : Except Err Group}, (k.removeIndividual r.subject).promote E r.revoke = (k', x) → SameSelf k k' := by
      intro k' x heq
      have := (remove_self k r.subject).trans (promote_self (E := E) (k.removeIndividual r.subject) r.revoke)
      rwa [heq] at this
    split
    · split <;> exact ⟨rfl, rfl, rfl⟩
    · split
      · split <;> exact ⟨rfl, rfl, rfl⟩
      · split
        · split
          · rename_i heq; exact pr heq
          · rename_i heq
            split
            · exact pr heq
            · exact (pr heq).trans ⟨rfl, rfl, rfl⟩
        · exact SameSelf.rfl' k

theorem fed_self {k k' : Keyhive} (h : Fed E k k') : SameSelf k k' := by
  induction h with
  | refl => exact SameSelf.rfl' k
  | step e h ih => exact ih.trans (receive_self _ e)

theorem ingest_self (k : Keyhive) (ord : List Event → List Event) (events : List Event) : SameSelf k (k.ingest E ord events).1 :=
  ingest_keeps (P := SameSelf k) (fun _ e h => h.trans (receive_self _ e)) (fun _ _ h => h.trans ⟨rfl, rfl, rfl⟩) ord events (SameSelf.rfl' k)

theorem extend_pairs (k : Keyhive) {m : ShareKeyMap} (hw : AMap.WF m) (pk : Pk) :
    AMap.get (k.extendPairs m).pairs pk = (AMap.get m pk).or (AMap.get k.pairs pk) := get_foldl_insert pk _ hw

theorem extend_storeOk {k : Keyhive} (h : StoreOk E k) (m : ShareKeyMap) : StoreOk E (k.extendPairs m) := h.same rfl rfl

/-- Applying an invitation to a tree that is consistent does not fail. -/
theorem apply_add {H : SOp → Nat} {c : Cgka} (f : HasFit c.tree) {op : SOp} {i : MemberId} {pk : Pk} {l : Nat} {ps as : List Nat}
    (ho : op.payload = .add i pk l ps as) : ∃ c', c.applyOperation H op = .ok c' := by
  unfold Cgka.applyOperation
  split
  · exact ⟨_, rfl⟩
  · obtain ⟨h, f⟩ := f
    obtain ⟨t, _, e, _⟩ := BeeKem.pushLeaf_ok f.shape f.next i (.share pk)
    rw [ho]
    simp only [e, bind, Except.bind, pure, Except.pure]
    exact ⟨_, rfl⟩

/-- When merging an invitation whose predecessors are recorded does not fail. -/
theorem merge_add {H : SOp → Nat} {c : Cgka} (f : HasFit c.tree) {op : SOp} {i : MemberId} {pk : Pk} {l : Nat} {ps as : List Nat}
    (ho : op.payload = .add i pk l ps as) (hp : c.graph.containsPredecessors op.payload.preds = true)
    (hc : c.shouldReplay = false ∨ c.graph.headsContainedIn op.payload.preds = false) :
    ∃ c' b, c.mergeConcurrentOperation H op = (c', .ok b) ∧ c'.ownerId = c.ownerId ∧ c'.ownerSks = c.ownerSks ∧
      AMap.get c'.graph.ops (H op) ≠ none := by
  have added : AMap.get (c.graph.addOp H op op.payload.preds).ops (H op) ≠ none := by
    simp only [Graph.addOp, Graph.addOpAndUpdateHeads, AMap.get_insert_self]
    exact fun h => by cases h
  unfold Cgka.mergeConcurrentOperation
  split
  · rename_i hin
    exact ⟨_, _, rfl, rfl, rfl, (containsOpHash_iff _ _).1 hin⟩
  · rename_i hnew
    have hnone : AMap.get c.graph.ops (H op) = none := by
      by_contra hne
      exact hnew ((containsOpHash_iff _ _).2 hne)
    rw [hp]
    simp only [Bool.not_true, Bool.false_eq_true, if_false]
    split
    · split
      · exact ⟨_, _, rfl, rfl, rfl, added⟩
      · rw [if_pos (by rw [ho]; rfl)]
        exact ⟨_, _, rfl, rfl, rfl, added⟩
    · rename_i hh
      have hcp : c.shouldReplay = false := by
        rcases hc with h | h
        · exact h
        · exact absurd (show (!c.graph.headsContainedIn op.payload.preds) = true by rw [h]; rfl) hh
      have hr : c.replayIfNeeded H = .ok c := by
        unfold Cgka.replayIfNeeded
        simp [hcp]
      rw [hr]
      obtain ⟨c', e⟩ := apply_add (H := H) f ho
      have fr := applyOperation_frame e
      have gr := applyOperation_graph e hnone
      simp only [e]
      exact ⟨_, _, rfl, fr.2.2.1, fr.2.2.2.2.2.2, by rw [gr]; exact added⟩

end Verif.Keyhive
