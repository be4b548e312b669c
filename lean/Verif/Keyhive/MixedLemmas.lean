import Verif.Keyhive.SyncLemmas
import Verif.Keyhive.KeptProps

/-! # Taking in a batch that also holds other events (C127) -/

namespace Verif.Keyhive

open Verif.Group Verif.Cgka Verif.BeeKem

variable {E : Env}

/-! ## Where recorded operations come from -/

theorem merge_from {H : SOp → Nat} {d : Doc} {op o : SOp} (hne : o ≠ op) (hH : Function.Injective H)
    (h : (d.mergeCgkaOp H op).1.Recorded H o) : d.Recorded H o := by
  unfold Doc.mergeCgkaOp at h
  split at h
  · rename_i c hc
    obtain ⟨c', e1, e2⟩ := h
    cases e1
    refine ⟨c, hc, ?_⟩
    rcases Verif.Cgka.Props.receive_cases H c op with ⟨h1, -⟩ | ⟨h1, -⟩
    · rw [← h1]; exact e2
    · rw [h1, addOp_ops, AMap.get_insert] at e2
      rw [if_neg (fun e => hne (hH e))] at e2
      exact e2
  · rename_i hc
    split at h
    · split at h
      · exact h
      · split at h
        · exact h
        · rename_i c hq
          obtain ⟨c', e1, e2⟩ := h
          cases e1
          exfalso
          unfold Cgka.newFromInitAdd at hq
          simp only [bind, Except.bind, pure, Except.pure] at hq
          split at hq
          · cases hq
          · cases hq
            have : AMap.get ((Graph.new.addLocalOp H op).ops) (H o) = some o := e2
            rw [addLocalOp_ops, AMap.get_insert, if_neg (fun e => hne (hH e))] at this
            simp [Graph.new] at this
    · exact h

theorem invite_from {H : SOp → Nat} {d : Doc} {op : SOp} {sk : Sk} {o : SOp} (hne : o ≠ op) (hH : Function.Injective H)
    (h : (d.mergeCgkaInviteOp H op sk).1.Recorded H o) : d.Recorded H o := by
  unfold Doc.mergeCgkaInviteOp at h
  split at h
  · split at h
    · exact h
    · rename_i c hc
      split at h
      · exact h
      · obtain ⟨c', e1, e2⟩ := merge_from hne hH h
        cases e1
        exact ⟨c, hc, e2⟩
  · exact h

theorem reset_from {H : SOp → Nat} {d : Doc} {owner : Id} {o : SOp} (h : (d.resetCgkaOwner owner).1.Recorded H o) : d.Recorded H o := by
  unfold Doc.resetCgkaOwner at h
  split at h
  · exact h
  · rename_i c hc
    obtain ⟨c', e1, e2⟩ := h
    cases e1
    exact ⟨c, hc, e2⟩

theorem close_from {k : Keyhive} {i did : Id} {d : Doc} (hd : AMap.get k.docs i = some d) {α : Type} {r : Doc × Res α} {o : SOp}
    (hr : i = did → r.1.Recorded (E.hashCgka did) o → d.Recorded (E.hashCgka did) o) (h : HasKeyOp E (k.closeDoc i r).1 did o) : HasKeyOp E k did o := by
  obtain ⟨d', c, h1, h2, h3⟩ := h
  have h1' : AMap.get (k.setDoc i r.1).docs did = some d' := h1
  rw [get_setDoc hd] at h1'
  split at h1'
  · rename_i he
    cases h1'
    obtain ⟨c', e1, e2⟩ := hr he.symm ⟨c, h2, h3⟩
    exact ⟨d, c', he ▸ hd, e1, e2⟩
  · exact ⟨d', c, h1', h2, h3⟩

/-- A recorded operation was recorded before or is the one received. -/
theorem receive_from {did : Id} (hH : Function.Injective (E.hashCgka did)) {k : Keyhive} {e : Event} {o : SOp} (h : HasKeyOp E (k.receive E e).1 did o) :
    HasKeyOp E k did o ∨ e = .cgka did o := by
  by_contra hcon
  rw [not_or] at hcon
  obtain ⟨hn, hne⟩ := hcon
  have trees : ∀ {k' : Keyhive}, Trees (fun i c => i = did → AMap.get c.graph.ops (E.hashCgka did o) ≠ some o) k' → ¬ HasKeyOp E k' did o := by
    rintro k' ht ⟨d, c, h1, h2, h3⟩
    exact ht did d h1 c h2 rfl h3
  have t0 : Trees (fun i c => i = did → AMap.get c.graph.ops (E.hashCgka did o) ≠ some o) k := by
    rintro i d hd c hc rfl h3
    exact hn ⟨d, c, hd, hc, h3⟩
  cases e with
  | prekey op => exact hn h
  | cgka i op =>
    refine hn ?_
    have hno : i = did → o ≠ op := by
      rintro rfl rfl
      exact hne rfl
    change HasKeyOp E (k.receiveCgkaOp E i op).1 did o at h
    unfold Keyhive.receiveCgkaOp at h
    split at h
    · exact h
    · split at h
      · exact h
      · rename_i d hd
        have hm := close_from (E := E) (k := k) (did := did) (r := d.mergeCgkaOp (E.hashCgka i) op) (o := o) hd
          (fun he hr => by subst he; exact merge_from (hno rfl) hH hr)
        split at h
        · split at h
          · split at h
            · exact h
            · exact close_from hd (fun he hr => by subst he; exact invite_from (hno rfl) hH hr) h
          · split at h
            · unfold Keyhive.mergePublicInvite at h
              split at h
              · rename_i d' err hq
                refine close_from hd (fun he hr => ?_) h
                subst he
                have : d' = (d.mergeCgkaInviteOp (E.hashCgka i) op publicSk).1 := by rw [hq]
                exact invite_from (sk := publicSk) (hno rfl) hH (this ▸ hr)
              · rename_i d' b hq
                refine close_from hd (fun he hr => ?_) h
                subst he
                have : d' = (d.mergeCgkaInviteOp (E.hashCgka i) op publicSk).1 := by rw [hq]
                exact invite_from (sk := publicSk) (hno rfl) hH (this ▸ reset_from hr)
            · exact hm h
        · exact hm h
  | dlg s =>
    refine trees ?_ h
    show Trees _ (k.receiveDelegation E s).1
    unfold Keyhive.receiveDelegation
    repeat' split
    · exact t0
    · exact t0
    · exact t0
    · exact trees_applyDlg t0 _
  | rev s =>
    refine trees ?_ h
    show Trees _ (k.receiveRevocation E s).1
    unfold Keyhive.receiveRevocation
    repeat' split
    · exact t0
    · exact t0
    · exact t0
    · exact trees_applyRev t0 _

/-! ## Documents stay known, and only accepted events make them known -/

theorem insert_known {V : Type} {m : AMap Id V} {i j : Id} {v : V} (h : AMap.get m j ≠ none) : AMap.get (AMap.insert m i v) j ≠ none := by
  rw [AMap.get_insert]
  split
  · simp
  · exact h

theorem applyDlg_docs (k : Keyhive) (d : Dlg) (j : Id) : (AMap.get k.docs j ≠ none → AMap.get (k.applyDlg E d).1.docs j ≠ none) ∧
    ∀ err, (k.applyDlg E d).2 = .error err → (k.applyDlg E d).1.docs = k.docs := by
  unfold Keyhive.applyDlg
  split
  · split
    · exact ⟨id, fun _ _ => rfl⟩
    · exact ⟨id, fun _ h => by cases h⟩
  · split
    · split
      · exact ⟨id, fun _ _ => rfl⟩
      · exact ⟨insert_known, fun _ h => by cases h⟩
    · split
      · have hp := promote_fst (E := E) (k.removeIndividual d.subject) d
        have hd : (k.removeIndividual d.subject).docs = k.docs := removeIndividual_docs k _
        split
        · rename_i heq
          rw [heq] at hp
          dsimp only at hp ⊢
          rw [hp]
          exact ⟨by show _ → AMap.get (k.removeIndividual d.subject).docs j ≠ none; rw [hd]; exact id, fun _ _ => hd⟩
        · rename_i heq
          rw [heq] at hp
          dsimp only at hp ⊢
          rw [hp]
          exact ⟨by show _ → AMap.get (k.removeIndividual d.subject).docs j ≠ none; rw [hd]; exact id, fun _ h => by cases h⟩
      · refine ⟨?_, fun _ h => by cases h⟩
        unfold Keyhive.adopt
        dsimp only
        split
        · exact insert_known
        · exact id

theorem applyRev_docs (k : Keyhive) (r : Rev) (j : Id) : (AMap.get k.docs j ≠ none → AMap.get (k.applyRev E r).1.docs j ≠ none) ∧
    ∀ err, (k.applyRev E r).2 = .error err → (k.applyRev E r).1.docs = k.docs := by
  unfold Keyhive.applyRev
  split
  · split
    · exact ⟨id, fun _ _ => rfl⟩
    · exact ⟨id, fun _ h => by cases h⟩
  · split
    · split
      · exact ⟨id, fun _ _ => rfl⟩
      · exact ⟨insert_known, fun _ h => by cases h⟩
    · split
      · have hp := promote_fst (E := E) (k.removeIndividual r.subject) r.revoke
        have hd : (k.removeIndividual r.subject).docs = k.docs := removeIndividual_docs k _
        have hs : ((k.removeIndividual r.subject).storeDlg E r.revoke).docs = k.docs := hd
        split
        · rename_i heq
          rw [heq] at hp
          dsimp only at hp ⊢
          rw [hp, hs]
          exact ⟨id, fun _ _ => rfl⟩
        · rename_i heq
          rw [heq] at hp
          dsimp only at hp ⊢
          subst hp
          split
          · dsimp only; rw [hs]; exact ⟨id, fun _ _ => rfl⟩
          · refine ⟨?_, fun _ h => by cases h⟩
            show _ → AMap.get ((k.removeIndividual r.subject).storeDlg E r.revoke).docs j ≠ none
            rw [hs]; exact id
      · exact ⟨id, fun _ _ => rfl⟩

theorem receive_docs (k : Keyhive) (e : Event) (j : Id) : (AMap.get k.docs j ≠ none → AMap.get (k.receive E e).1.docs j ≠ none) ∧
    ∀ err, (k.receive E e).2 = .error err → AMap.get k.docs j = none → AMap.get (k.receive E e).1.docs j = none := by
  cases e with
  | prekey op => exact ⟨id, fun _ _ h => h⟩
  | cgka i op =>
    have hset : ∀ {α : Type} (r : Doc × Res α), AMap.get (k.closeDoc i r).1.docs j ≠ none ↔ AMap.get k.docs j ≠ none := by
      intro α r
      show AMap.get (Keyhive.replace i r.1 k.docs) j ≠ none ↔ _
      rw [get_replace]
      split
      · rename_i h
        obtain ⟨rfl, h⟩ := h
        rw [Option.isSome_iff_ne_none] at h
        simp [h]
      · rfl
    have key : AMap.get (k.receiveCgkaOp E i op).1.docs j ≠ none ↔ AMap.get k.docs j ≠ none := by
      unfold Keyhive.receiveCgkaOp Keyhive.mergePublicInvite
      repeat' split
      all_goals first
        | exact Iff.rfl
        | exact hset _
    exact ⟨key.2, fun _ _ h => by_contra (fun hn => key.1 hn h)⟩
  | dlg s =>
    show (_ → AMap.get (k.receiveDelegation E s).1.docs j ≠ none) ∧ ∀ err, (k.receiveDelegation E s).2 = .error err → _ →
      AMap.get (k.receiveDelegation E s).1.docs j = none
    unfold Keyhive.receiveDelegation
    repeat' split
    · exact ⟨id, fun _ _ h => h⟩
    · exact ⟨id, fun _ _ h => h⟩
    · exact ⟨id, fun _ _ h => h⟩
    · exact ⟨(applyDlg_docs k _ j).1, fun err he h => by rw [(applyDlg_docs k _ j).2 err he]; exact h⟩
  | rev s =>
    show (_ → AMap.get (k.receiveRevocation E s).1.docs j ≠ none) ∧ ∀ err, (k.receiveRevocation E s).2 = .error err → _ →
      AMap.get (k.receiveRevocation E s).1.docs j = none
    unfold Keyhive.receiveRevocation
    repeat' split
    · exact ⟨id, fun _ _ h => h⟩
    · exact ⟨id, fun _ _ h => h⟩
    · exact ⟨id, fun _ _ h => h⟩
    · exact ⟨(applyRev_docs k _ j).1, fun err he h => by rw [(applyRev_docs k _ j).2 err he]; exact h⟩

/-! ## Passes and rounds with what is known about the events -/

section track

variable {S : Event → Prop} {P : Keyhive → Prop} {Q : Keyhive → Keyhive → Prop} {Done : Keyhive → Event → Prop}

/-- What receiving the events does not break. -/
structure Tracked (E : Env) (S : Event → Prop) (P : Keyhive → Prop) (Q : Keyhive → Keyhive → Prop) (Done : Keyhive → Event → Prop) : Prop where
  keep : ∀ {k e}, S e → P k → P (k.receive E e).1
  refl : ∀ k, Q k k
  trans : ∀ {a b c}, Q a b → Q b c → Q a c
  step : ∀ {k e}, S e → P k → Q k (k.receive E e).1
  done : ∀ {k e}, S e → P k → (∀ err, (k.receive E e).2 = .error err → err.isPrekey = true) → Done (k.receive E e).1 e
  stays : ∀ {k k' e}, S e → Q k k' → Done k e → Done k' e

theorem Tracked.pass (T : Tracked E S P Q Done) : ∀ {es : List Event} {k k' : Keyhive} {next out : List Event}, (∀ e ∈ es, S e) → P k →
    Keyhive.pass E k es next = (k', .ok out) → P k' ∧ Q k k' ∧ ∃ failed, out = next ++ failed ∧ failed.Sublist es ∧
      (∀ e ∈ es, e ∈ failed ∨ Done k' e) ∧ ∀ e ∈ failed, ∃ s err, P s ∧ Q k s ∧ (s.receive E e).2 = .error err := by
  intro es
  induction es with
  | nil =>
    intro k k' next out _ hp h
    cases h
    exact ⟨hp, T.refl _, [], by simp, by simp, by simp, by simp⟩
  | cons e es ih =>
    intro k k' next out hS hp h
    have he := hS e List.mem_cons_self
    have hes : ∀ e' ∈ es, S e' := fun e' h' => hS e' (List.mem_cons_of_mem _ h')
    have hp1 := T.keep he hp
    have hq1 := T.step he hp
    unfold Keyhive.pass at h
    split at h
    · rename_i k1 hk
      have hd := T.done he hp (by rw [hk]; intro _ h; cases h)
      rw [hk] at hp1 hq1 hd
      obtain ⟨r1, r2, failed, r3, r4, r5, r6⟩ := ih hes hp1 h
      refine ⟨r1, T.trans hq1 r2, failed, r3, r4.cons _, fun e' h' => ?_, fun e' h' => ?_⟩
      · rcases List.mem_cons.1 h' with rfl | h'
        · exact .inr (T.stays he r2 hd)
        · exact r5 e' h'
      · obtain ⟨s, err, f1, f2, f3⟩ := r6 e' h'
        exact ⟨s, err, f1, T.trans hq1 f2, f3⟩
    · rename_i k1 err hk
      split at h
      · cases h
      · split at h
        · rename_i hpre
          have hd := T.done he hp (by rw [hk]; intro _ h; cases h; exact hpre)
          rw [hk] at hp1 hq1 hd
          obtain ⟨r1, r2, failed, r3, r4, r5, r6⟩ := ih hes hp1 h
          refine ⟨r1, T.trans hq1 r2, failed, r3, r4.cons _, fun e' h' => ?_, fun e' h' => ?_⟩
          · rcases List.mem_cons.1 h' with rfl | h'
            · exact .inr (T.stays he r2 hd)
            · exact r5 e' h'
          · obtain ⟨s, err, f1, f2, f3⟩ := r6 e' h'
            exact ⟨s, err, f1, T.trans hq1 f2, f3⟩
        · rw [hk] at hp1 hq1
          obtain ⟨r1, r2, failed, r3, r4, r5, r6⟩ := ih hes hp1 h
          refine ⟨r1, T.trans hq1 r2, e :: failed, by simp [r3], r4.cons_cons _, fun e' h' => ?_, fun e' h' => ?_⟩
          · rcases List.mem_cons.1 h' with rfl | h'
            · exact .inl List.mem_cons_self
            · exact (r5 e' h').imp (List.mem_cons_of_mem _) id
          · rcases List.mem_cons.1 h' with rfl | h'
            · exact ⟨k, err, hp, T.refl _, by rw [hk]⟩
            · obtain ⟨s, err, f1, f2, f3⟩ := r6 e' h'
              exact ⟨s, err, f1, T.trans hq1 f2, f3⟩

/-- A pass in which everything fails makes no document known. -/
theorem pass_none {j : Id} : ∀ {es : List Event} {k k' : Keyhive} {next : List Event}, Keyhive.pass E k es next = (k', .ok (next ++ es)) →
    AMap.get k.docs j = none → AMap.get k'.docs j = none := by
  intro es
  induction es with
  | nil =>
    intro k k' next h hj
    unfold Keyhive.pass at h
    rw [← (Prod.mk.inj h).1]
    exact hj
  | cons e es ih =>
    intro k k' next h hj
    have short : ∀ {k1 : Keyhive}, Keyhive.pass E k1 es next = (k', .ok (next ++ e :: es)) → False := by
      intro k1 h1
      obtain ⟨-, failed, h2, h3, -⟩ := pass_spec h1
      have := h3.length_le
      have h4 := List.append_cancel_left h2
      rw [← h4] at this
      simp at this
    unfold Keyhive.pass at h
    split at h
    · exact (short h).elim
    · rename_i k1 err hk
      split at h
      · cases h
      · split at h
        · exact (short h).elim
        · have := (receive_docs (E := E) k e j).2 err (by rw [hk]) hj
          rw [hk] at this
          exact ih (next := next ++ [e]) (by simpa using h) this

theorem Tracked.rounds (T : Tracked E S P Q Done) {replayed : List Nat} : ∀ {n : Nat} {k k' : Keyhive} {epoch left : List Event}, (∀ e ∈ epoch, S e) →
    P k → Keyhive.rounds E replayed n k epoch = (k', some (.ok left)) →
    ∃ k0 k1, P k1 ∧ Q k k1 ∧ k'.docs = k1.docs ∧ (∀ e ∈ left, e ∈ epoch) ∧ (∀ e ∈ epoch, e ∈ left ∨ Done k1 e) ∧
      (left ≠ [] → P k0 ∧ Q k k0 ∧ Q k0 k1 ∧ Keyhive.pass E k0 left [] = (k1, .ok left) ∧ (∀ e ∈ epoch, e ∈ left ∨ Done k0 e) ∧
        ∀ e ∈ left, ∃ s err, P s ∧ Q k0 s ∧ (s.receive E e).2 = .error err) := by
  intro n
  induction n with
  | zero => intro k k' epoch left _ _ h; cases h
  | succ n ih =>
    intro k k' epoch left hS hp h
    unfold Keyhive.rounds at h
    split at h
    · cases h
    · rename_i k1 heq
      obtain ⟨r1, r2, failed, r3, r4, r5, r6⟩ := T.pass hS hp heq
      simp only [List.nil_append] at r3
      subst r3
      cases h
      exact ⟨k, k1, r1, r2, rfl, by simp, fun e he => .inr ((r5 e he).resolve_left (by simp)), by simp⟩
    · rename_i k1 e es heq
      obtain ⟨r1, r2, failed, r3, r4, r5, r6⟩ := T.pass hS hp heq
      simp only [List.nil_append] at r3
      subst r3
      split at h
      · rename_i hlen
        cases h
        have hall := r4.eq_of_length hlen
        refine ⟨k, k1, r1, r2, rfl, fun e' h' => r4.subset h', r5, fun _ => ⟨hp, T.refl _, r2, by rw [hall]; rw [hall] at heq; exact heq, fun e' h' => ?_, r6⟩⟩
        rw [hall]
        exact .inl h'
      · obtain ⟨k0, k2, q1, q2, q3, q4, q5, q6⟩ := ih (fun e' h' => hS e' (r4.subset h')) r1 h
        refine ⟨k0, k2, q1, T.trans r2 q2, q3, fun e' h' => r4.subset (q4 e' h'), fun e' h' => ?_, fun hl => ?_⟩
        · rcases r5 e' h' with h1 | h1
          · exact q5 e' h1
          · exact .inr (T.stays (hS e' h') q2 h1)
        · obtain ⟨f1, f2, f3, f4, f5, f6⟩ := q6 hl
          refine ⟨f1, T.trans r2 f2, f3, f4, fun e' h' => ?_, f6⟩
          rcases r5 e' h' with h1 | h1
          · exact f5 e' h1
          · exact .inr (T.stays (hS e' h') f2 h1)

end track

end Verif.Keyhive
