import Verif.Keyhive.StoreLemmas

/-! # Ingesting a batch -/

namespace Verif.Keyhive

open Verif.Group Verif.Cgka Verif.BeeKem

variable {E : Env}

theorem get_replace (id : Id) (d : Doc) : ∀ (m : AMap Id Doc) (j : Id),
    AMap.get (Keyhive.replace id d m) j = if j = id ∧ (AMap.get m id).isSome then some d else AMap.get m j
  | [], j => by simp [Keyhive.replace]
  | (x, v) :: m, j => by
    unfold Keyhive.replace
    simp only
    by_cases hx : x = id
    · subst hx
      by_cases hj : x = j
      · subst hj; simp [AMap.get_cons]
      · simp [hj, AMap.get_cons, Ne.symm hj]
    · rw [if_neg hx, AMap.get_cons, get_replace id d m j, AMap.get_cons, AMap.get_cons, if_neg hx]
      by_cases hj : x = j
      · subst hj
        simp [hx]
      · simp [hj]

theorem map_replace {α : Type} (f : Id × Doc → α) (id : Id) (d : Doc) : ∀ (m : AMap Id Doc),
    (∀ d0, AMap.get m id = some d0 → f (id, d) = f (id, d0)) → (Keyhive.replace id d m).map f = m.map f
  | [], _ => rfl
  | (x, v) :: m, h => by
    unfold Keyhive.replace
    simp only
    by_cases hx : x = id
    · subst hx
      have := h v (by simp [AMap.get_cons])
      simp [this]
    · rw [if_neg hx, List.map_cons, List.map_cons, map_replace f id d m]
      intro d0 h0
      exact h d0 (by rw [AMap.get_cons, if_neg hx]; exact h0)

/-! ## Pending events are not touched by receiving -/

theorem promote_fst (k : Keyhive) (d : Dlg) : (k.promote E d).1 = k.storeDlg E d := by
  unfold Keyhive.promote
  simp only
  split <;> rfl

theorem removeIndividual_pending (k : Keyhive) (i : Id) : (k.removeIndividual i).pending = k.pending := by
  unfold Keyhive.removeIndividual
  split <;> rfl

theorem applyDlg_pending (k : Keyhive) (d : Dlg) : (k.applyDlg E d).1.pending = k.pending := by
  unfold Keyhive.applyDlg
  split
  · split <;> rfl
  · split
    · split <;> rfl
    · split
      · have := promote_fst (E := E) (k.removeIndividual d.subject) d
        split <;> (rename_i heq; rw [heq] at this; simp only at this; rw [this]; exact removeIndividual_pending k _)
      · unfold Keyhive.adopt
        simp only
        split <;> rfl

theorem applyRev_pending (k : Keyhive) (r : Rev) : (k.applyRev E r).1.pending = k.pending := by
  unfold Keyhive.applyRev
  split
  · split <;> rfl
  · split
    · split <;> rfl
    · split
      · have := promote_fst (E := E) (k.removeIndividual r.subject) r.revoke
        split
        · rename_i heq; rw [heq] at this; simp only at this; rw [this]; exact removeIndividual_pending k _
        · rename_i heq
          rw [heq] at this
          simp only at this
          split
          · rw [this]; exact removeIndividual_pending k _
          · rw [this]; exact removeIndividual_pending k _
      · rfl

theorem receive_pending (k : Keyhive) (e : Event) : (k.receive E e).1.pending = k.pending := by
  cases e with
  | prekey op => rfl
  | cgka doc op =>
    show (k.receiveCgkaOp E doc op).1.pending = _
    unfold Keyhive.receiveCgkaOp Keyhive.mergePublicInvite
    repeat' split
    all_goals rfl
  | dlg s =>
    show (k.receiveDelegation E s).1.pending = _
    unfold Keyhive.receiveDelegation
    repeat' split
    all_goals first
      | rfl
      | exact applyDlg_pending k _
  | rev s =>
    show (k.receiveRevocation E s).1.pending = _
    unfold Keyhive.receiveRevocation
    repeat' split
    all_goals first
      | rfl
      | exact applyRev_pending k _

/-! ## One pass -/

theorem Fed.trans {k k1 k2 : Keyhive} (h1 : Fed E k k1) (h2 : Fed E k1 k2) : Fed E k k2 := by
  induction h2 with
  | refl => exact h1
  | step e _ ih => exact .step e ih

theorem Fed.pending {k k' : Keyhive} (h : Fed E k k') : k'.pending = k.pending := by
  induction h with
  | refl => rfl
  | step e _ ih => rw [receive_pending, ih]

theorem Fed.storeOk {k k' : Keyhive} (h : Fed E k k') (hs : StoreOk E k) : StoreOk E k' := by
  induction h with
  | refl => exact hs
  | step e _ ih => exact storeOk_receive ih e

theorem Handled.widen {k0 k k' k1 : Keyhive} {e : Event} {out : Except Err Unit} (h : Handled E k k' e out) (h0 : Fed E k0 k)
    (h1 : Fed E k' k1) : Handled E k0 k1 e out := by
  obtain ⟨x, a, b, c⟩ := h
  exact ⟨x, h0.trans a, b, c.trans h1⟩

/-- The outcome of a pass that was not cut short. -/
theorem pass_spec : ∀ {es : List Event} {k k' : Keyhive} {next out : List Event}, Keyhive.pass E k es next = (k', .ok out) →
    Fed E k k' ∧ ∃ failed, out = next ++ failed ∧ failed.Sublist es ∧
      (∀ e ∈ es, Handled E k k' e (.ok ()) ∨ (∃ err, Handled E k k' e (.error (.prekey err))) ∨ e ∈ failed) ∧
      ∀ e ∈ failed, ∃ err : Err, err.fatal = false ∧ err.isPrekey = false ∧ Handled E k k' e (.error err) := by
  intro es
  induction es with
  | nil =>
    intro k k' next out h
    cases h
    exact ⟨.refl, [], by simp, by simp, by simp, by simp⟩
  | cons e es ih =>
    intro k k' next out h
    unfold Keyhive.pass at h
    split at h
    · rename_i k1 hk
      obtain ⟨h1, failed, h2, h3, h4, h5⟩ := ih h
      have hk1 : (k.receive E e).1 = k1 := by rw [hk]
      have hf : Fed E k k1 := hk1 ▸ Fed.step e .refl
      refine ⟨hf.trans h1, failed, h2, h3.cons _, fun e' he' => ?_, fun e' he' => ?_⟩
      · rcases List.mem_cons.1 he' with rfl | he'
        · exact .inl ⟨k, .refl, by rw [hk], hk1 ▸ h1⟩
        · rcases h4 e' he' with h6 | ⟨err, h6⟩ | h6
          · exact .inl (h6.widen hf .refl)
          · exact .inr (.inl ⟨err, h6.widen hf .refl⟩)
          · exact .inr (.inr h6)
      · obtain ⟨err, a, b, c⟩ := h5 e' he'
        exact ⟨err, a, b, c.widen hf .refl⟩
    · rename_i k1 err hk
      have hk1 : (k.receive E e).1 = k1 := by rw [hk]
      have hf : Fed E k k1 := hk1 ▸ Fed.step e .refl
      split at h
      · cases h
      · rename_i hfat
        split at h
        · rename_i hpre
          obtain ⟨h1, failed, h2, h3, h4, h5⟩ := ih h
          refine ⟨hf.trans h1, failed, h2, h3.cons _, fun e' he' => ?_, fun e' he' => ?_⟩
          · rcases List.mem_cons.1 he' with rfl | he'
            · cases err with
              | prekey x => exact .inr (.inl ⟨x, k, .refl, by rw [hk], hk1 ▸ h1⟩)
              | _ => simp [Err.isPrekey] at hpre
            · rcases h4 e' he' with h6 | ⟨err, h6⟩ | h6
              · exact .inl (h6.widen hf .refl)
              · exact .inr (.inl ⟨err, h6.widen hf .refl⟩)
              · exact .inr (.inr h6)
          · obtain ⟨err, a, b, c⟩ := h5 e' he'
            exact ⟨err, a, b, c.widen hf .refl⟩
        · rename_i hpre
          obtain ⟨h1, failed, h2, h3, h4, h5⟩ := ih h
          refine ⟨hf.trans h1, e :: failed, by simp [h2], h3.cons_cons _, fun e' he' => ?_, fun e' he' => ?_⟩
          · rcases List.mem_cons.1 he' with rfl | he'
            · exact .inr (.inr (by simp))
            · rcases h4 e' he' with h6 | ⟨err, h6⟩ | h6
              · exact .inl (h6.widen hf .refl)
              · exact .inr (.inl ⟨err, h6.widen hf .refl⟩)
              · exact .inr (.inr (by simp [h6]))
          · rcases List.mem_cons.1 he' with rfl | he'
            · exact ⟨err, by simpa using hfat, by simpa using hpre, k, .refl, by rw [hk], hk1 ▸ h1⟩
            · obtain ⟨err, a, b, c⟩ := h5 e' he'
              exact ⟨err, a, b, c.widen hf .refl⟩

/-! ## All rounds -/

theorem pass_length {es : List Event} {k k' : Keyhive} {out : List Event} (h : Keyhive.pass E k es [] = (k', .ok out)) :
    out.length ≤ es.length := by
  obtain ⟨_, failed, h2, h3, _⟩ := pass_spec h
  simp only [List.nil_append] at h2
  rw [h2]
  exact h3.length_le

theorem rounds_ends {replayed : List Nat} : ∀ {n : Nat} {k : Keyhive} {epoch : List Event}, epoch.length < n →
    (Keyhive.rounds E replayed n k epoch).2 ≠ none := by
  intro n
  induction n with
  | zero => intro k epoch h; omega
  | succ n ih =>
    intro k epoch h
    unfold Keyhive.rounds
    split
    · simp
    · simp
    · rename_i heq
      have := pass_length heq
      split
      · simp
      · rename_i hne
        exact ih (by omega)

theorem rounds_spec {replayed : List Nat} : ∀ {n : Nat} {k k' : Keyhive} {epoch left : List Event},
    Keyhive.rounds E replayed n k epoch = (k', some (.ok left)) →
    ∃ k1, Fed E k k1 ∧ left.Sublist epoch ∧
      k' = { k1 with pending := if left = [] then k.pending.filter (fun e => !decide (E.hashEvent e ∈ replayed)) else left } ∧
      (∀ e ∈ epoch, Handled E k k1 e (.ok ()) ∨ (∃ err, Handled E k k1 e (.error (.prekey err))) ∨ e ∈ left) ∧
      (left ≠ [] → ∃ k0, Fed E k k0 ∧ Keyhive.pass E k0 left [] = (k1, .ok left)) := by
  intro n
  induction n with
  | zero => intro k k' epoch left h; cases h
  | succ n ih =>
    intro k k' epoch left h
    unfold Keyhive.rounds at h
    split at h
    · cases h
    · rename_i k1 heq
      obtain ⟨h1, failed, h2, h3, h4, h5⟩ := pass_spec heq
      simp only [List.nil_append] at h2
      subst h2
      cases h
      refine ⟨k1, h1, by simp, by simp [h1.pending], fun e he => ?_, by simp⟩
      rcases h4 e he with h6 | h6 | h6
      · exact .inl h6
      · exact .inr (.inl h6)
      · cases h6
    · rename_i k1 e es heq
      obtain ⟨h1, failed, h2, h3, h4, h5⟩ := pass_spec heq
      simp only [List.nil_append] at h2
      split at h
      · rename_i hlen
        cases h
        have : failed = epoch := h3.eq_of_length (by rw [← h2]; exact hlen)
        refine ⟨k1, h1, by rw [h2]; exact h3, by simp, fun e' he => ?_, fun _ => ⟨k, .refl, ?_⟩⟩
        · rcases h4 e' he with h6 | h6 | h6
          · exact .inl h6
          · exact .inr (.inl h6)
          · exact .inr (.inr (by rw [h2]; exact h6))
        · rw [h2, this]
          rw [h2, this] at heq
          exact heq
      · obtain ⟨k2, g1, g2, g3, g4, g5⟩ := ih h
        rw [h2] at g2 g4
        refine ⟨k2, h1.trans g1, g2.trans h3, by rw [g3, h1.pending], fun e' he => ?_, fun hne => ?_⟩
        · rcases h4 e' he with h6 | ⟨err, h6⟩ | h6
          · exact .inl (h6.widen .refl g1)
          · exact .inr (.inl ⟨err, h6.widen .refl g1⟩)
          · rcases g4 e' h6 with h7 | ⟨err, h7⟩ | h7
            · exact .inl (h7.widen h1 .refl)
            · exact .inr (.inl ⟨err, h7.widen h1 .refl⟩)
            · exact .inr (.inr h7)
        · obtain ⟨k0, a, b⟩ := g5 hne
          exact ⟨k0, h1.trans a, b⟩

/-! ## Duplicates -/

theorem mem_values {α β : Type} [DecidableEq α] {m : AMap α β} {v : β} (h : v ∈ AMap.values m) : ∃ a, (a, v) ∈ m := by
  obtain ⟨p, hp, rfl⟩ := List.mem_map.1 h
  exact ⟨p.1, hp⟩

theorem dedup_mem (hE : Function.Injective E.hashEvent) (events : List Event) (e : Event) :
    e ∈ Keyhive.dedup E events ↔ e ∈ events := by
  have key : ∀ (l : List Event) (m : AMap Nat Event), (∀ h x, AMap.get m h = some x → E.hashEvent x = h) → AMap.WF m →
      AMap.WF (l.foldl (fun (m : AMap Nat Event) e => AMap.orInsert m (E.hashEvent e) e) m) ∧
      ∀ h x, AMap.get (l.foldl (fun (m : AMap Nat Event) e => AMap.orInsert m (E.hashEvent e) e) m) h = some x ↔
        AMap.get m h = some x ∨ (x ∈ l ∧ E.hashEvent x = h) := by
    intro l
    induction l with
    | nil => intro m _ hw; exact ⟨hw, by simp⟩
    | cons a l ih =>
      intro m hm hw
      have hm' : ∀ h x, AMap.get (AMap.orInsert m (E.hashEvent a) a) h = some x → E.hashEvent x = h := by
        intro h x hx
        rw [AMap.get_orInsert] at hx
        split at hx
        · rename_i hh
          cases hx
          exact hh.1.symm
        · exact hm h x hx
      obtain ⟨g1, g2⟩ := ih (AMap.orInsert m (E.hashEvent a) a) hm' (AMap.wf_orInsert hw _ _)
      refine ⟨g1, fun h x => ?_⟩
      rw [List.foldl_cons, g2, AMap.get_orInsert]
      constructor
      · rintro (h1 | ⟨h1, h2⟩)
        · split at h1
          · rename_i hh
            cases h1
            exact .inr ⟨by simp, hh.1.symm⟩
          · exact .inl h1
        · exact .inr ⟨by simp [h1], h2⟩
      · rintro (h1 | ⟨h1, h2⟩)
        · refine .inl ?_
          rw [if_neg]
          · exact h1
          · rintro ⟨rfl, h3⟩
            rw [h3] at h1
            cases h1
        · rcases List.mem_cons.1 h1 with rfl | h1
          · refine .inl ?_
            subst h2
            cases hg : AMap.get m (E.hashEvent x) with
            | none => simp
            | some y => simp [hE (hm _ _ hg)]
          · exact .inr ⟨h1, h2⟩
  obtain ⟨g1, g2⟩ := key events [] (by simp) AMap.wf_nil
  unfold Keyhive.dedup
  constructor
  · intro h
    obtain ⟨a, ha⟩ := mem_values h
    rcases (g2 a e).1 ((AMap.wf_iff_get g1 a e).1 ha) with h1 | h1
    · simp at h1
    · exact h1.1
  · intro h
    have := (g2 (E.hashEvent e) e).2 (.inr ⟨h, rfl⟩)
    exact List.mem_map.2 ⟨_, AMap.mem_of_get this, rfl⟩

end Verif.Keyhive
