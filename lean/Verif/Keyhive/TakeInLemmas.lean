import Verif.Keyhive.ArchiveLemmas
import Mathlib.Tactic.ByContra

/-! # What a device has after taking in an archive -/

namespace Verif.Keyhive

open Verif.Group Verif.Cgka Verif.BeeKem

variable {E : Env}

/-- The second device has every delegation and revocation the first has. -/
structure Grown (k k' : Keyhive) : Prop where
  dlgs : ∀ h, AMap.get k.dlgs h ≠ none → AMap.get k'.dlgs h ≠ none
  revs : ∀ h, AMap.get k.revs h ≠ none → AMap.get k'.revs h ≠ none

theorem Grown.rfl' (k : Keyhive) : Grown k k := ⟨fun _ h => h, fun _ h => h⟩

theorem Grown.same {k k1 k2 : Keyhive} (h : Grown k k1) (hd : k2.dlgs = k1.dlgs) (hr : k2.revs = k1.revs) : Grown k k2 :=
  ⟨by rw [hd]; exact h.dlgs, by rw [hr]; exact h.revs⟩

theorem Grown.trans {k k1 k2 : Keyhive} (h : Grown k k1) (h' : Grown k1 k2) : Grown k k2 :=
  ⟨fun x hx => h'.dlgs x (h.dlgs x hx), fun x hx => h'.revs x (h.revs x hx)⟩

theorem grown_storeDlg (k : Keyhive) (d : Dlg) : Grown k (k.storeDlg E d) := by
  refine ⟨fun h hh => ?_, fun _ h => h⟩
  simp only [Keyhive.storeDlg, CaMap.insert, AMap.get_insert]
  split
  · simp
  · exact hh

theorem grown_storeRev (k : Keyhive) (r : Rev) : Grown k (k.storeRev E r) := by
  refine ⟨fun _ h => h, fun h hh => ?_⟩
  simp only [Keyhive.storeRev, CaMap.insert, AMap.get_insert]
  split
  · simp
  · exact hh

theorem storeDlg_has (k : Keyhive) (d : Dlg) : AMap.get (k.storeDlg E d).dlgs (E.dlgDigest d) ≠ none := by
  simp [Keyhive.storeDlg, CaMap.insert, AMap.get_insert]

theorem storeRev_has (k : Keyhive) (r : Rev) : AMap.get (k.storeRev E r).revs (E.revDigest r) ≠ none := by
  simp [Keyhive.storeRev, CaMap.insert, AMap.get_insert]

theorem grown_removeIndividual (k : Keyhive) (i : Id) : Grown k (k.removeIndividual i) := by
  unfold Keyhive.removeIndividual
  split <;> exact (Grown.rfl' k).same rfl rfl

theorem grown_adopt (k : Keyhive) (d : Dlg) : Grown k (k.adopt E d) ∧ AMap.get (k.adopt E d).dlgs (E.dlgDigest d) ≠ none := by
  unfold Keyhive.adopt
  dsimp only
  split
  · exact ⟨(grown_storeDlg k d).same rfl rfl, storeDlg_has k d⟩
  · exact ⟨(grown_storeDlg k d).same rfl rfl, storeDlg_has k d⟩

theorem grown_applyDlg (k : Keyhive) (d : Dlg) : Grown k (k.applyDlg E d).1 ∧
    ((k.applyDlg E d).2 = .ok () → AMap.get (k.applyDlg E d).1.dlgs (E.dlgDigest d) ≠ none) := by
  unfold Keyhive.applyDlg
  split
  · split
    · exact ⟨.rfl' k, by intro h; cases h⟩
    · exact ⟨(grown_storeDlg k d).same rfl rfl, fun _ => storeDlg_has k d⟩
  · split
    · split
      · exact ⟨.rfl' k, by intro h; cases h⟩
      · exact ⟨(grown_storeDlg k d).same rfl rfl, fun _ => storeDlg_has k d⟩
    · split
      · have h1 := promote_fst (E := E) (k.removeIndividual d.subject) d
        split
        · rename_i heq
          rw [heq] at h1
          simp only at h1 ⊢
          rw [h1]
          exact ⟨(grown_removeIndividual k _).trans (grown_storeDlg _ _), by intro h; cases h⟩
        · rename_i heq
          rw [heq] at h1
          simp only at h1 ⊢
          rw [h1]
          exact ⟨(grown_removeIndividual k _).trans (grown_storeDlg _ _), fun _ => storeDlg_has _ d⟩
      · exact ⟨(grown_adopt k d).1, fun _ => (grown_adopt k d).2⟩

theorem grown_applyRev (k : Keyhive) (r : Rev) : Grown k (k.applyRev E r).1 ∧
    ((k.applyRev E r).2 = .ok () → AMap.get (k.applyRev E r).1.revs (E.revDigest r) ≠ none) := by
  unfold Keyhive.applyRev
  split
  · split
    · exact ⟨.rfl' k, by intro h; cases h⟩
    · exact ⟨(grown_storeRev k r).same rfl rfl, fun _ => storeRev_has k r⟩
  · split
    · split
      · exact ⟨.rfl' k, by intro h; cases h⟩
      · exact ⟨(grown_storeRev k r).same rfl rfl, fun _ => storeRev_has k r⟩
    · split
      · have h1 := promote_fst (E := E) (k.removeIndividual r.subject) r.revoke
        have h2 : Grown k ((k.removeIndividual r.subject).storeDlg E r.revoke) := (grown_removeIndividual k _).trans (grown_storeDlg _ _)
        split
        · rename_i heq
          rw [heq] at h1
          simp only at h1 ⊢
          rw [h1]
          exact ⟨h2, by intro h; cases h⟩
        · rename_i heq
          rw [heq] at h1
          simp only at h1 ⊢
          rw [h1]
          split
          · exact ⟨h2, by intro h; cases h⟩
          · exact ⟨h2.trans (grown_storeRev _ _), fun _ => storeRev_has _ r⟩
      · exact ⟨.rfl' k, by intro h; cases h⟩

theorem grown_receiveDelegation {k : Keyhive} (hs : StoreOk E k) (s : SDlg) : Grown k (k.receiveDelegation E s).1 ∧
    ((k.receiveDelegation E s).2 = .ok () → AMap.get (k.receiveDelegation E s).1.dlgs (E.hashDlg s) ≠ none) := by
  unfold Keyhive.receiveDelegation
  split
  · rename_i hc
    exact ⟨.rfl' k, fun _ => by rw [contains_eq_isSome] at hc; exact Option.isSome_iff_ne_none.1 hc⟩
  · split
    · exact ⟨.rfl' k, by intro h; cases h⟩
    · split
      · exact ⟨.rfl' k, by intro h; cases h⟩
      · rename_i d hd
        have := grown_applyDlg (E := E) k d
        rw [dlgDigest_eq, toDlg_static hs hd] at this
        exact this

theorem grown_receiveRevocation {k : Keyhive} (hs : StoreOk E k) (s : SRev) : Grown k (k.receiveRevocation E s).1 ∧
    ((k.receiveRevocation E s).2 = .ok () → AMap.get (k.receiveRevocation E s).1.revs (E.hashRev s) ≠ none) := by
  unfold Keyhive.receiveRevocation
  split
  · rename_i hc
    exact ⟨.rfl' k, fun _ => by rw [contains_eq_isSome] at hc; exact Option.isSome_iff_ne_none.1 hc⟩
  · split
    · exact ⟨.rfl' k, by intro h; cases h⟩
    · split
      · exact ⟨.rfl' k, by intro h; cases h⟩
      · rename_i r hr
        have := grown_applyRev (E := E) k r
        rw [revDigest_eq, toRev_static hs hr] at this
        exact this

theorem grown_receive {k : Keyhive} (hs : StoreOk E k) (e : Event) : Grown k (k.receive E e).1 := by
  cases e with
  | prekey op => exact (Grown.rfl' k).same rfl rfl
  | cgka id op =>
    have h := receiveCgkaOp_stores (E := E) k id op
    exact (Grown.rfl' k).same h.1 h.2
  | dlg s => exact (grown_receiveDelegation hs s).1
  | rev s => exact (grown_receiveRevocation hs s).1

theorem Fed.grown {k k' : Keyhive} (h : Fed E k k') (hs : StoreOk E k) : Grown k k' := by
  induction h with
  | refl => exact .rfl' k
  | step e h ih => exact ih.trans (grown_receive (h.storeOk hs) e)

theorem Grown.hasOp {k k' : Keyhive} (h : Grown k k') {o : SMem} (ho : k.HasOp E o) : k'.HasOp E o := by
  cases o with
  | dlg s => exact h.dlgs _ ho
  | rev s => exact h.revs _ ho

theorem handled_has {k k' : Keyhive} (hs : StoreOk E k) {o : SMem} (h : Handled E k k' o.event (.ok ())) : k'.HasOp E o := by
  obtain ⟨k0, h1, h2, h3⟩ := h
  have hs0 := h1.storeOk hs
  have hs1 := storeOk_receive hs0 o.event
  refine (h3.grown hs1).hasOp ?_
  cases o with
  | dlg s => exact (grown_receiveDelegation hs0 s).2 h2
  | rev s => exact (grown_receiveRevocation hs0 s).2 h2

/-! ## Membership operations never fail with an error about prekeys -/

theorem findProof_not_prekey (k : Keyhive) (x : Option Nat) (e : Prekey.Err) : k.findProof x ≠ .error (.prekey e) := by
  intro h
  unfold Keyhive.findProof at h
  split at h
  · cases h
  · split at h <;> cases h

theorem findRevs_not_prekey (k : Keyhive) (e : Prekey.Err) : ∀ l, k.findRevs l ≠ .error (.prekey e)
  | [] => by intro h; cases h
  | x :: l => by
    intro h
    unfold Keyhive.findRevs at h
    split at h
    · cases h
    · split at h
      · rename_i heq
        cases h
        exact findRevs_not_prekey k e l heq
      · cases h

theorem dlg_not_prekey (k : Keyhive) (s : SDlg) (e : Prekey.Err) : (k.receiveDelegation E s).2 ≠ .error (.prekey e) := by
  unfold Keyhive.receiveDelegation Keyhive.applyDlg Keyhive.promote
  intro h
  split at h
  · cases h
  · split at h
    · cases h
    · split at h
      · rename_i hd
        cases h
        unfold Keyhive.toDlg at hd
        split at hd
        · rename_i hp
          cases hd
          exact findProof_not_prekey _ _ _ hp
        · split at hd
          · cases hd
          · split at hd
            · rename_i hp
              cases hd
              exact findRevs_not_prekey _ _ _ hp
            · cases hd
      · split at h
        · split at h <;> cases h
        · split at h
          · split at h <;> cases h
          · split at h
            · dsimp only at h
              split at h
              · rename_i heq
                split at heq
                · cases heq
                · cases heq
                  split at h <;> cases h
              · cases h
            · cases h

theorem rev_not_prekey (k : Keyhive) (s : SRev) (e : Prekey.Err) : (k.receiveRevocation E s).2 ≠ .error (.prekey e) := by
  unfold Keyhive.receiveRevocation Keyhive.applyRev Keyhive.promote
  intro h
  split at h
  · cases h
  · split at h
    · cases h
    · split at h
      · rename_i hd
        cases h
        unfold Keyhive.toRev at hd
        split at hd
        · cases hd
        · split at hd
          · rename_i hp
            cases hd
            exact findProof_not_prekey _ _ _ hp
          · cases hd
      · split at h
        · split at h <;> cases h
        · split at h
          · split at h <;> cases h
          · split at h
            · dsimp only at h
              split at h
              · rename_i heq
                split at heq
                · cases heq
                · cases heq
                  split at h <;> cases h
              · split at h <;> cases h
            · cases h

theorem handled_not_prekey {k k' : Keyhive} (o : SMem) (e : Prekey.Err) : ¬ Handled E k k' o.event (.error (.prekey e)) := by
  rintro ⟨k0, _, h, _⟩
  cases o with
  | dlg s => exact dlg_not_prekey _ s e h
  | rev s => exact rev_not_prekey _ s e h

/-! ## Individuals and prekey pairs -/

theorem merge_has {D V : Type} [DecidableEq D] (d : D) : ∀ (o m : CaMap D V),
    AMap.get (CaMap.merge m o) d ≠ none ↔ AMap.get m d ≠ none ∨ AMap.get o d ≠ none := by
  intro o
  induction o with
  | nil => intro m; simp [CaMap.merge]
  | cons p o ih =>
    intro m
    have := ih (AMap.orInsert m p.1 p.2)
    unfold CaMap.merge at this ⊢
    rw [List.foldl_cons, this, AMap.get_orInsert, AMap.get_cons]
    by_cases hk : p.1 = d
    · subst hk
      cases AMap.get m p.1 <;> simp
    · simp [hk, Ne.symm hk]

theorem Wider.rfl' (m : AMap Id Prekey.Indie) : Wider m m := fun _ x hx => ⟨x, hx, fun _ h => h⟩

theorem Wider.trans {m m1 m2 : AMap Id Prekey.Indie} (h : Wider m m1) (h' : Wider m1 m2) : Wider m m2 := by
  intro i x hx
  obtain ⟨y, hy, h1⟩ := h i x hx
  obtain ⟨z, hz, h2⟩ := h' i y hy
  exact ⟨z, hz, fun a ha => h2 a (h1 a ha)⟩

theorem wider_merge {m : AMap Id Prekey.Indie} {i : Id} {x : Prekey.Indie} (h : AMap.get m i = some x) (o : Prekey.Indie) :
    Wider m (AMap.insert m i (x.merge o)) := by
  intro j y hy
  by_cases hj : j = i
  · subst hj
    rw [h] at hy
    cases hy
    exact ⟨_, AMap.get_insert_self .., fun a ha => (merge_has a _ _).2 (.inl ha)⟩
  · exact ⟨y, by rw [AMap.get_insert, if_neg hj]; exact hy, fun _ ha => ha⟩

theorem wider_new {m : AMap Id Prekey.Indie} {i : Id} (h : AMap.get m i = none) (o : Prekey.Indie) : Wider m (AMap.insert m i o) := by
  intro j y hy
  by_cases hj : j = i
  · subst hj
    rw [h] at hy
    cases hy
  · exact ⟨y, by rw [AMap.get_insert, if_neg hj]; exact hy, fun _ ha => ha⟩

theorem mergeIndie_wider {k : Keyhive} (hu : k.unlisted = false) (p : Id × Prekey.Indie) :
    Wider k.reg.indies (k.mergeIndie p).reg.indies ∧
      ∃ y, AMap.get (k.mergeIndie p).reg.indies p.1 = some y ∧ ∀ h, AMap.get p.2.state h ≠ none → AMap.get y.state h ≠ none := by
  unfold Keyhive.mergeIndie
  rw [if_neg (by rw [hu]; simp)]
  have hi : k.individual p.1 = AMap.get k.reg.indies p.1 := by simp [Keyhive.individual, hu]
  rw [hi]
  split
  · rename_i x hx
    exact ⟨wider_merge hx _, _, AMap.get_insert_self .., fun a ha => (merge_has a _ _).2 (.inr ha)⟩
  · rename_i hx
    exact ⟨wider_new hx _, _, AMap.get_insert_self .., fun a ha => ha⟩

theorem mergeIndies_wider : ∀ {l : List (Id × Prekey.Indie)} {k : Keyhive}, k.unlisted = false →
    Wider k.reg.indies (l.foldl Keyhive.mergeIndie k).reg.indies ∧
      ∀ p ∈ l, ∃ y, AMap.get (l.foldl Keyhive.mergeIndie k).reg.indies p.1 = some y ∧
        ∀ h, AMap.get p.2.state h ≠ none → AMap.get y.state h ≠ none := by
  intro l
  induction l with
  | nil => intro k _; exact ⟨.rfl' _, by simp⟩
  | cons p l ih =>
    intro k hu
    obtain ⟨h1, y, h2, h3⟩ := mergeIndie_wider hu p
    obtain ⟨h4, h5⟩ := ih (k := k.mergeIndie p) ((mergeIndie_same k p).unlisted.trans hu)
    refine ⟨h1.trans h4, fun q hq => ?_⟩
    rcases List.mem_cons.1 hq with rfl | hq
    · obtain ⟨z, hz, h6⟩ := h4 _ _ h2
      exact ⟨z, hz, fun a ha => h6 a (h3 a ha)⟩
    · exact h5 q hq

theorem mergeActive_wider (k : Keyhive) (a : Archive) : Wider k.reg.indies (k.mergeActive a).reg.indies := by
  unfold Keyhive.mergeActive
  dsimp only
  split
  · rename_i hx _
    exact wider_merge hx _
  · exact .rfl' _

theorem merged_wider {k : Keyhive} (hu : k.unlisted = false) (a : Archive) :
    Wider k.reg.indies (k.merged a).reg.indies ∧ Wider a.individuals (k.merged a).reg.indies := by
  obtain ⟨h1, h2⟩ := mergeIndies_wider (l := a.individuals) (k := k.mergeActive a) ((mergeActive_same k a).unlisted.trans hu)
  exact ⟨(mergeActive_wider k a).trans h1, fun i x hx => h2 (i, x) (AMap.mem_of_get hx)⟩

theorem mergeIndies_pairs (l : List (Id × Prekey.Indie)) : ∀ k : Keyhive, (l.foldl Keyhive.mergeIndie k).pairs = k.pairs := by
  induction l with
  | nil => intro k; rfl
  | cons p l ih =>
    intro k
    rw [List.foldl_cons, ih]
    unfold Keyhive.mergeIndie
    split
    · rfl
    · split <;> rfl

theorem get_foldl_insert {α β : Type} [DecidableEq α] (a : α) : ∀ {l : AMap α β} (m : AMap α β), AMap.WF l →
    AMap.get (l.foldl (fun m p => AMap.insert m p.1 p.2) m) a = (AMap.get l a).or (AMap.get m a) := by
  intro l
  induction l with
  | nil => intro m _; simp
  | cons p l ih =>
    intro m hw
    unfold AMap.WF AMap.keys at hw
    rw [List.map_cons, List.nodup_cons] at hw
    rw [List.foldl_cons, ih _ hw.2, AMap.get_insert, AMap.get_cons]
    by_cases hk : p.1 = a
    · subst hk
      have : AMap.get l p.1 = none := by
        by_contra hne
        exact hw.1 ((AMap.mem_keys_iff _ _).2 hne)
      simp [this]
    · simp [hk, Ne.symm hk]

theorem merged_pairs (k : Keyhive) {a : Archive} (hw : AMap.WF a.pairs) (pk : Pk) :
    AMap.get (k.merged a).pairs pk = (AMap.get a.pairs pk).or (AMap.get k.pairs pk) := by
  unfold Keyhive.merged
  rw [mergeIndies_pairs]
  exact get_foldl_insert pk _ hw

/-! ## The stores of a loaded device -/

theorem loadOps_wf {os : List SMem} : ∀ {k k' : Keyhive}, AMap.WF k.revs → k.loadOps E os = .ok k' → AMap.WF k'.revs := by
  induction os with
  | nil => intro k k' hw h; cases h; exact hw
  | cons o os ih =>
    intro k k' hw h
    unfold Keyhive.loadOps at h
    split at h
    · cases h
    · rename_i k1 heq
      refine ih ?_ h
      cases o with
      | dlg s =>
        unfold Keyhive.loadOp at heq
        simp only at heq
        split at heq
        · cases heq
        · cases heq; exact hw
      | rev s =>
        unfold Keyhive.loadOp at heq
        simp only at heq
        split at heq
        · cases heq
        · cases heq; exact AMap.wf_insert hw _ _

theorem load_wf {a : Archive} {k : Keyhive} (h : tryFromArchive E a = .ok k) : AMap.WF k.revs := by
  unfold tryFromArchive at h
  split at h
  · cases h
  · rename_i k1 heq
    split at h
    · cases h
    · split at h
      · cases h
      · cases h
        have := loadOps_wf AMap.wf_nil heq
        exact this

end Verif.Keyhive
