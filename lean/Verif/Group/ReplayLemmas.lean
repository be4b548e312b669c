import Verif.Group.HistoryLemmas

/-! # Helper lemmas: the replay of a membership history -/

namespace Verif.Group

theorem Access.le_of_not_lt {a b : Access} (h : ¬ a < b) : b ≤ a := Nat.le_of_not_lt h

theorem same_of_not_same {a b : Dlg} (h : (!a.same b) = true) : a ≠ b := by
  rintro rfl
  simp [Dlg.same] at h

namespace View

/-! ## The cascade -/

/-- What holds of the local state of the cascade after the first signature has been taken out of play. -/
structure CInv (rdeps : AMap Nat (List Nat)) (inPlay : AMap Nat Dlg) (revoked : List Nat) (s0 : Nat)
    (D : List (Id × Nat)) (c : Casc) : Prop where
  sub : ∀ {s d}, AMap.get c.inPlay s = some d → AMap.get inPlay s = some d
  keep : ∀ {s d}, AMap.get inPlay s = some d → s ∉ c.revoked → AMap.get c.inPlay s = some d
  mono : ∀ {s}, s ∈ revoked → s ∈ c.revoked
  excl : ∀ {s d}, AMap.get c.inPlay s = some d → s ∉ c.revoked
  why : ∀ {s}, s ∈ c.revoked → s ∈ revoked ∨ s = s0 ∨ ∃ t ∈ c.revoked, s ∈ (AMap.get rdeps t).getD []
  first : s0 ∈ c.revoked
  drop : c.drop = D
  next : ∀ {s}, s ∈ c.next → s ∈ c.revoked

variable {rdeps : AMap Nat (List Nat)} {inPlay : AMap Nat Dlg} {revoked : List Nat} {s0 : Nat} {D : List (Id × Nat)}

theorem cascDep_inv {c : Casc} (h : CInv rdeps inPlay revoked s0 D c) {t x : Nat} (ht : t ∈ c.revoked)
    (hx : x ∈ (AMap.get rdeps t).getD []) :
    CInv rdeps inPlay revoked s0 D (cascDep c x) ∧ t ∈ (cascDep c x).revoked := by
  have hin : ∀ {s}, s ∈ c.revoked → s ∈ sinsert c.revoked x := fun hs => (mem_sinsert _ _ _).2 (Or.inr hs)
  have hwhy : ∀ {s}, s ∈ sinsert c.revoked x →
      s ∈ revoked ∨ s = s0 ∨ ∃ t ∈ sinsert c.revoked x, s ∈ (AMap.get rdeps t).getD [] := by
    intro s hs
    rcases (mem_sinsert _ _ _).1 hs with rfl | hs
    · exact Or.inr (Or.inr ⟨t, hin ht, hx⟩)
    · rcases h.why hs with h1 | h1 | ⟨u, h1, h2⟩
      · exact Or.inl h1
      · exact Or.inr (Or.inl h1)
      · exact Or.inr (Or.inr ⟨u, hin h1, h2⟩)
  unfold cascDep
  cases hg : AMap.get c.inPlay x with
  | none =>
    refine ⟨⟨h.sub, fun hs hns => h.keep hs (fun hc => hns (hin hc)), fun hs => hin (h.mono hs), ?_, hwhy,
      hin h.first, h.drop, fun hs => hin (h.next hs)⟩, hin ht⟩
    intro s d hs hc
    have hs' : AMap.get c.inPlay s = some d := hs
    rcases (mem_sinsert _ _ _).1 hc with rfl | hc
    · rw [hg] at hs'; cases hs'
    · exact h.excl hs' hc
  | some d0 =>
    refine ⟨⟨?_, ?_, fun hs => hin (h.mono hs), ?_, hwhy, hin h.first, h.drop, ?_⟩, hin ht⟩
    · intro s d hs
      have hs' : AMap.get (AMap.erase c.inPlay x) s = some d := hs
      rw [AMap.get_erase] at hs'
      split at hs'
      · cases hs'
      · exact h.sub hs'
    · intro s d hs hns
      have h1 := h.keep hs (fun hc => hns (hin hc))
      show AMap.get (AMap.erase c.inPlay x) s = some d
      rw [AMap.get_erase, if_neg]
      · exact h1
      · rintro rfl
        exact hns ((mem_sinsert _ _ _).2 (Or.inl rfl))
    · intro s d hs hc
      have hs' : AMap.get (AMap.erase c.inPlay x) s = some d := hs
      rw [AMap.get_erase] at hs'
      split at hs'
      · cases hs'
      · rename_i hne
        rcases (mem_sinsert _ _ _).1 hc with hc | hc
        · exact hne hc
        · exact h.excl hs' hc
    · intro s hs
      rcases List.mem_cons.1 hs with rfl | hs
      · exact (mem_sinsert _ _ _).2 (Or.inl rfl)
      · exact hin (h.next hs)

theorem cascDeps_inv {t : Nat} (l : List Nat) {c : Casc} (h : CInv rdeps inPlay revoked s0 D c) (ht : t ∈ c.revoked)
    (hl : ∀ x ∈ l, x ∈ (AMap.get rdeps t).getD []) : CInv rdeps inPlay revoked s0 D (l.foldl cascDep c) := by
  induction l generalizing c with
  | nil => exact h
  | cons x l ih =>
    obtain ⟨h1, h2⟩ := cascDep_inv h ht (hl x (by simp))
    exact ih h1 h2 (fun y hy => hl y (by simp [hy]))

/-- A turn for a signature that is already revoked drops nothing: it is out of play. -/
theorem cascStep_inv {c : Casc} (h : CInv rdeps inPlay revoked s0 D c) {s : Nat} (hr : s ∈ c.revoked) :
    CInv rdeps inPlay revoked s0 D (cascStep rdeps c s) := by
  have hs : AMap.get c.inPlay s = none := by
    cases hg : AMap.get c.inPlay s with
    | none => rfl
    | some d => exact absurd hr (h.excl hg)
  have hsi : sinsert c.revoked s = c.revoked := by
    unfold sinsert
    rw [if_pos hr]
  have he : cascStep rdeps c s = ((AMap.get rdeps s).getD []).foldl cascDep c := by
    unfold cascStep
    simp only [hsi]
    rw [hs]
  rw [he]
  exact cascDeps_inv (t := s) _ h hr (fun x hx => hx)

theorem casc_inv (n : Nat) {c : Casc} (h : CInv rdeps inPlay revoked s0 D c) :
    CInv rdeps inPlay revoked s0 D (casc rdeps n c) := by
  induction n generalizing c with
  | zero => exact h
  | succ n ih =>
    unfold casc
    cases hn : c.next with
    | nil => exact h
    | cons s rest =>
      apply ih
      have h1 : CInv rdeps inPlay revoked s0 D { c with next := rest } :=
        ⟨h.sub, h.keep, h.mono, h.excl, h.why, h.first, h.drop, fun hs => h.next (by rw [hn]; exact List.mem_cons_of_mem _ hs)⟩
      exact cascStep_inv h1 (h.next (by rw [hn]; simp))

/-- What the first turn drops. -/
def firstDrop (inPlay : AMap Nat Dlg) (s0 : Nat) : List (Id × Nat) :=
  match AMap.get inPlay s0 with
  | none => []
  | some d => [(d.delegate.id, s0)]

theorem casc_spec (hA : ∀ {s d}, AMap.get inPlay s = some d → s ∉ revoked) (n : Nat) :
    CInv rdeps inPlay revoked s0 (firstDrop inPlay s0) (casc rdeps (n + 1) ⟨inPlay, revoked, [], [s0]⟩) := by
  unfold casc
  apply casc_inv
  have hin : ∀ {s}, s ∈ revoked → s ∈ sinsert revoked s0 := fun hs => (mem_sinsert _ _ _).2 (Or.inr hs)
  unfold cascStep
  refine cascDeps_inv (t := s0) _ ?_ ?_ (fun x hx => hx)
  · cases hg : AMap.get inPlay s0 with
    | none =>
      simp only
      refine ⟨fun hs => hs, fun hs _ => hs, hin, ?_, ?_, (mem_sinsert _ _ _).2 (Or.inl rfl), ?_, ?_⟩
      · intro s d hs hc
        have hs' : AMap.get inPlay s = some d := hs
        rcases (mem_sinsert _ _ _).1 hc with rfl | hc
        · rw [hg] at hs'; cases hs'
        · exact hA hs' hc
      · intro s hs
        rcases (mem_sinsert _ _ _).1 hs with h1 | h1
        · exact Or.inr (Or.inl h1)
        · exact Or.inl h1
      · simp [firstDrop, hg]
      · intro s hs; simp at hs
    | some d0 =>
      simp only
      refine ⟨?_, ?_, hin, ?_, ?_, (mem_sinsert _ _ _).2 (Or.inl rfl), ?_, ?_⟩
      · intro s d hs
        have hs' : AMap.get (AMap.erase inPlay s0) s = some d := hs
        rw [AMap.get_erase] at hs'
        split at hs'
        · cases hs'
        · exact hs'
      · intro s d hs hns
        show AMap.get (AMap.erase inPlay s0) s = some d
        rw [AMap.get_erase, if_neg]
        · exact hs
        · rintro rfl
          exact hns ((mem_sinsert _ _ _).2 (Or.inl rfl))
      · intro s d hs hc
        have hs' : AMap.get (AMap.erase inPlay s0) s = some d := hs
        rw [AMap.get_erase] at hs'
        split at hs'
        · cases hs'
        · rename_i hne
          rcases (mem_sinsert _ _ _).1 hc with hc | hc
          · exact hne hc
          · exact hA hs' hc
      · intro s hs
        rcases (mem_sinsert _ _ _).1 hs with h1 | h1
        · exact Or.inr (Or.inl h1)
        · exact Or.inl h1
      · simp [firstDrop, hg]
      · intro s hs; simp at hs
  · cases hg : AMap.get inPlay s0 <;> simp only <;> exact (mem_sinsert _ _ _).2 (Or.inl rfl)

/-- The cascade when nothing processed so far names the revoked delegation as proof. -/
theorem casc_leaf (hd : ∀ x, x ∉ (AMap.get rdeps s0).getD []) (n : Nat) :
    (casc rdeps (n + 1) ⟨inPlay, revoked, [], [s0]⟩).revoked = sinsert revoked s0 := by
  have h0 : (AMap.get rdeps s0).getD [] = [] := List.eq_nil_iff_forall_not_mem.2 hd
  have h1 : ∀ c : Casc, c.next = [] → casc rdeps n c = c := by
    intro c hc
    cases n with
    | zero => rfl
    | succ n => unfold casc; rw [hc]
  unfold casc cascStep
  simp only [h0, List.foldl_nil]
  cases hg : AMap.get inPlay s0 with
  | none => simp only; rw [h1 _ rfl]
  | some d => simp only; rw [h1 _ rfl]

/-! ## Members -/

/-- `d` is among the delegations of member `m`. -/
def Mem (v : View) (m : Id) (d : Dlg) : Prop := ∃ ds, AMap.get v.members m = some ds ∧ d ∈ ds

theorem dropMember_mem {m : AMap Id (List Dlg)} {i : Id} {s : Nat} {j : Id} {d : Dlg} :
    (∃ ds, AMap.get (dropMember m (i, s)) j = some ds ∧ d ∈ ds) ↔
      (∃ ds, AMap.get m j = some ds ∧ d ∈ ds) ∧ (j = i → d.sig ≠ s) := by
  unfold dropMember
  simp only
  cases hf : ((AMap.get m i).getD []).filter (fun d => decide (d.sig ≠ s)) with
  | nil =>
    simp only
    rw [AMap.get_erase]
    by_cases hj : j = i
    · rw [if_pos hj]
      subst hj
      constructor
      · rintro ⟨ds, h, _⟩; cases h
      · rintro ⟨⟨ds, h1, h2⟩, h3⟩
        exfalso
        have : d ∈ ((AMap.get m j).getD []).filter (fun d => decide (d.sig ≠ s)) := by
          rw [h1]; exact List.mem_filter.2 ⟨h2, by simpa using h3 rfl⟩
        rw [hf] at this; simp at this
    · rw [if_neg hj]
      exact ⟨fun h => ⟨h, fun h' => absurd h' hj⟩, fun h => h.1⟩
  | cons x l =>
    simp only
    rw [AMap.get_insert]
    by_cases hj : j = i
    · rw [if_pos hj]
      subst hj
      constructor
      · rintro ⟨ds, h, h2⟩
        cases h
        rw [← hf] at h2
        obtain ⟨h3, h4⟩ := List.mem_filter.1 h2
        refine ⟨?_, fun _ => by simpa using h4⟩
        cases hg : AMap.get m j with
        | none => rw [hg] at h3; simp at h3
        | some ds => exact ⟨ds, rfl, by rw [hg] at h3; exact h3⟩
      · rintro ⟨⟨ds, h1, h2⟩, h3⟩
        refine ⟨_, rfl, ?_⟩
        rw [← hf, h1]
        exact List.mem_filter.2 ⟨h2, by simpa using h3 rfl⟩
    · rw [if_neg hj]
      exact ⟨fun h => ⟨h, fun h' => absurd h' hj⟩, fun h => h.1⟩

theorem dropMember_nonempty {m : AMap Id (List Dlg)} (h : ∀ j ds, AMap.get m j = some ds → ds ≠ []) (p : Id × Nat) :
    ∀ j ds, AMap.get (dropMember m p) j = some ds → ds ≠ [] := by
  intro j ds hj
  unfold dropMember at hj
  split at hj
  · rw [AMap.get_erase] at hj
    split at hj
    · cases hj
    · exact h j ds hj
  · rename_i hl
    rw [AMap.get_insert] at hj
    split at hj
    · cases hj
      exact hl
    · exact h j ds hj

theorem play_mem {v : View} {d x : Dlg} {m : Id} :
    (v.play d).Mem m x ↔ v.Mem m x ∨ (m = d.delegate.id ∧ x = d) := by
  unfold play Mem
  simp only
  rw [AMap.get_insert]
  by_cases hm : m = d.delegate.id
  · rw [if_pos hm]
    subst hm
    constructor
    · rintro ⟨ds, h, h2⟩
      cases h
      rcases List.mem_append.1 h2 with h3 | h3
      · cases hg : AMap.get v.members d.delegate.id with
        | none => rw [hg] at h3; simp at h3
        | some ds => exact Or.inl ⟨ds, rfl, by rw [hg] at h3; exact h3⟩
      · exact Or.inr ⟨rfl, by simpa using h3⟩
    · rintro (⟨ds, h1, h2⟩ | ⟨_, rfl⟩)
      · exact ⟨_, rfl, by rw [h1]; simp [h2]⟩
      · exact ⟨_, rfl, by simp⟩
  · rw [if_neg hm]
    constructor
    · exact Or.inl
    · rintro (h | ⟨h, _⟩)
      · exact h
      · exact absurd h hm

theorem play_nonempty {v : View} (h : ∀ j ds, AMap.get v.members j = some ds → ds ≠ []) (d : Dlg) :
    ∀ j ds, AMap.get (v.play d).members j = some ds → ds ≠ [] := by
  intro j ds hj
  unfold play at hj
  simp only at hj
  rw [AMap.get_insert] at hj
  split at hj
  · cases hj; simp
  · exact h j ds hj

end View
end Verif.Group
