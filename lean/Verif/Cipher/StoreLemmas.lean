import Verif.Cipher.Spec
import Mathlib.Logic.Function.Basic
import Mathlib.Tactic.ByContra
import Mathlib.Tactic.Tauto

/-! # The indexes of the ciphertext store -/

namespace Verif.Cipher

/-- The store holds the ciphertexts in `l`, and its indexes are about the ones ever inserted, `ins`. -/
structure Inv (H : Ct → Nat) (s : Store) (l ins : List Ct) : Prop where
  store : ∀ d x, AMap.get s.store d = some x ↔ ∃ c ∈ l, d = H c ∧ x = (c.size, c)
  refs : ∀ r ds, AMap.get s.refsToDigests r = some ds → ∀ d, d ∈ ds ↔ ∃ c ∈ l, c.ref = r ∧ d = H c
  refsNone : ∀ r, AMap.get s.refsToDigests r = none → ∀ c ∈ l, c.ref ≠ r
  ops : ∀ c ∈ l, ∃ rs, AMap.get s.opsToRefs c.op = some rs ∧ c.ref ∈ rs
  opsSound : ∀ o rs, AMap.get s.opsToRefs o = some rs → ∀ r ∈ rs, ∃ c ∈ ins, c.op = o ∧ c.ref = r
  liveIns : ∀ c ∈ l, c ∈ ins

variable {H : Ct → Nat}

theorem inv_new : Inv H Store.new [] [] :=
  ⟨by simp [Store.new], by simp [Store.new], by simp, by simp, by simp [Store.new], by simp⟩

theorem Inv.insert (hH : Function.Injective H) {s : Store} {l ins : List Ct} (h : Inv H s l ins) (c : Ct) :
    Inv H (s.insert H c) (c :: l) (c :: ins) := by
  unfold Store.insert
  split
  · rename_i hc
    have hin : c ∈ l := by
      unfold AMap.contains at hc
      obtain ⟨x, hx⟩ := Option.isSome_iff_exists.1 hc
      obtain ⟨c', h1, h2, _⟩ := (h.store _ _).1 hx
      rw [hH h2]; exact h1
    have hmem : ∀ c', c' ∈ c :: l ↔ c' ∈ l := by
      intro c'; simp only [List.mem_cons]
      exact ⟨fun h => h.elim (fun e => e ▸ hin) id, .inr⟩
    refine ⟨fun d x => ?_, fun r ds hr d => ?_, fun r hr c' hc' => h.refsNone r hr c' ((hmem _).1 hc'),
      fun c' hc' => h.ops c' ((hmem _).1 hc'), fun o rs ho r hr => ?_,
      fun c' hc' => List.mem_cons_of_mem _ (h.liveIns c' ((hmem _).1 hc'))⟩
    · simp only [hmem, AMap.get_insert]
      split
      · rename_i hd
        subst hd
        constructor
        · intro hx; cases hx; exact ⟨c, hin, rfl, rfl⟩
        · rintro ⟨c', _, h2, h3⟩
          rw [hH h2, h3]
      · exact h.store d x
    · simp only [hmem]; exact h.refs r ds hr d
    · obtain ⟨c', h1, h2⟩ := h.opsSound o rs ho r hr
      exact ⟨c', List.mem_cons_of_mem _ h1, h2⟩
  · refine ⟨fun d x => ?_, fun r ds hr d => ?_, fun r hr c' hc' => ?_, fun c' hc' => ?_, fun o rs ho r hr => ?_, fun c' hc' => ?_⟩
    · simp only [AMap.get_insert]
      split
      · rename_i hd
        subst hd
        constructor
        · intro hx; cases hx; exact ⟨c, by simp, rfl, rfl⟩
        · rintro ⟨c', _, h2, h3⟩
          rw [hH h2, h3]
      · rename_i hd
        rw [h.store]
        constructor
        · rintro ⟨c', h1, h2⟩; exact ⟨c', by simp [h1], h2⟩
        · rintro ⟨c', h1, h2, h3⟩
          rcases List.mem_cons.1 h1 with rfl | h1
          · exact absurd h2 hd
          · exact ⟨c', h1, h2, h3⟩
    · simp only [AMap.get_insert] at hr
      split at hr
      · rename_i he
        cases hr
        rw [mem_sinsert]
        have hold : d ∈ (AMap.get s.refsToDigests c.ref).getD [] ↔ ∃ c' ∈ l, c'.ref = r ∧ d = H c' := by
          cases hg : AMap.get s.refsToDigests c.ref with
          | none =>
            simp only [Option.getD_none, List.not_mem_nil, false_iff]
            rintro ⟨c', h1, h2, _⟩
            exact h.refsNone _ hg c' h1 (h2.trans he)
          | some ds => rw [he]; exact h.refs _ _ hg d
        rw [hold]
        constructor
        · rintro (rfl | ⟨c', h1, h2⟩)
          · exact ⟨c, by simp, he.symm, rfl⟩
          · exact ⟨c', by simp [h1], h2⟩
        · rintro ⟨c', h1, h2, h3⟩
          rcases List.mem_cons.1 h1 with rfl | h1
          · exact .inl h3
          · exact .inr ⟨c', h1, h2, h3⟩
      · rename_i he
        rw [h.refs r ds hr]
        constructor
        · rintro ⟨c', h1, h2⟩; exact ⟨c', by simp [h1], h2⟩
        · rintro ⟨c', h1, h2, h3⟩
          rcases List.mem_cons.1 h1 with rfl | h1
          · exact absurd h2.symm he
          · exact ⟨c', h1, h2, h3⟩
    · simp only [AMap.get_insert] at hr
      split at hr
      · cases hr
      · rename_i he
        rcases List.mem_cons.1 hc' with rfl | hc'
        · exact Ne.symm he
        · exact h.refsNone r hr c' hc'
    · simp only [AMap.get_insert]
      split
      · rename_i he
        refine ⟨_, rfl, ?_⟩
        rw [mem_sinsert]
        rcases List.mem_cons.1 hc' with rfl | hc'
        · exact .inl rfl
        · obtain ⟨rs, h1, h2⟩ := h.ops c' hc'
          rw [he] at h1
          exact .inr (by rw [h1]; exact h2)
      · rename_i he
        rcases List.mem_cons.1 hc' with rfl | hc'
        · exact absurd rfl he
        · exact h.ops c' hc'
    · simp only [AMap.get_insert] at ho
      split at ho
      · rename_i he
        cases ho
        rw [mem_sinsert] at hr
        rcases hr with rfl | hr
        · exact ⟨c, by simp, he.symm, rfl⟩
        · cases hg : AMap.get s.opsToRefs c.op with
          | none => rw [hg] at hr; cases hr
          | some rs =>
            rw [hg] at hr
            obtain ⟨c', h1, h2, h3⟩ := h.opsSound _ _ hg r hr
            exact ⟨c', by simp [h1], h2.trans he.symm, h3⟩
      · obtain ⟨c', h1, h2⟩ := h.opsSound o rs ho r hr
        exact ⟨c', by simp [h1], h2⟩
    · rcases List.mem_cons.1 hc' with rfl | hc'
      · simp
      · simp [h.liveIns c' hc']

theorem get_eraseAll : ∀ (ds : List Nat) {m : AMap Nat (Nat × Ct)} (d : Nat),
    AMap.get (ds.foldl AMap.erase m) d = if d ∈ ds then none else AMap.get m d := by
  intro ds
  induction ds with
  | nil => intro m d; simp
  | cons a ds ih =>
    intro m d
    simp only [List.foldl_cons, ih, AMap.get_erase, List.mem_cons]
    by_cases h1 : d = a <;> by_cases h2 : d ∈ ds <;> simp [h1, h2]

theorem Inv.removeAll (hH : Function.Injective H) {s : Store} {l ins : List Ct} (h : Inv H s l ins) (r : Ref) :
    Inv H (s.removeAll r).1 (l.filter (fun c => decide (c.ref ≠ r))) ins := by
  have hmem : ∀ c, c ∈ l.filter (fun c => decide (c.ref ≠ r)) ↔ c ∈ l ∧ c.ref ≠ r := by simp
  unfold Store.removeAll
  split
  · rename_i hr
    have : l.filter (fun c => decide (c.ref ≠ r)) = l :=
      List.filter_eq_self.2 (fun c hc => by simpa using h.refsNone r hr c hc)
    rw [this]; exact h
  · rename_i ds hr
    refine ⟨fun d x => ?_, fun r' ds' hr' d => ?_, fun r' hr' c hc => ?_, fun c hc => h.ops c ((hmem c).1 hc).1,
      h.opsSound, fun c hc => h.liveIns c ((hmem c).1 hc).1⟩
    · simp only [hmem]
      rw [get_eraseAll ds d]
      split
      · rename_i hd
        obtain ⟨c0, h1, h2, h3⟩ := (h.refs r ds hr d).1 hd
        constructor
        · intro hx; cases hx
        · rintro ⟨c, ⟨_, h5⟩, h6, _⟩
          have : c = c0 := hH (h6.symm.trans h3)
          rw [this] at h5
          exact absurd h2 h5
      · rename_i hd
        rw [h.store]
        constructor
        · rintro ⟨c, h1, h2, h3⟩
          refine ⟨c, ⟨h1, fun hc => hd ((h.refs r ds hr d).2 ⟨c, h1, hc, h2⟩)⟩, h2, h3⟩
        · rintro ⟨c, ⟨h1, _⟩, h2⟩; exact ⟨c, h1, h2⟩
    · simp only [AMap.get_erase] at hr'
      split at hr'
      · cases hr'
      · rename_i hne
        rw [h.refs r' ds' hr']
        simp only [hmem]
        constructor
        · rintro ⟨c, h1, h2, h3⟩; exact ⟨c, ⟨h1, by rw [h2]; exact hne⟩, h2, h3⟩
        · rintro ⟨c, ⟨h1, _⟩, h2⟩; exact ⟨c, h1, h2⟩
    · simp only [AMap.get_erase] at hr'
      obtain ⟨h1, h2⟩ := (hmem c).1 hc
      split at hr'
      · rename_i he; rw [he]; exact h2
      · exact h.refsNone r' hr' c h1

theorem Inv.remove (hH : Function.Injective H) {s : Store} {l ins : List Ct} (h : Inv H s l ins) (d : Nat)
    (hu : ∀ c ∈ l, ∀ c' ∈ l, c.ref = c'.ref → c.op = c'.op → c = c') :
    Inv H (s.remove d).1 (l.filter (fun c => decide (H c ≠ d))) ins ∧
    ((s.remove d).2 = none → ∀ c ∈ l, H c ≠ d) ∧ ∀ c, (s.remove d).2 = some c → c ∈ l ∧ H c = d := by
  have hmem : ∀ c, c ∈ l.filter (fun c => decide (H c ≠ d)) ↔ c ∈ l ∧ H c ≠ d := by simp
  unfold Store.remove
  split
  · rename_i hg
    have hno : ∀ c ∈ l, H c ≠ d := by
      intro c hc he
      have := (h.store d (c.size, c)).2 ⟨c, hc, he.symm, rfl⟩
      rw [hg] at this; cases this
    have : l.filter (fun c => decide (H c ≠ d)) = l := List.filter_eq_self.2 (fun c hc => by simpa using hno c hc)
    rw [this]
    exact ⟨h, fun _ => hno, fun c hc => by cases hc⟩
  · rename_i sz c0 hg
    obtain ⟨c1, hc1, hd, he⟩ := (h.store d _).1 hg
    cases he
    obtain ⟨refs, hrefs, hin⟩ := h.ops c0 hc1
    have hstore : ∀ d' x, AMap.get (AMap.erase s.store d) d' = some x ↔
        ∃ c ∈ l.filter (fun c => decide (H c ≠ d)), d' = H c ∧ x = (c.size, c) := by
      intro d' x
      simp only [hmem, AMap.get_erase]
      split
      · rename_i he
        constructor
        · intro hx; cases hx
        · rintro ⟨c, ⟨_, h2⟩, h3, _⟩; exact absurd (h3.symm.trans he) h2
      · rename_i he
        rw [h.store]
        constructor
        · rintro ⟨c, h1, h2, h3⟩; exact ⟨c, ⟨h1, by rw [← h2]; exact he⟩, h2, h3⟩
        · rintro ⟨c, ⟨h1, _⟩, h2⟩; exact ⟨c, h1, h2⟩
    rw [hrefs]
    simp only
    have hops : ∀ c ∈ l.filter (fun c => decide (H c ≠ d)), ∃ rs,
        AMap.get (if (sremove refs c0.ref).isEmpty then AMap.erase s.opsToRefs c0.op
          else AMap.insert s.opsToRefs c0.op (sremove refs c0.ref)) c.op = some rs ∧ c.ref ∈ rs := by
      intro c hc
      obtain ⟨h1, h2⟩ := (hmem c).1 hc
      obtain ⟨rs, h3, h4⟩ := h.ops c h1
      by_cases ho : c.op = c0.op
      · have hne : c.ref ≠ c0.ref := fun hr => h2 (by rw [hu c h1 c0 hc1 hr ho, hd])
        have hmem' : c.ref ∈ sremove refs c0.ref := by
          rw [mem_sremove]
          rw [ho, hrefs] at h3
          cases h3
          exact ⟨hne, h4⟩
        have hne' : (sremove refs c0.ref).isEmpty = false := by
          cases hl : sremove refs c0.ref with
          | nil => rw [hl] at hmem'; cases hmem'
          | cons => rfl
        rw [hne', ho]
        exact ⟨_, by simp, hmem'⟩
      · split
        · exact ⟨rs, by rw [AMap.get_erase, if_neg ho]; exact h3, h4⟩
        · exact ⟨rs, by rw [AMap.get_insert_ne _ _ ho]; exact h3, h4⟩
    have hsound : ∀ o rs, AMap.get (if (sremove refs c0.ref).isEmpty then AMap.erase s.opsToRefs c0.op
          else AMap.insert s.opsToRefs c0.op (sremove refs c0.ref)) o = some rs → ∀ r ∈ rs, ∃ c ∈ ins, c.op = o ∧ c.ref = r := by
      intro o rs ho r hr
      split at ho
      · rw [AMap.get_erase] at ho
        split at ho
        · cases ho
        · exact h.opsSound o rs ho r hr
      · rw [AMap.get_insert] at ho
        split at ho
        · rename_i he
          cases ho
          rw [he]
          exact h.opsSound _ _ hrefs r ((mem_sremove _ _ _).1 hr).2
        · exact h.opsSound o rs ho r hr
    cases hr : AMap.get s.refsToDigests c0.ref with
    | none => exact absurd rfl (h.refsNone _ hr c0 hc1)
    | some ds =>
      simp only
      refine ⟨⟨hstore, ?_, ?_, hops, hsound, fun c hc => h.liveIns c ((hmem c).1 hc).1⟩, fun hx => (by cases hx),
        fun c hx => (by cases hx; exact ⟨hc1, hd.symm⟩)⟩
      · intro r ds' hr' d'
        have hkeep : ∀ r', r' ≠ c0.ref → ∀ ds', AMap.get s.refsToDigests r' = some ds' →
            (d' ∈ ds' ↔ ∃ c ∈ l.filter (fun c => decide (H c ≠ d)), c.ref = r' ∧ d' = H c) := by
          intro r' hne ds' hg'
          rw [h.refs r' ds' hg']
          simp only [hmem]
          constructor
          · rintro ⟨c, h1, h2, h3⟩
            refine ⟨c, ⟨h1, fun hx => hne ?_⟩, h2, h3⟩
            rw [← h2, hH (hx.trans hd)]
          · rintro ⟨c, ⟨h1, _⟩, h2⟩; exact ⟨c, h1, h2⟩
        dsimp only at hr'
        split at hr'
        · rw [AMap.get_erase] at hr'
          split at hr'
          · cases hr'
          · rename_i hne; exact hkeep r hne ds' hr'
        · rw [AMap.get_insert] at hr'
          split at hr'
          · rename_i he
            cases hr'
            rw [mem_sremove, h.refs _ _ hr]
            simp only [hmem, he]
            constructor
            · rintro ⟨hx, c, h1, h2, h3⟩; exact ⟨c, ⟨h1, by rw [← h3]; exact hx⟩, h2, h3⟩
            · rintro ⟨c, ⟨h1, hx⟩, h2, h3⟩; exact ⟨by rw [h3]; exact hx, c, h1, h2, h3⟩
          · rename_i hne; exact hkeep r hne ds' hr'
      · intro r hr' c hc
        obtain ⟨h1, h2⟩ := (hmem c).1 hc
        dsimp only at hr'
        split at hr'
        · rename_i hemp
          rw [AMap.get_erase] at hr'
          split at hr'
          · rename_i he
            rw [he]
            intro hc'
            have : H c ∈ sremove ds d := by
              rw [mem_sremove]
              exact ⟨h2, (h.refs _ _ hr _).2 ⟨c, h1, hc', rfl⟩⟩
            rw [List.isEmpty_iff.1 hemp] at this
            cases this
          · exact h.refsNone r hr' c h1
        · rw [AMap.get_insert] at hr'
          split at hr'
          · cases hr'
          · exact h.refsNone r hr' c h1

theorem collect_ok {m : AMap Nat (Nat × Ct)} : ∀ {ds : List Nat}, (∀ d ∈ ds, ∃ x, AMap.get m d = some x) →
    ∃ xs, Store.collect m ds = some xs ∧ ∀ x, x ∈ xs ↔ ∃ d ∈ ds, AMap.get m d = some x := by
  intro ds
  induction ds with
  | nil => intro _; exact ⟨[], rfl, by simp⟩
  | cons d ds ih =>
    intro h
    obtain ⟨x, hx⟩ := h d (by simp)
    obtain ⟨xs, h1, h2⟩ := ih (fun d' hd' => h d' (by simp [hd']))
    refine ⟨x :: xs, by simp [Store.collect, hx, h1], fun y => ?_⟩
    simp only [List.mem_cons, h2]
    constructor
    · rintro (rfl | ⟨d', h3, h4⟩)
      · exact ⟨d, .inl rfl, hx⟩
      · exact ⟨d', .inr h3, h4⟩
    · rintro ⟨d', rfl | h3, h4⟩
      · exact .inl (Option.some.inj (h4.symm.trans hx))
      · exact .inr ⟨d', h3, h4⟩

theorem largest_spec : ∀ (xs : List (Nat × Ct)),
    (Store.largest xs = none ↔ xs = []) ∧ ∀ y, Store.largest xs = some y → y ∈ xs ∧ ∀ x ∈ xs, x.1 ≤ y.1 := by
  intro xs
  induction xs with
  | nil => exact ⟨by simp [Store.largest], fun y h => (by cases h)⟩
  | cons x xs ih =>
    unfold Store.largest
    cases hl : Store.largest xs with
    | none =>
      have : xs = [] := ih.1.1 hl
      subst this
      exact ⟨by simp, fun y h => by cases h; simp⟩
    | some z =>
      obtain ⟨h1, h2⟩ := ih.2 z hl
      refine ⟨by simp only; split <;> simp, fun y h => ?_⟩
      simp only at h
      split at h
      · rename_i hle
        cases h
        exact ⟨by simp [h1], by simpa using ⟨hle, fun a b hx => h2 (a, b) hx⟩⟩
      · rename_i hle
        cases h
        refine ⟨by simp, fun w hw => ?_⟩
        rcases List.mem_cons.1 hw with rfl | hw
        · exact Nat.le_refl _
        · have := h2 w hw; omega

/-- What a lookup by reference gives. -/
theorem Inv.getByRef {s : Store} {l ins : List Ct} (h : Inv H s l ins) (r : Ref) :
    (s.getByRef r = none ↔ ∀ c ∈ l, c.ref ≠ r) ∧
    ∀ c, s.getByRef r = some c → c ∈ l ∧ c.ref = r ∧ ∀ c' ∈ l, c'.ref = r → c'.size ≤ c.size := by
  unfold Store.getByRef
  cases hr : AMap.get s.refsToDigests r with
  | none => exact ⟨⟨fun _ => h.refsNone r hr, fun _ => rfl⟩, fun c hc => by cases hc⟩
  | some ds =>
    have hds := h.refs r ds hr
    obtain ⟨xs, h1, h2⟩ := collect_ok (m := s.store) (ds := ds) (fun d hd => by
      obtain ⟨c, a, b, e⟩ := (hds d).1 hd
      exact ⟨_, (h.store d _).2 ⟨c, a, e, rfl⟩⟩)
    have hxs : ∀ x, x ∈ xs ↔ ∃ c ∈ l, c.ref = r ∧ x = (c.size, c) := by
      intro x
      rw [h2]
      constructor
      · rintro ⟨d, hd, hx⟩
        obtain ⟨c, a, b, e⟩ := (hds d).1 hd
        have := (h.store d _).2 ⟨c, a, e, rfl⟩
        exact ⟨c, a, b, Option.some.inj (hx.symm.trans this)⟩
      · rintro ⟨c, a, b, e⟩
        exact ⟨H c, (hds _).2 ⟨c, a, b, rfl⟩, (h.store _ _).2 ⟨c, a, rfl, e⟩⟩
    simp only [h1]
    obtain ⟨h3, h4⟩ := largest_spec xs
    refine ⟨?_, fun c hc => ?_⟩
    · rw [Option.map_eq_none_iff, h3]
      constructor
      · intro he c hc hcr
        have := (hxs (c.size, c)).2 ⟨c, hc, hcr, rfl⟩
        rw [he] at this; cases this
      · intro hno
        apply List.eq_nil_iff_forall_not_mem.2
        intro x hx
        obtain ⟨c, a, b, _⟩ := (hxs x).1 hx
        exact hno c a b
    · obtain ⟨y, hy, rfl⟩ := Option.map_eq_some_iff.1 hc
      obtain ⟨h5, h6⟩ := h4 y hy
      obtain ⟨c, a, b, rfl⟩ := (hxs y).1 h5
      exact ⟨a, b, fun c' hc' hr' => h6 _ ((hxs _).2 ⟨c', hc', hr', rfl⟩)⟩

/-- What a lookup by update gives. -/
theorem Inv.getByUpdate {s : Store} {l ins : List Ct} (h : Inv H s l ins) (o : OpHash) (c : Ct) :
    (c ∈ l → c.op = o → c ∈ s.getByUpdate o) ∧
    (c ∈ s.getByUpdate o → c ∈ l ∧ ∃ c' ∈ ins, c'.op = o ∧ c'.ref = c.ref) := by
  have hfiled : ∀ r, c ∈ s.filed r ↔ c ∈ l ∧ c.ref = r := by
    intro r
    unfold Store.filed
    cases hr : AMap.get s.refsToDigests r with
    | none =>
      simp only [List.not_mem_nil, false_iff]
      rintro ⟨h1, h2⟩
      exact h.refsNone r hr c h1 h2
    | some ds =>
      simp only [List.mem_filterMap, Option.map_eq_some_iff]
      constructor
      · rintro ⟨d, hd, x, hx, rfl⟩
        obtain ⟨c, a, b, e⟩ := (h.refs r ds hr d).1 hd
        have := (h.store d _).2 ⟨c, a, e, rfl⟩
        cases Option.some.inj (hx.symm.trans this)
        exact ⟨a, b⟩
      · rintro ⟨h1, h2⟩
        exact ⟨H c, (h.refs r ds hr _).2 ⟨c, h1, h2, rfl⟩, (c.size, c), (h.store _ _).2 ⟨c, h1, rfl, rfl⟩, rfl⟩
  unfold Store.getByUpdate
  constructor
  · intro h1 h2
    obtain ⟨rs, h3, h4⟩ := h.ops c h1
    rw [h2] at h3
    rw [h3]
    exact List.mem_flatMap.2 ⟨c.ref, h4, (hfiled _).2 ⟨h1, rfl⟩⟩
  · intro hc
    cases ho : AMap.get s.opsToRefs o with
    | none => rw [ho] at hc; cases hc
    | some rs =>
      rw [ho] at hc
      obtain ⟨r, hr, hf⟩ := List.mem_flatMap.1 hc
      obtain ⟨h1, h2⟩ := (hfiled r).1 hf
      obtain ⟨c', h3, h4, h5⟩ := h.opsSound o rs ho r hr
      exact ⟨h1, c', h3, h4, h5.trans h2.symm⟩

theorem inserted_insert (c : Ct) (cmds : List Cmd) (c' : Ct) :
    c' ∈ inserted (.insert c :: cmds) ↔ c' = c ∨ c' ∈ inserted cmds := by
  simp [inserted]

theorem inv_runAll (hH : Function.Injective H) : ∀ (cmds : List Cmd) {s : Store} {l ins : List Ct}, Inv H s l ins →
    ((∀ d, Cmd.remove d ∉ cmds) ∨
      ∀ c ∈ ins ++ inserted cmds, ∀ c' ∈ ins ++ inserted cmds, c.ref = c'.ref → c.op = c'.op → c = c') →
    ∃ ins', (∀ c, c ∈ ins' ↔ c ∈ ins ∨ c ∈ inserted cmds) ∧
      Inv H (cmds.foldl (Cmd.run H) s) (cmds.foldl (Cmd.live H) l) ins' := by
  intro cmds
  induction cmds with
  | nil => intro s l ins h _; exact ⟨ins, by simp [inserted], h⟩
  | cons cmd cmds ih =>
    intro s l ins h hu
    cases cmd with
    | insert c =>
      obtain ⟨ins', h1, h2⟩ := ih (h.insert hH c) (by
        rcases hu with hu | hu
        · exact .inl (fun d hd => hu d (by simp [hd]))
        · refine .inr (fun a ha b hb => hu a ?_ b ?_)
          · rw [List.mem_append, inserted_insert]; rw [List.mem_append, List.mem_cons] at ha; tauto
          · rw [List.mem_append, inserted_insert]; rw [List.mem_append, List.mem_cons] at hb; tauto)
      refine ⟨ins', fun c' => ?_, h2⟩
      rw [h1, inserted_insert, List.mem_cons]
      tauto
    | remove d =>
      have hu' : ∀ c ∈ ins ++ inserted cmds, ∀ c' ∈ ins ++ inserted cmds, c.ref = c'.ref → c.op = c'.op → c = c' := by
        rcases hu with hu | hu
        · exact absurd (by simp) (hu d)
        · exact hu
      have := (h.remove hH d (fun c hc c' hc' => hu' c (by simp [h.liveIns c hc]) c' (by simp [h.liveIns c' hc']))).1
      obtain ⟨ins', h1, h2⟩ := ih this (.inr hu')
      exact ⟨ins', h1, h2⟩
    | removeAll r =>
      obtain ⟨ins', h1, h2⟩ := ih (h.removeAll hH r) (by
        rcases hu with hu | hu
        · exact .inl (fun d hd => hu d (by simp [hd]))
        · exact .inr hu)
      exact ⟨ins', h1, h2⟩

theorem inv_of_cmds (hH : Function.Injective H) (cmds : List Cmd) (hu : RemovalsUnambiguous cmds) :
    ∃ ins, (∀ c, c ∈ ins ↔ c ∈ inserted cmds) ∧ Inv H (runAll H cmds) (live H cmds) ins := by
  obtain ⟨ins, h1, h2⟩ := inv_runAll hH cmds inv_new (by simpa [RemovalsUnambiguous] using hu)
  exact ⟨ins, by simpa using h1, h2⟩

/-- No reference is listed without a ciphertext. -/
def Filled (s : Store) : Prop := ∀ r ds, AMap.get s.refsToDigests r = some ds → ds ≠ []

theorem filled_cmds (H : Ct → Nat) (cmds : List Cmd) : Filled (runAll H cmds) := by
  have key : ∀ (cmds : List Cmd) (s : Store), Filled s → Filled (cmds.foldl (Cmd.run H) s) := by
    intro cmds
    induction cmds with
    | nil => intro s h; exact h
    | cons c cmds ih =>
      intro s h
      refine ih _ ?_
      cases c with
      | insert c =>
        show Filled (s.insert H c)
        unfold Store.insert
        split
        · exact h
        · intro r ds hr
          dsimp only at hr
          rw [AMap.get_insert] at hr
          split at hr
          · cases hr
            intro he
            have := (mem_sinsert (l := (AMap.get s.refsToDigests c.ref).getD []) (x := H c) (y := H c)).2 (by simp)
            rw [he] at this
            cases this
          · exact h r ds hr
      | remove d =>
        show Filled (s.remove d).1
        unfold Store.remove
        split
        · exact h
        · dsimp only
          split
          · exact h
          · split
            · exact h
            · intro r ds hr
              dsimp only at hr
              split at hr
              · rw [AMap.get_erase] at hr
                split at hr
                · cases hr
                · exact h r ds hr
              · rename_i hne
                rw [AMap.get_insert] at hr
                split at hr
                · cases hr
                  intro he
                  rw [he] at hne
                  exact hne rfl
                · exact h r ds hr
      | removeAll r0 =>
        show Filled (s.removeAll r0).1
        unfold Store.removeAll
        split
        · exact h
        · intro r ds hr
          dsimp only at hr
          rw [AMap.get_erase] at hr
          split at hr
          · cases hr
          · exact h r ds hr
  exact key cmds _ (fun r ds h => by cases h)

end Verif.Cipher
