import Verif.Cgka.ScanLemmas

/-! # Helper lemmas: the epoch loop of `topsort_for_heads` -/

namespace Verif.Cgka

open Verif.BeeKem Relation

theorem closeOne_spec (eh : List Nat) (m : AMap Nat (List Nat)) (hash : Nat) (hm : ∀ h ∈ eh, AMap.get m h ≠ none) :
    (∀ x, AMap.get (Graph.closeOne eh m hash) x ≠ none ↔ AMap.get m x ≠ none) ∧
    ∀ x y, y ∈ (AMap.get (Graph.closeOne eh m hash) x).getD [] ↔
      y ∈ (AMap.get m x).getD [] ∧ ¬ (x ∈ eh ∧ x ≠ hash ∧ y = hash) := by
  unfold Graph.closeOne
  induction eh generalizing m with
  | nil => simp
  | cons a eh ih =>
    have hg : ∀ x, AMap.get (if hash = a then m else AMap.insert m a (sremove ((AMap.get m a).getD []) hash)) x =
        if x = a ∧ x ≠ hash then some (sremove ((AMap.get m a).getD []) hash) else AMap.get m x := by
      intro x
      by_cases h1 : hash = a
      · rw [if_pos h1]
        subst h1
        by_cases h2 : x = hash <;> simp [h2]
      · rw [if_neg h1, AMap.get_insert]
        by_cases h2 : x = a
        · subst h2
          simp [Ne.symm h1]
        · simp [h2]
    have hk : ∀ x, AMap.get (if hash = a then m else AMap.insert m a (sremove ((AMap.get m a).getD []) hash)) x ≠ none ↔
        AMap.get m x ≠ none := by
      intro x
      rw [hg]
      split
      · rename_i h
        rw [h.1]
        simp only [ne_eq, reduceCtorEq, not_false_eq_true, true_iff]
        exact hm a (by simp)
      · rfl
    obtain ⟨i1, i2⟩ := ih _ (fun h hh => (hk h).2 (hm h (List.mem_cons_of_mem _ hh)))
    rw [List.foldl_cons]
    refine ⟨fun x => (i1 x).trans (hk x), ?_⟩
    intro x y
    rw [i2, hg]
    by_cases h1 : x = a ∧ x ≠ hash
    · rw [if_pos h1]
      obtain ⟨rfl, h2⟩ := h1
      simp only [Option.getD_some, mem_sremove, List.mem_cons, true_or, true_and]
      constructor
      · rintro ⟨⟨h3, h4⟩, _⟩; exact ⟨h4, fun h => h3 h.2⟩
      · rintro ⟨h3, h4⟩; exact ⟨⟨fun h => h4 ⟨h2, h⟩, h3⟩, fun h => h4 h.2⟩
    · rw [if_neg h1]
      simp only [List.mem_cons]
      constructor
      · rintro ⟨h3, h4⟩
        refine ⟨h3, ?_⟩
        rintro ⟨rfl | h5, h6, h7⟩
        · exact h1 ⟨rfl, h6⟩
        · exact h4 ⟨h5, h6, h7⟩
      · rintro ⟨h3, h4⟩
        exact ⟨h3, fun h => h4 ⟨Or.inr h.1, h.2⟩⟩

theorem closeAll_spec (eh next : List Nat) (m : AMap Nat (List Nat)) (hm : ∀ h ∈ eh, AMap.get m h ≠ none) :
    (∀ x, AMap.get (next.foldl (Graph.closeOne eh) m) x ≠ none ↔ AMap.get m x ≠ none) ∧
    ∀ x y, y ∈ (AMap.get (next.foldl (Graph.closeOne eh) m) x).getD [] ↔
      y ∈ (AMap.get m x).getD [] ∧ ¬ (x ∈ eh ∧ x ≠ y ∧ y ∈ next) := by
  induction next generalizing m with
  | nil => simp
  | cons a l ih =>
    obtain ⟨c1, c2⟩ := closeOne_spec eh m a hm
    obtain ⟨i1, i2⟩ := ih (Graph.closeOne eh m a) (fun h hh => (c1 h).2 (hm h hh))
    rw [List.foldl_cons]
    refine ⟨fun x => (i1 x).trans (c1 x), ?_⟩
    intro x y
    rw [i2, c2]
    simp only [List.mem_cons]
    constructor
    · rintro ⟨⟨h1, h2⟩, h3⟩
      refine ⟨h1, ?_⟩
      rintro ⟨h4, h5, rfl | h6⟩
      · exact h2 ⟨h4, h5, rfl⟩
      · exact h3 ⟨h4, h5, h6⟩
    · rintro ⟨h1, h2⟩
      exact ⟨⟨h1, fun h => h2 ⟨h.1, h.2.2 ▸ h.2.1, Or.inl h.2.2⟩⟩, fun h => h2 ⟨h.1, h.2.1, Or.inr h.2.2⟩⟩

theorem markSinks_spec (next : List Nat) (hn : next.Nodup) (m : AMap Nat (List Nat))
    (hm : ∀ h ∈ next, AMap.get m h ≠ none) :
    (∀ x, AMap.get (next.foldl Graph.markSink m) x ≠ none ↔ AMap.get m x ≠ none) ∧
    (∀ x, x ∉ next → AMap.get (next.foldl Graph.markSink m) x = AMap.get m x) ∧
    ∀ x ∈ next, (AMap.get (next.foldl Graph.markSink m) x).getD [] =
      if ((AMap.get m x).getD []).isEmpty then [x] else (AMap.get m x).getD [] := by
  induction next generalizing m with
  | nil => simp
  | cons a l ih =>
    rw [List.nodup_cons] at hn
    have hk : ∀ x, AMap.get (Graph.markSink m a) x ≠ none ↔ AMap.get m x ≠ none := by
      intro x
      unfold Graph.markSink
      split
      · rw [AMap.get_insert]
        split
        · rename_i h; subst h
          simp only [ne_eq, reduceCtorEq, not_false_eq_true, true_iff]
          exact hm x (by simp)
        · rfl
      · rfl
    have hne : ∀ x, x ≠ a → AMap.get (Graph.markSink m a) x = AMap.get m x := by
      intro x hx
      unfold Graph.markSink
      split
      · rw [AMap.get_insert, if_neg hx]
      · rfl
    obtain ⟨i1, i2, i3⟩ := ih hn.2 (Graph.markSink m a) (fun h hh => (hk h).2 (hm h (List.mem_cons_of_mem _ hh)))
    rw [List.foldl_cons]
    refine ⟨fun x => (i1 x).trans (hk x), ?_, ?_⟩
    · intro x hx
      simp only [List.mem_cons, not_or] at hx
      rw [i2 x hx.2, hne x hx.1]
    · intro x hx
      by_cases hxa : x = a
      · subst hxa
        rw [i2 x hn.1]
        unfold Graph.markSink
        split
        · simp
        · rfl
      · have hxl : x ∈ l := by simpa [hxa] using hx
        rw [i3 x hxl, hne x hxa]

/-- Invariant of the epoch loop for the dependency edges `E`. -/
structure RInv (E : Nat → Nat → Prop) (r : Graph.Rounds) : Prop where
  topo : PInv r.topo (fun x => Touched E x ∧ x ∉ r.out.flatten ++ r.cur) E
  sub : ∀ x ∈ r.out.flatten ++ r.cur, Touched E x
  down : ∀ x ∈ r.out.flatten ++ r.cur, ∀ p, E p x → p ∈ r.out.flatten ++ r.cur
  skeys : ∀ x, Touched E x → AMap.get r.succs x ≠ none
  fresh : ∀ x, x ∉ r.out.flatten ++ r.cur → ∀ y, y ∈ (AMap.get r.succs x).getD [] ↔ E x y
  ehn : r.epochHeads.Nodup
  eh : ∀ x, x ∈ r.epochHeads ↔ x ∈ r.out.flatten ++ r.cur ∧
        ((∀ y, ¬ E x y) ∨ ∃ y, E x y ∧ y ∉ r.out.flatten ++ r.cur)
  sink : ∀ x ∈ r.epochHeads, (∀ y, ¬ E x y) → ∀ y, y ∈ (AMap.get r.succs x).getD [] ↔ y = x
  openS : ∀ x ∈ r.epochHeads, (∃ y, E x y) → ∀ y, y ∈ (AMap.get r.succs x).getD [] ↔
        E x y ∧ y ∉ r.out.flatten ++ r.cur
  nodup : (r.out.flatten ++ r.cur).Nodup
  order : (r.out.flatten ++ r.cur).Pairwise (fun a b => ¬ TransGen E b a)
  ne : ∀ e ∈ r.out, e ≠ []
  sep : r.out.Pairwise (fun e f => ∀ x ∈ e, ∀ y ∈ f, TransGen E x y)
  barrier : ∀ x ∈ r.out.flatten, ∀ y, Touched E y → y ∉ r.out.flatten → TransGen E x y

theorem down_trans {E : Nat → Nat → Prop} {P : List Nat} (hd : ∀ x ∈ P, ∀ p, E p x → p ∈ P) {a b : Nat}
    (h : TransGen E a b) (hb : b ∈ P) : a ∈ P := by
  induction h using TransGen.head_induction_on with
  | single h => exact hd _ hb _ h
  | head h _ ih => exact hd _ ih _ h

/-- What one round does, at the level of sets. -/
structure RStep (E : Nat → Nat → Prop) (r : Graph.Rounds) (next : List Nat) (r' : Graph.Rounds) : Prop where
  mem : ∀ x, x ∈ next ↔ (Touched E x ∧ x ∉ r.out.flatten ++ r.cur) ∧
    ∀ p, E p x → p ∈ r.out.flatten ++ r.cur
  srt : next.Pairwise (· ≤ ·)
  nd : next.Nodup
  inv : RInv E r'
  ends : (r'.epochHeads.length ≤ 1 ∧ r'.cur = [] ∧
      r'.out = r.out ++ (if r.cur.isEmpty then [] else [r.cur]) ++ (if next.isEmpty then [] else [next])) ∨
    (¬ r'.epochHeads.length ≤ 1 ∧ r'.cur = r.cur ++ next ∧ r'.out = r.out)
  flat : r'.out.flatten ++ r'.cur = (r.out.flatten ++ r.cur) ++ next
  topo : r'.topo = r.topo.popAll.1

theorem flatten_ite (l : List Nat) : (if l.isEmpty then [] else [l]).flatten = l := by
  cases l <;> simp

theorem exists_ready {E : Nat → Nat → Prop} {rank : Nat → Nat} (hr : ∀ p x, E p x → rank p < rank x)
    {P : List Nat} {x : Nat} (hx : Touched E x) (hxP : x ∉ P) :
    ∃ z, Touched E z ∧ z ∉ P ∧ (∀ p, E p z → p ∈ P) ∧ (z = x ∨ TransGen E z x) := by
  generalize hk : rank x = k
  induction k using Nat.strongRecOn generalizing x with
  | ind k ih =>
    by_cases h : ∀ p, E p x → p ∈ P
    · exact ⟨x, hx, hxP, h, Or.inl rfl⟩
    · push Not at h
      obtain ⟨p, h1, h2⟩ := h
      obtain ⟨z, g1, g2, g3, g4⟩ := ih (rank p) (hk ▸ hr p x h1) (Or.inr ⟨x, h1⟩) h2 rfl
      refine ⟨z, g1, g2, g3, Or.inr ?_⟩
      rcases g4 with rfl | g4
      · exact .single h1
      · exact .tail g4 h1

theorem le_of_mem_ranks {P : List Nat} (rank : Nat → Nat) : ∃ B, ∀ x ∈ P, rank x ≤ B := by
  induction P with
  | nil => exact ⟨0, by simp⟩
  | cons a P ih =>
    obtain ⟨B, hB⟩ := ih
    refine ⟨max (rank a) B, ?_⟩
    intro x hx
    rcases List.mem_cons.1 hx with rfl | hx
    · exact Nat.le_max_left _ _
    · exact Nat.le_trans (hB x hx) (Nat.le_max_right _ _)

/-- Every processed node leads to an open head. -/
theorem reaches_head {E : Nat → Nat → Prop} {rank : Nat → Nat} (hr : ∀ p x, E p x → rank p < rank x)
    {P : List Nat} {x : Nat} (hx : x ∈ P) :
    ∃ z ∈ P, ((∀ y, ¬ E z y) ∨ ∃ y, E z y ∧ y ∉ P) ∧ (x = z ∨ TransGen E x z) := by
  obtain ⟨B, hB⟩ := le_of_mem_ranks (P := P) rank
  generalize hk : B - rank x = k
  induction k using Nat.strongRecOn generalizing x with
  | ind k ih =>
    by_cases h : (∀ y, ¬ E x y) ∨ ∃ y, E x y ∧ y ∉ P
    · exact ⟨x, hx, h, Or.inl rfl⟩
    · push Not at h
      obtain ⟨⟨y, h1⟩, h2⟩ := h
      have hy := h2 y h1
      have h3 := hr x y h1
      have h4 := hB y hy
      obtain ⟨z, g1, g2, g3⟩ := ih (B - rank y) (by omega) hy rfl
      refine ⟨z, g1, g2, Or.inr ?_⟩
      rcases g3 with rfl | g3
      · exact .single h1
      · exact .head h1 g3

theorem eq_of_length_le_one {l : List Nat} (h : l.length ≤ 1) {a b : Nat} (ha : a ∈ l) (hb : b ∈ l) : a = b := by
  match l, h with
  | [], _ => simp at ha
  | [c], _ => simp at ha hb; rw [ha, hb]
  | _ :: _ :: _, hc => simp at hc

theorem round_ok {E : Nat → Nat → Prop} {rank : Nat → Nat} (hr : ∀ p x, E p x → rank p < rank x)
    {r : Graph.Rounds} (h : RInv E r) (hne : ¬ ∀ x, ¬ (Touched E x ∧ x ∉ r.out.flatten ++ r.cur)) :
    ∃ r' next, Graph.round r = .ok r' ∧ RStep E r next r' ∧ next ≠ [] := by
  generalize hP : r.out.flatten ++ r.cur = P at *
  -- the next set
  let next := isort (fun a b => decide (a ≤ b)) r.topo.ready
  have hnext : next = isort (fun a b => decide (a ≤ b)) r.topo.ready := rfl
  have hmem : ∀ x, x ∈ next ↔ (Touched E x ∧ x ∉ P) ∧ ∀ p, E p x → p ∈ P := by
    intro x
    rw [hnext, mem_isort, h.topo.mem_ready, hP]
    refine and_congr_right fun hx => ?_
    constructor
    · intro h1 p hp
      by_contra hc
      exact h1 p hp ⟨Or.inr ⟨x, hp⟩, hc⟩
    · intro h1 p hp hc
      exact hc.2 (h1 p hp)
  have hnd : next.Nodup := (isort_perm _).nodup_iff.2 h.topo.nodup_ready
  have hsrt : next.Pairwise (· ≤ ·) := by
    have := isort_pairwise (le := fun (a b : Nat) => decide (a ≤ b)) (fun a b c => by simp; omega)
      (fun a b => by simp; omega) r.topo.ready
    exact this.imp (by simp)
  have hne' : next ≠ [] := by
    push Not at hne
    obtain ⟨x, hx1, hx2⟩ := hne
    obtain ⟨z, g1, g2, g3, _⟩ := exists_ready hr hx1 hx2
    intro he
    have := (hmem z).2 ⟨⟨g1, g2⟩, g3⟩
    rw [he] at this
    simp at this
  have hdisj : ∀ x ∈ next, x ∉ P := fun x hx => ((hmem x).1 hx).1.2
  have hnoE : ∀ x ∈ next, ∀ y, E x y → y ∉ P ∧ y ∉ next := by
    intro x hx y hxy
    constructor
    · intro hy
      have h1 := h.down y (hP ▸ hy) x hxy
      rw [hP] at h1
      exact hdisj x hx h1
    · intro hy
      exact hdisj x hx (((hmem y).1 hy).2 x hxy)
  -- epoch heads
  let eh := sextend r.epochHeads next
  have hehm : ∀ x, x ∈ eh ↔ x ∈ r.epochHeads ∨ x ∈ next := fun x => mem_sextend _ _ _
  have hehP : ∀ x ∈ r.epochHeads, x ∈ P := fun x hx => hP ▸ ((h.eh x).1 hx).1
  have hehk : ∀ x ∈ eh, AMap.get r.succs x ≠ none := by
    intro x hx
    apply h.skeys
    rcases (hehm x).1 hx with h1 | h1
    · exact h.sub x (hP ▸ hehP x h1)
    · exact ((hmem x).1 h1).1.1
  have hall : (eh.all (fun h => AMap.contains r.succs h)) = true := by
    rw [List.all_eq_true]
    intro x hx
    rw [AMap.contains_iff, AMap.mem_keys_iff]
    exact hehk x hx
  obtain ⟨m1, m2, m3⟩ := markSinks_spec next hnd r.succs
    (fun x hx => hehk x ((hehm x).2 (Or.inr hx)))
  obtain ⟨c1, c2⟩ := closeAll_spec eh next (next.foldl Graph.markSink r.succs)
    (fun x hx => (m1 x).2 (hehk x hx))
  generalize hs' : next.foldl (Graph.closeOne eh) (next.foldl Graph.markSink r.succs) = succs' at c1 c2
  let eh' := eh.filter (fun h => !((AMap.get succs' h).getD []).isEmpty)
  -- values of succs'
  have hfreshv : ∀ x, x ∉ P → x ∉ next → ∀ y, y ∈ (AMap.get succs' x).getD [] ↔ E x y := by
    intro x hx hxn y
    rw [c2, m2 x hxn, h.fresh x (hP ▸ hx)]
    constructor
    · exact fun h => h.1
    · intro he
      refine ⟨he, ?_⟩
      rintro ⟨h1, _⟩
      rcases (hehm x).1 h1 with h2 | h2
      · exact hx (hehP x h2)
      · exact hxn h2
  have hnextv : ∀ x ∈ next, ∀ y, y ∈ (AMap.get succs' x).getD [] ↔ ((∀ z, ¬ E x z) ∧ y = x) ∨ E x y := by
    intro x hx y
    have hfr := h.fresh x (hP ▸ hdisj x hx)
    rw [c2, m3 x hx]
    by_cases hsk : ∀ z, ¬ E x z
    · have hemp : (AMap.get r.succs x).getD [] = [] := by
        rw [List.eq_nil_iff_forall_not_mem]
        intro z hz
        exact hsk z ((hfr z).1 hz)
      rw [hemp]
      simp only [List.isEmpty_nil, if_true, List.mem_singleton]
      constructor
      · rintro ⟨rfl, _⟩; exact Or.inl ⟨hsk, rfl⟩
      · rintro (⟨_, rfl⟩ | h1)
        · exact ⟨rfl, fun hc => hc.2.1 rfl⟩
        · exact absurd h1 (hsk y)
    · have hemp : ((AMap.get r.succs x).getD []).isEmpty = false := by
        push Not at hsk
        obtain ⟨z, hz⟩ := hsk
        have := (hfr z).2 hz
        cases hl : (AMap.get r.succs x).getD [] with
        | nil => rw [hl] at this; simp at this
        | cons _ _ => rfl
      rw [hemp]
      simp only [Bool.false_eq_true, if_false, hfr]
      constructor
      · exact fun h => Or.inr h.1
      · rintro (⟨h1, _⟩ | h1)
        · exact absurd h1 hsk
        · exact ⟨h1, fun hc => (hnoE x hx y h1).2 hc.2.2⟩
  have holdv : ∀ x ∈ r.epochHeads, ∀ y, y ∈ (AMap.get succs' x).getD [] ↔
      ((∀ z, ¬ E x z) ∧ y = x) ∨ (E x y ∧ y ∉ P ∧ y ∉ next) := by
    intro x hx y
    have hxP := hehP x hx
    have hxn : x ∉ next := fun hc => hdisj x hc hxP
    rw [c2, m2 x hxn]
    by_cases hsk : ∀ z, ¬ E x z
    · rw [h.sink x hx hsk]
      constructor
      · rintro ⟨rfl, _⟩; exact Or.inl ⟨hsk, rfl⟩
      · rintro (⟨_, rfl⟩ | h1)
        · exact ⟨rfl, fun hc => hc.2.1 rfl⟩
        · exact absurd h1.1 (hsk y)
    · have hex : ∃ z, E x z := by push Not at hsk; exact hsk
      rw [h.openS x hx hex, hP]
      constructor
      · rintro ⟨⟨h1, h2⟩, h3⟩
        refine Or.inr ⟨h1, h2, ?_⟩
        intro hyn
        exact h3 ⟨(hehm x).2 (Or.inl hx), fun he => h2 (he ▸ hxP), hyn⟩
      · rintro (⟨h1, _⟩ | ⟨h1, h2, h3⟩)
        · exact absurd h1 hsk
        · exact ⟨⟨h1, h2⟩, fun hc => h3 hc.2.2⟩
  have hnil : ∀ l : List Nat, (!l.isEmpty) = true ↔ ∃ y, y ∈ l := by
    intro l; cases l with
    | nil => simp
    | cons a l => simp only [List.isEmpty_cons, Bool.not_false, true_iff]; exact ⟨a, by simp⟩
  -- the new epoch heads
  have heh' : ∀ x, x ∈ eh' ↔ x ∈ P ++ next ∧ ((∀ y, ¬ E x y) ∨ ∃ y, E x y ∧ y ∉ P ++ next) := by
    intro x
    rw [List.mem_filter, hnil, hehm, List.mem_append]
    constructor
    · rintro ⟨h1 | h1, y, hy⟩
      · refine ⟨Or.inl (hehP x h1), ?_⟩
        rcases (holdv x h1 y).1 hy with h2 | h2
        · exact Or.inl h2.1
        · refine Or.inr ⟨y, h2.1, ?_⟩
          simp only [List.mem_append, not_or]; exact h2.2
      · refine ⟨Or.inr h1, ?_⟩
        rcases (hnextv x h1 y).1 hy with h2 | h2
        · exact Or.inl h2.1
        · refine Or.inr ⟨y, h2, ?_⟩
          simp only [List.mem_append, not_or]; exact hnoE x h1 y h2
    · rintro ⟨h1 | h1, h2⟩
      · have hxe : x ∈ r.epochHeads := by
          rw [h.eh, hP]
          refine ⟨h1, ?_⟩
          rcases h2 with h2 | ⟨y, h2, h3⟩
          · exact Or.inl h2
          · simp only [List.mem_append, not_or] at h3
            exact Or.inr ⟨y, h2, h3.1⟩
        refine ⟨Or.inl hxe, ?_⟩
        rcases h2 with h2 | ⟨y, h2, h3⟩
        · exact ⟨x, (holdv x hxe x).2 (Or.inl ⟨h2, rfl⟩)⟩
        · simp only [List.mem_append, not_or] at h3
          exact ⟨y, (holdv x hxe y).2 (Or.inr ⟨h2, h3⟩)⟩
      · refine ⟨Or.inr h1, ?_⟩
        rcases h2 with h2 | ⟨y, h2, _⟩
        · exact ⟨x, (hnextv x h1 x).2 (Or.inl ⟨h2, rfl⟩)⟩
        · exact ⟨y, (hnextv x h1 y).2 (Or.inr h2)⟩
  have heh'n : eh'.Nodup := (nodup_sextend h.ehn next).filter _
  have hsub' : ∀ x ∈ P ++ next, Touched E x := by
    intro x hx
    rcases List.mem_append.1 hx with h1 | h1
    · exact h.sub x (hP ▸ h1)
    · exact ((hmem x).1 h1).1.1
  have hdown' : ∀ x ∈ P ++ next, ∀ p, E p x → p ∈ P ++ next := by
    intro x hx p hp
    rw [List.mem_append]
    rcases List.mem_append.1 hx with h1 | h1
    · exact Or.inl (hP ▸ h.down x (hP ▸ h1) p hp)
    · exact Or.inl (((hmem x).1 h1).2 p hp)
  have htopo' : PInv r.topo.popAll.1 (fun x => Touched E x ∧ x ∉ P ++ next) E := by
    refine h.topo.popAll.congr ?_
    intro x
    have : x ∈ r.topo.ready ↔ x ∈ next := by rw [hnext, mem_isort]
    rw [this, hP]
    simp only [List.mem_append, not_or]
    exact and_assoc
  have hsinkv : ∀ x ∈ eh', (∀ y, ¬ E x y) → ∀ y, y ∈ (AMap.get succs' x).getD [] ↔ y = x := by
    intro x hx hsk y
    rcases (hehm x).1 (List.mem_filter.1 hx).1 with h1 | h1
    · rw [holdv x h1]
      constructor
      · rintro (h2 | h2)
        · exact h2.2
        · exact absurd h2.1 (hsk y)
      · intro h2; exact Or.inl ⟨hsk, h2⟩
    · rw [hnextv x h1]
      constructor
      · rintro (h2 | h2)
        · exact h2.2
        · exact absurd h2 (hsk y)
      · intro h2; exact Or.inl ⟨hsk, h2⟩
  have hopenv : ∀ x ∈ eh', (∃ y, E x y) → ∀ y, y ∈ (AMap.get succs' x).getD [] ↔ E x y ∧ y ∉ P ++ next := by
    intro x hx hex y
    have hns : ¬ ∀ z, ¬ E x z := by push Not; exact hex
    simp only [List.mem_append, not_or]
    rcases (hehm x).1 (List.mem_filter.1 hx).1 with h1 | h1
    · rw [holdv x h1]
      constructor
      · rintro (h2 | h2)
        · exact absurd h2.1 hns
        · exact h2
      · exact fun h2 => Or.inr h2
    · rw [hnextv x h1]
      constructor
      · rintro (h2 | h2)
        · exact absurd h2.1 hns
        · exact ⟨h2, hnoE x h1 y h2⟩
      · exact fun h2 => Or.inr h2.1
  have hnd' : (P ++ next).Nodup := by
    rw [List.nodup_append]
    refine ⟨hP ▸ h.nodup, hnd, ?_⟩
    intro a ha b hb he
    exact hdisj b hb (he ▸ ha)
  have hord' : (P ++ next).Pairwise (fun a b => ¬ TransGen E b a) := by
    have hdP : ∀ x ∈ P, ∀ p, E p x → p ∈ P := fun x hx p hp => hP ▸ h.down x (hP ▸ hx) p hp
    have hnn : ∀ a ∈ P ++ next, ∀ b ∈ next, ¬ TransGen E b a := by
      intro a ha b hb hab
      rcases List.mem_append.1 ha with h1 | h1
      · exact hdisj b hb (down_trans hdP hab h1)
      · obtain ⟨c, h2, h3⟩ := (TransGen.tail'_iff).1 hab
        have hc : c ∈ P := ((hmem a).1 h1).2 c h3
        rcases (reflTransGen_iff_eq_or_transGen).1 h2 with h4 | h4
        · exact hdisj b hb (h4 ▸ hc)
        · exact hdisj b hb (down_trans hdP h4 hc)
    rw [List.pairwise_append]
    refine ⟨hP ▸ h.order, ?_, fun a ha b hb => hnn a (List.mem_append_left _ ha) b hb⟩
    refine List.Pairwise.imp_of_mem (R := fun _ _ => True) ?_ (List.pairwise_of_forall (fun _ _ => trivial))
    intro a b ha hb _
    exact hnn a (List.mem_append_right _ ha) b hb
  have hfr' : ∀ x, x ∉ P ++ next → ∀ y, y ∈ (AMap.get succs' x).getD [] ↔ E x y := by
    intro x hx
    simp only [List.mem_append, not_or] at hx
    exact hfreshv x hx.1 hx.2
  have hsk' : ∀ x, Touched E x → AMap.get succs' x ≠ none := fun x hx => (c1 x).2 ((m1 x).2 (h.skeys x hx))
  have hnb : (!(eh.all (fun h => AMap.contains r.succs h))) = false := by rw [hall]; rfl
  have hround : Graph.round r = if eh'.length ≤ 1 then
      .ok { topo := r.topo.popAll.1, succs := succs', epochHeads := eh', cur := [],
            out := r.out ++ (if r.cur.isEmpty then [] else [r.cur]) ++ (if next.isEmpty then [] else [next]) }
    else .ok { topo := r.topo.popAll.1, succs := succs', epochHeads := eh', cur := r.cur ++ next, out := r.out } := by
    have e1 : (!((sextend r.epochHeads (isort (fun a b => decide (a ≤ b)) r.topo.ready)).all
      (fun h => AMap.contains r.succs h))) = false := hnb
    unfold Graph.round
    simp only [TopoSort.popAll, e1, Bool.false_eq_true, if_false]
    simp only [eh', ← hs']
    rfl
  by_cases hend : eh'.length ≤ 1
  · rw [if_pos hend] at hround
    have hflat : (r.out ++ (if r.cur.isEmpty then [] else [r.cur]) ++ (if next.isEmpty then [] else [next])).flatten
        ++ [] = P ++ next := by
      rw [List.flatten_append, List.flatten_append, flatten_ite, flatten_ite, hP]; simp
    have hflat' : (r.out ++ (if r.cur.isEmpty then [] else [r.cur]) ++ (if next.isEmpty then [] else [next])).flatten
        = P ++ next := by rw [← hflat]; simp
    -- the next set is a single node `n`, the only open head
    have hne_eh : ∀ x ∈ next, x ∈ eh' := by
      intro x hx
      rw [heh']
      refine ⟨List.mem_append_right _ hx, ?_⟩
      by_cases hsk : ∀ y, ¬ E x y
      · exact Or.inl hsk
      · push Not at hsk
        obtain ⟨y, hy⟩ := hsk
        refine Or.inr ⟨y, hy, ?_⟩
        simp only [List.mem_append, not_or]
        exact hnoE x hx y hy
    obtain ⟨n, hn⟩ := List.exists_mem_of_ne_nil _ hne'
    have honly : ∀ x ∈ eh', x = n := by
      intro x hx
      have hn' := hne_eh n hn
      exact eq_of_length_le_one hend hx hn'
    have hnextn : ∀ x ∈ next, x = n := fun x hx => honly x (hne_eh x hx)
    have hto : ∀ x ∈ P, TransGen E x n := by
      intro x hx
      obtain ⟨z, g1, g2, g3⟩ := reaches_head hr (P := P ++ next) (List.mem_append_left _ hx)
      have hz : z = n := honly z ((heh' z).2 ⟨g1, g2⟩)
      subst hz
      rcases g3 with rfl | g3
      · exact absurd hx (hdisj x hn)
      · exact g3
    have hfrom : ∀ y, Touched E y → y ∉ P ++ next → TransGen E n y := by
      intro y hy hyP
      obtain ⟨z, g1, g2, g3, g4⟩ := exists_ready hr hy hyP
      have hzn : z ∉ next := fun hc => g2 (List.mem_append_right _ hc)
      have hzP : z ∉ P := fun hc => g2 (List.mem_append_left _ hc)
      have hzp : ∃ p, E p z ∧ p ∉ P := by
        by_contra hc
        push Not at hc
        exact hzn ((hmem z).2 ⟨⟨g1, hzP⟩, hc⟩)
      obtain ⟨p, hp1, hp2⟩ := hzp
      have hpe : p ∈ eh' := (heh' p).2 ⟨g3 p hp1, Or.inr ⟨z, hp1, g2⟩⟩
      rw [honly p hpe] at hp1
      rcases g4 with rfl | g4
      · exact .single hp1
      · exact .head hp1 g4
    have hcurn : ∀ x ∈ r.cur, x ∈ P := fun x hx => hP ▸ List.mem_append_right _ hx
    have houtP : ∀ x ∈ r.out.flatten, x ∈ P := fun x hx => hP ▸ List.mem_append_left _ hx
    have hlast : ∀ x ∈ (P ++ next), ∀ y, Touched E y → y ∉ P ++ next → TransGen E x y := by
      intro x hx y hy hyP
      rcases List.mem_append.1 hx with h1 | h1
      · exact .trans (hto x h1) (hfrom y hy hyP)
      · rw [hnextn x h1]; exact hfrom y hy hyP
    refine ⟨_, next, hround, ⟨by rw [hP]; exact hmem, hsrt, hnd, ?_, Or.inl ⟨hend, rfl, rfl⟩, by rw [hP]; exact hflat, rfl⟩, hne'⟩
    refine ⟨by simpa only [hflat] using htopo', by simpa only [hflat] using hsub', by simpa only [hflat] using hdown',
      hsk', by simpa only [hflat] using hfr', heh'n, by simpa only [hflat] using heh', hsinkv,
      by simpa only [hflat] using hopenv, by simpa only [hflat] using hnd', by simpa only [hflat] using hord', ?_, ?_,
      by simpa only [hflat'] using hlast⟩
    · intro e he
      simp only [List.mem_append] at he
      rcases he with (he | he) | he
      · exact h.ne e he
      · split at he
        · simp at he
        · rename_i hc
          simp only [List.mem_singleton] at he
          subst he
          simpa using hc
      · split at he
        · simp at he
        · simp only [List.mem_singleton] at he
          subst he
          exact hne'
    · have hcur : ∀ f ∈ (if r.cur.isEmpty then [] else [r.cur]), f = r.cur := by
        intro f hf
        split at hf
        · simp at hf
        · simpa using hf
      have hnx : ∀ f ∈ (if next.isEmpty then [] else [next]), f = next := by
        intro f hf
        split at hf
        · simp at hf
        · simpa using hf
      have hpw : ∀ (c : Bool) (l : List Nat), (if c then [] else [l]).Pairwise
          (fun e f => ∀ x ∈ e, ∀ y ∈ f, TransGen E x y) := by
        intro c l; cases c <;> simp
      rw [List.append_assoc, List.pairwise_append, List.pairwise_append]
      refine ⟨h.sep, ⟨hpw _ _, hpw _ _, ?_⟩, ?_⟩
      · intro e he f hf x hx y hy
        rw [hcur e he] at hx
        rw [hnx f hf] at hy
        rw [hnextn y hy]
        exact hto x (hcurn x hx)
      · intro e he f hf x hx y hy
        have hxo : x ∈ r.out.flatten := List.mem_flatten.2 ⟨e, he, hx⟩
        rcases List.mem_append.1 hf with hf | hf
        · rw [hcur f hf] at hy
          refine h.barrier x hxo y (h.sub y (List.mem_append_right _ hy)) ?_
          intro hc
          have := h.nodup
          rw [List.nodup_append] at this
          exact this.2.2 y hc y hy rfl
        · rw [hnx f hf] at hy
          refine h.barrier x hxo y ((hmem y).1 hy).1.1 ?_
          intro hc
          exact hdisj y hy (houtP y hc)
  · rw [if_neg hend] at hround
    have hflat : r.out.flatten ++ (r.cur ++ next) = P ++ next := by rw [← List.append_assoc, hP]
    refine ⟨_, next, hround, ⟨by rw [hP]; exact hmem, hsrt, hnd, ?_, Or.inr ⟨hend, rfl, rfl⟩, by rw [hP]; exact hflat, rfl⟩, hne'⟩
    exact ⟨by simpa only [hflat] using htopo', by simpa only [hflat] using hsub', by simpa only [hflat] using hdown',
      hsk', by simpa only [hflat] using hfr', heh'n, by simpa only [hflat] using heh', hsinkv,
      by simpa only [hflat] using hopenv, by simpa only [hflat] using hnd', by simpa only [hflat] using hord',
      h.ne, h.sep, h.barrier⟩

theorem length_lt_of_nodup_subset {l l' : List Nat} (hn : l.Nodup) (hs : ∀ x ∈ l, x ∈ l') {a : Nat} (ha : a ∈ l')
    (hna : a ∉ l) : l.length < l'.length := by
  have := length_le_of_nodup_subset (l := a :: l) (l' := l') (List.nodup_cons.2 ⟨hna, hn⟩) (by
    intro x hx
    rcases List.mem_cons.1 hx with rfl | hx
    · exact ha
    · exact hs x hx)
  simp only [List.length_cons] at this
  omega

theorem RStep.shrink {E : Nat → Nat → Prop} {r r' : Graph.Rounds} {next : List Nat} (h : RInv E r)
    (hs : RStep E r next r') (hne : next ≠ []) : r'.topo.deps.length < r.topo.deps.length := by
  obtain ⟨n, hn⟩ := List.exists_mem_of_ne_nil _ hne
  have h1 := length_lt_of_nodup_subset (l := AMap.keys r'.topo.deps) (l' := AMap.keys r.topo.deps) hs.inv.topo.wf
    (by
      intro x hx
      rw [AMap.mem_keys_iff, hs.inv.topo.node] at hx
      rw [AMap.mem_keys_iff, h.topo.node]
      refine ⟨hx.1, fun hc => hx.2 ?_⟩
      rw [hs.flat]
      exact List.mem_append_left _ hc)
    (a := n) (by
      rw [AMap.mem_keys_iff, h.topo.node]
      exact ((hs.mem n).1 hn).1)
    (by
      rw [AMap.mem_keys_iff, hs.inv.topo.node]
      rintro ⟨_, hc⟩
      apply hc
      rw [hs.flat]
      exact List.mem_append_right _ hn)
  simpa [AMap.keys] using h1

theorem roundLoop_ok {E : Nat → Nat → Prop} {rank : Nat → Nat} (hr : ∀ p x, E p x → rank p < rank x)
    (fuel : Nat) (r : Graph.Rounds) (h : RInv E r) (hf : r.topo.deps.length < fuel) :
    ∃ r', Graph.roundLoop fuel r = .ok r' ∧ RInv E r' ∧ ∀ x, Touched E x → x ∈ r'.out.flatten ++ r'.cur := by
  induction fuel generalizing r with
  | zero => omega
  | succ fuel ih =>
    unfold Graph.roundLoop
    by_cases he : r.topo.isEmpty = true
    · rw [if_pos he]
      refine ⟨r, rfl, h, ?_⟩
      intro x hx
      by_contra hc
      exact (h.topo.isEmpty.1 he) x ⟨hx, hc⟩
    · rw [if_neg he]
      obtain ⟨r1, next, h1, h2, h3⟩ := round_ok hr h (fun hc => he (h.topo.isEmpty.2 hc))
      have := h2.shrink h h3
      obtain ⟨r', g1, g2⟩ := ih r1 h2.inv (by omega)
      refine ⟨r', ?_, g2⟩
      rw [h1]
      exact g1

/-- The epoch loop computes a function of the dependency relation alone. -/
theorem roundLoop_det {E : Nat → Nat → Prop} {rank : Nat → Nat} (hr : ∀ p x, E p x → rank p < rank x)
    (f1 f2 : Nat) (r1 r2 a b : Graph.Rounds) (h1 : RInv E r1) (h2 : RInv E r2) (ho : r1.out = r2.out)
    (hc : r1.cur = r2.cur) (e1 : Graph.roundLoop f1 r1 = .ok a) (e2 : Graph.roundLoop f2 r2 = .ok b) :
    a.out = b.out ∧ a.cur = b.cur := by
  induction f1 generalizing f2 r1 r2 with
  | zero => simp [Graph.roundLoop] at e1
  | succ f1 ih =>
    cases f2 with
    | zero => simp [Graph.roundLoop] at e2
    | succ f2 =>
      unfold Graph.roundLoop at e1 e2
      have hemp : (r1.topo.isEmpty = true) ↔ (r2.topo.isEmpty = true) := by
        rw [h1.topo.isEmpty, h2.topo.isEmpty, ho, hc]
      by_cases he : r1.topo.isEmpty = true
      · rw [if_pos he] at e1
        rw [if_pos (hemp.1 he)] at e2
        cases e1; cases e2
        exact ⟨ho, hc⟩
      · have he2 : ¬ r2.topo.isEmpty = true := fun hh => he (hemp.2 hh)
        rw [if_neg he] at e1
        rw [if_neg he2] at e2
        obtain ⟨a1, n1, x1, x2, x3⟩ := round_ok hr h1 (fun hh => he (h1.topo.isEmpty.2 hh))
        obtain ⟨b1, n2, y1, y2, y3⟩ := round_ok hr h2 (fun hh => he2 (h2.topo.isEmpty.2 hh))
        have hn : n1 = n2 := by
          have hp : n1.Perm n2 := by
            rw [List.perm_ext_iff_of_nodup x2.nd y2.nd]
            intro x
            rw [x2.mem, y2.mem, ho, hc]
          exact hp.eq_of_pairwise (fun a b _ _ => Nat.le_antisymm) x2.srt y2.srt
        subst hn
        have hfl : a1.out.flatten ++ a1.cur = b1.out.flatten ++ b1.cur := by
          rw [x2.flat, y2.flat, ho, hc]
        have hlen : a1.epochHeads.length = b1.epochHeads.length := by
          apply List.Perm.length_eq
          rw [List.perm_ext_iff_of_nodup x2.inv.ehn y2.inv.ehn]
          intro x
          rw [x2.inv.eh, y2.inv.eh, hfl]
        have hoc : a1.out = b1.out ∧ a1.cur = b1.cur := by
          rcases x2.ends with ⟨p1, p2, p3⟩ | ⟨p1, p2, p3⟩ <;> rcases y2.ends with ⟨q1, q2, q3⟩ | ⟨q1, q2, q3⟩
          · rw [p2, p3, q2, q3, ho, hc]; exact ⟨rfl, rfl⟩
          · exact absurd (hlen ▸ p1) q1
          · exact absurd (hlen ▸ q1) p1
          · rw [p2, p3, q2, q3, ho, hc]; exact ⟨rfl, rfl⟩
        rw [x1] at e1
        rw [y1] at e2
        exact ih f2 a1 b1 x2.inv y2.inv hoc.1 hoc.2 e1 e2

theorem rinv_start {g : Graph} {heads : List Nat} {s : Graph.Scan}
    (h1 : PInv s.topo (Touched (g.Edge heads)) (g.Edge heads))
    (h2 : ∀ x, AMap.get s.succs x ≠ none ↔ g.Anc heads x)
    (h3 : ∀ x y, y ∈ (AMap.get s.succs x).getD [] ↔ g.Edge heads x y) :
    RInv (g.Edge heads) { topo := s.topo, succs := s.succs, epochHeads := [], cur := [], out := [] } := by
  refine ⟨h1.congr (by simp), by simp, by simp, ?_, ?_, by simp, by simp, by simp, by simp, by simp, by simp, by simp,
    by simp, by simp⟩
  · rintro x (⟨p, hp⟩ | ⟨y, hy⟩)
    · exact (h2 x).2 hp.1
    · exact (h2 x).2 (.step hy.1 hy.2)
  · intro x _ y
    exact h3 x y

/-- The sorted digests, specified. -/
structure Sorted (g : Graph) (heads : List Nat) (out : List (List Nat)) : Prop where
  nodup : out.flatten.Nodup
  ne : ∀ e ∈ out, e ≠ []
  mem : ∀ x, x ∈ out.flatten ↔ Touched (g.Edge heads) x
  order : out.flatten.Pairwise (fun a b => ¬ TransGen (g.Edge heads) b a)
  sep : out.Pairwise (fun e f => ∀ x ∈ e, ∀ y ∈ f, TransGen (g.Edge heads) x y)

theorem edge_rank {g : Graph} {rank : Nat → Nat} (hr : ∀ p x, g.Pred p x → rank p < rank x) (heads : List Nat) :
    ∀ p x, g.Edge heads p x → rank p < rank x := fun p x h => hr p x h.2

theorem sortHashes_spec {g : Graph} (hc : g.Closed) (ha : g.Acyclic) {heads : List Nat} (hn : heads.Nodup)
    (hh : ∀ h ∈ heads, AMap.get g.preds h ≠ none) (hne : heads ≠ []) :
    ∃ out, g.sortHashes heads = .ok out ∧ out ≠ [] ∧
      (((∃ p x, g.Edge heads p x) ∧ Sorted g heads out) ∨ ((¬ ∃ p x, g.Edge heads p x) ∧ out = [heads])) := by
  obtain ⟨rank, hr⟩ := ha
  obtain ⟨s, h1, h2, h3, h4⟩ := scan_ok hc hn hh
  unfold Graph.sortHashes
  simp only [h1, bind, Except.bind]
  by_cases he : s.topo.isEmpty = true
  · rw [if_pos he]
    have : heads.isEmpty = false := by cases heads <;> simp_all
    rw [this]
    refine ⟨[heads], rfl, by simp, Or.inr ⟨?_, rfl⟩⟩
    rintro ⟨p, x, hx⟩
    exact (h2.isEmpty.1 he) x (Or.inl ⟨p, hx⟩)
  · rw [if_neg he]
    obtain ⟨r, g1, g2, g3⟩ := roundLoop_ok (edge_rank hr heads) (s.topo.deps.length + 1) _ (rinv_start h2 h3 h4) (by simp)
    simp only [g1]
    have hex : ∃ x, Touched (g.Edge heads) x := by
      by_contra hcon
      push Not at hcon
      exact he (h2.isEmpty.2 hcon)
    have hfl : (if r.cur.isEmpty then r.out else r.out ++ [r.cur]).flatten = r.out.flatten ++ r.cur := by
      cases hcur : r.cur <;> simp
    refine ⟨_, rfl, ?_, Or.inl ⟨?_, ?_, ?_, ?_, ?_, ?_⟩⟩
    · intro hcon
      obtain ⟨x, hx⟩ := hex
      have := g3 x hx
      rw [← hfl, hcon] at this
      simp at this
    · obtain ⟨x, ⟨p, hp⟩ | ⟨y, hy⟩⟩ := hex
      · exact ⟨p, x, hp⟩
      · exact ⟨x, y, hy⟩
    · rw [hfl]; exact g2.nodup
    · intro e hee
      split at hee
      · exact g2.ne e hee
      · rename_i hcur
        rcases List.mem_append.1 hee with h5 | h5
        · exact g2.ne e h5
        · simp only [List.mem_singleton] at h5
          subst h5
          simpa using hcur
    · intro x
      rw [hfl]
      exact ⟨g2.sub x, g3 x⟩
    · rw [hfl]; exact g2.order
    · split
      · exact g2.sep
      · rw [List.pairwise_append]
        refine ⟨g2.sep, by simp, ?_⟩
        intro e hee f hf x hx y hy
        simp only [List.mem_singleton] at hf
        subst hf
        refine g2.barrier x (List.mem_flatten.2 ⟨e, hee, hx⟩) y (g2.sub y (List.mem_append_right _ hy)) ?_
        intro hcon
        have := g2.nodup
        rw [List.nodup_append] at this
        exact this.2.2 y hcon y hy rfl

/-- The order only depends on the ancestor relation below the heads, except for the order in which several
operations without predecessors are listed when nothing else is known. -/
theorem sortHashes_det {g g' : Graph} (hc : g.Closed) (ha : g.Acyclic) (hc' : g'.Closed) {heads heads' : List Nat}
    (hn : heads.Nodup) (hn' : heads'.Nodup) (hh : ∀ h ∈ heads, AMap.get g.preds h ≠ none)
    (hh' : ∀ h ∈ heads', AMap.get g'.preds h ≠ none)
    (hE : ∀ p x, g.Edge heads p x ↔ g'.Edge heads' p x)
    (hhd : (∃ p x, g.Edge heads p x) ∨ heads = heads')
    {a b : List (List Nat)} (e1 : g.sortHashes heads = .ok a) (e2 : g'.sortHashes heads' = .ok b) : a = b := by
  obtain ⟨rank, hr⟩ := ha
  have hE' : g.Edge heads = g'.Edge heads' := funext fun p => funext fun x => propext (hE p x)
  obtain ⟨s, h1, h2, h3, h4⟩ := scan_ok hc hn hh
  obtain ⟨s', h1', h2', h3', h4'⟩ := scan_ok hc' hn' hh'
  unfold Graph.sortHashes at e1 e2
  simp only [h1, bind, Except.bind] at e1
  simp only [h1', bind, Except.bind] at e2
  have hemp : s.topo.isEmpty = true ↔ s'.topo.isEmpty = true := by
    rw [h2.isEmpty, h2'.isEmpty, hE']
  by_cases he : s.topo.isEmpty = true
  · have hno : ¬ ∃ p x, g.Edge heads p x := by
      rintro ⟨p, x, hx⟩
      exact (h2.isEmpty.1 he) x (Or.inl ⟨p, hx⟩)
    rcases hhd with hd | hd
    · exact absurd hd hno
    · rw [if_pos he] at e1
      rw [if_pos (hemp.1 he)] at e2
      subst hd
      rw [e1] at e2
      cases e2; rfl
  · rw [if_neg he] at e1
    rw [if_neg (fun hh => he (hemp.2 hh))] at e2
    have hi := rinv_start h2 h3 h4
    have hi' := rinv_start h2' h3' h4'
    rw [← hE'] at hi'
    cases hl : Graph.roundLoop (s.topo.deps.length + 1)
        { topo := s.topo, succs := s.succs, epochHeads := [], cur := [], out := [] } with
    | error e => rw [hl] at e1; simp at e1
    | ok r =>
      cases hl' : Graph.roundLoop (s'.topo.deps.length + 1)
          { topo := s'.topo, succs := s'.succs, epochHeads := [], cur := [], out := [] } with
      | error e => rw [hl'] at e2; simp at e2
      | ok r' =>
        obtain ⟨x1, x2⟩ := roundLoop_det (edge_rank hr heads) _ _ _ _ _ _ hi hi' rfl rfl hl hl'
        rw [hl] at e1
        rw [hl'] at e2
        simp only [pure, Except.pure, Except.ok.injEq] at e1 e2
        rw [← e1, ← e2, x1, x2]

end Verif.Cgka
