import Verif.Group.TransLemmas

/-! # Helper lemmas: `individual_ids` -/

namespace Verif.Group

variable {W : World} {a0 : Agent}

theorem mem_delegates {h : Group} (ht : AMap.WF h.members) {b : Agent} :
    b ∈ ((AMap.values h.members).flatten.map Dlg.delegate).reverse ↔ ∃ m d, h.MemberBy m d ∧ d.delegate = b := by
  simp only [List.mem_reverse, List.mem_map, List.mem_flatten, AMap.values, Group.MemberBy]
  constructor
  · rintro ⟨d, ⟨ds, ⟨e, he, rfl⟩, hd⟩, rfl⟩
    exact ⟨e.1, d, ⟨e.2, AMap.get_of_mem ht he, hd⟩, rfl⟩
  · rintro ⟨m, d, ⟨ds, hds, hd⟩, rfl⟩
    exact ⟨d, ⟨ds, ⟨(m, ds), AMap.mem_of_get hds, rfl⟩, hd⟩, rfl⟩

/-- Number of delegations in the member list of a group. -/
def msize (h : Group) : Nat := (h.members.map (fun m => m.2.length)).sum

theorem delegates_length (h : Group) : ((AMap.values h.members).flatten.map Dlg.delegate).reverse.length = msize h := by
  simp only [List.length_reverse, List.length_map, List.length_flatten, AMap.values, List.map_map, msize]
  rfl

/-- Bound on the turns still to come. -/
def wpot (W : World) (stack : List Agent) (seen : List Id) : Nat :=
  stack.length + ((W.filter (fun p => decide (p.1 ∉ seen))).map (fun p => msize p.2)).sum

theorem wsum_drop (W : World) (seen : List Id) (i : Id) :
    ((W.filter (fun p => decide (p.1 ∉ i :: seen))).map (fun p => msize p.2)).sum ≤
      ((W.filter (fun p => decide (p.1 ∉ seen))).map (fun p => msize p.2)).sum := by
  induction W with
  | nil => simp
  | cons p W ih =>
    simp only [List.filter_cons]
    by_cases h1 : p.1 ∈ seen
    · simp only [h1, List.mem_cons, or_true, not_true_eq_false, decide_false, Bool.false_eq_true, if_false]
      simpa using ih
    · by_cases h2 : p.1 = i
      · simp only [h2, List.mem_cons, true_or, not_true_eq_false, decide_false, Bool.false_eq_true, if_false]
        have : ((W.filter (fun p => decide (p.1 ∉ seen))).map (fun p => msize p.2)).sum ≤
            (((if decide (i ∉ seen) = true then p :: W.filter (fun p => decide (p.1 ∉ seen)) else
              W.filter (fun p => decide (p.1 ∉ seen)))).map (fun p => msize p.2)).sum := by
          split
          · simp
          · exact Nat.le_refl _
        exact Nat.le_trans (by simpa using ih) this
      · simp only [h1, h2, List.mem_cons, or_self, not_false_eq_true, decide_true, if_true, List.map_cons, List.sum_cons]
        have := ih
        simp only [List.mem_cons] at this
        omega

theorem wsum_get {seen : List Id} {i : Id} (hi : i ∉ seen) {h : Group} (hw : AMap.get W i = some h) :
    ((W.filter (fun p => decide (p.1 ∉ i :: seen))).map (fun p => msize p.2)).sum + msize h ≤
      ((W.filter (fun p => decide (p.1 ∉ seen))).map (fun p => msize p.2)).sum := by
  induction W with
  | nil => cases hw
  | cons p W ih =>
    rw [AMap.get_cons] at hw
    by_cases h2 : p.1 = i
    · rw [if_pos h2] at hw
      cases hw
      have := wsum_drop W seen i
      have hp : p.1 ∉ seen := by rw [h2]; exact hi
      rw [List.filter_cons_of_neg (by simp [h2]), List.filter_cons_of_pos (by simpa using hp), List.map_cons, List.sum_cons]
      omega
    · rw [if_neg h2] at hw
      have := ih hw
      simp only [List.filter_cons, List.mem_cons, h2, false_or] at this ⊢
      split
      · simp only [List.map_cons, List.sum_cons]; omega
      · exact this

/-- `P`: agents processed. -/
structure WInv (W : World) (a0 : Agent) (P stack : List Agent) (seen ids : List Id) : Prop where
  walk : ∀ b, b ∈ P ∨ b ∈ stack → Walk W a0 b
  root : a0 ∈ P ∨ a0 ∈ stack
  seen : ∀ i, i ∈ seen ↔ ∃ b ∈ P, b.id = i
  ids : ∀ i, i ∈ ids ↔ ∃ b ∈ P, b.isMembered = false ∧ b.id = i
  closed : ∀ {b h m d}, b ∈ P → b.isMembered = true → AMap.get W b.id = some h → h.MemberBy m d →
    d.delegate ∈ P ∨ d.delegate ∈ stack

theorem walk_run (hT : ∀ i h, AMap.get W i = some h → AMap.WF h.members)
    (hK : ∀ b c, Walk W a0 b → Walk W a0 c → b.id = c.id → b = c) {held : List Id} (n : Nat) {P stack : List Agent}
    {seen ids : List Id} {out : List Id} (hi : WInv W a0 P stack seen ids) (hp : wpot W stack seen < n)
    (hok : individualIds W held n stack seen ids = .ok out) : ∃ P' seen', WInv W a0 P' [] seen' out := by
  induction n generalizing P stack seen ids with
  | zero => omega
  | succ n ih =>
    cases stack with
    | nil =>
      simp only [individualIds, Except.ok.injEq] at hok
      subst hok
      exact ⟨P, seen, hi⟩
    | cons a stack =>
      unfold individualIds at hok
      by_cases hs : a.id ∈ seen
      · simp only [hs, if_true] at hok
        obtain ⟨b, hb, hbe⟩ := (hi.seen _).1 hs
        have hab : a = b := hK a b (hi.walk a (by simp)) (hi.walk b (Or.inl hb)) hbe.symm
        subst hab
        have hdrop : ∀ c, c ∈ P ∨ c ∈ a :: stack → c ∈ P ∨ c ∈ stack := by
          rintro c (h | h)
          · exact Or.inl h
          · rcases List.mem_cons.1 h with rfl | h
            · exact Or.inl hb
            · exact Or.inr h
        refine ih ⟨?_, hdrop _ hi.root, hi.seen, hi.ids, fun h1 h2 h3 h4 => hdrop _ (hi.closed h1 h2 h3 h4)⟩ ?_ hok
        · rintro c (h | h)
          · exact hi.walk c (Or.inl h)
          · exact hi.walk c (Or.inr (List.mem_cons_of_mem _ h))
        · simp only [wpot, List.length_cons] at hp ⊢; omega
      · simp only [hs, if_false] at hok
        have hwa := hi.walk a (by simp)
        have hmv : ∀ l c, c ∈ P ∨ c ∈ a :: stack → c ∈ a :: P ∨ c ∈ l ++ stack := by
          rintro l c (h | h)
          · exact Or.inl (List.mem_cons_of_mem _ h)
          · rcases List.mem_cons.1 h with rfl | h
            · exact Or.inl (by simp)
            · exact Or.inr (List.mem_append.2 (Or.inr h))
        have hseen : ∀ i, i ∈ a.id :: seen ↔ ∃ b ∈ a :: P, b.id = i := by
          intro i
          simp only [List.mem_cons, hi.seen]
          constructor
          · rintro (rfl | ⟨b, hb, rfl⟩)
            · exact ⟨a, Or.inl rfl, rfl⟩
            · exact ⟨b, Or.inr hb, rfl⟩
          · rintro ⟨b, rfl | hb, rfl⟩
            · exact Or.inl rfl
            · exact Or.inr ⟨b, hb, rfl⟩
        -- a general step: `l` are the agents pushed
        have hstep : ∀ (l : List Agent) (ids' : List Id), (∀ b ∈ l, Walk W a0 b) →
            (∀ i, i ∈ ids' ↔ ∃ b ∈ a :: P, b.isMembered = false ∧ b.id = i) →
            (∀ h m d, a.isMembered = true → AMap.get W a.id = some h → h.MemberBy m d → d.delegate ∈ l) →
            WInv W a0 (a :: P) (l ++ stack) (a.id :: seen) ids' := by
          intro l ids' h1 h2 h3
          refine ⟨?_, hmv l _ hi.root, hseen, h2, ?_⟩
          · rintro c (h | h)
            · rcases List.mem_cons.1 h with rfl | h
              · exact hwa
              · exact hi.walk c (Or.inl h)
            · rcases List.mem_append.1 h with h | h
              · exact h1 c h
              · exact hi.walk c (Or.inr (List.mem_cons_of_mem _ h))
          · intro b h m d hb hm hw hd
            rcases List.mem_cons.1 hb with rfl | hb
            · exact Or.inr (List.mem_append.2 (Or.inl (h3 h m d hm hw hd)))
            · exact hmv l _ (hi.closed hb hm hw hd)
        have hids : a.isMembered = true → ∀ i, i ∈ ids ↔ ∃ b ∈ a :: P, b.isMembered = false ∧ b.id = i := by
          intro hm i
          rw [hi.ids]
          constructor
          · rintro ⟨b, hb, r⟩; exact ⟨b, List.mem_cons_of_mem _ hb, r⟩
          · rintro ⟨b, hb, r1, r2⟩
            rcases List.mem_cons.1 hb with rfl | hb
            · rw [hm] at r1; cases r1
            · exact ⟨b, hb, r1, r2⟩
        cases hm : a.isMembered with
        | false =>
          simp only [hm, Bool.false_eq_true, if_false] at hok
          have := hstep [] (sinsert ids a.id) (by simp) (by
            intro i
            rw [mem_sinsert, hi.ids]
            constructor
            · rintro (rfl | ⟨b, hb, r⟩)
              · exact ⟨a, by simp, hm, rfl⟩
              · exact ⟨b, List.mem_cons_of_mem _ hb, r⟩
            · rintro ⟨b, hb, r1, r2⟩
              rcases List.mem_cons.1 hb with rfl | hb
              · exact Or.inl r2.symm
              · exact Or.inr ⟨b, hb, r1, r2⟩) (fun h m d h' => by rw [hm] at h'; cases h')
          refine ih this ?_ hok
          have := wsum_drop W seen a.id
          simp only [wpot, List.length_cons, List.nil_append] at hp ⊢
          omega
        | true =>
          simp only [hm, if_true] at hok
          by_cases hh : a.id ∈ held
          · simp [hh] at hok
          · simp only [hh, if_false] at hok
            cases hw : AMap.get W a.id with
            | none =>
              simp only [hw] at hok
              have := hstep [] ids (by simp) (hids hm) (fun h m d _ h' => by rw [hw] at h'; cases h')
              refine ih this ?_ hok
              have := wsum_drop W seen a.id
              simp only [wpot, List.length_cons, List.nil_append] at hp ⊢
              omega
            | some h =>
              simp only [hw] at hok
              have := hstep (((AMap.values h.members).flatten.map Dlg.delegate).reverse) ids (by
                intro b hb
                obtain ⟨m, d, hd, rfl⟩ := (mem_delegates (hT _ _ hw)).1 hb
                exact .step hwa hm hw hd) (hids hm) (by
                intro h' m d _ hw' hd
                rw [hw] at hw'
                cases hw'
                exact (mem_delegates (hT _ _ hw)).2 ⟨m, d, hd, rfl⟩)
              refine ih this ?_ hok
              have h1 := wsum_get hs hw
              have h2 := delegates_length h
              simp only [wpot, List.length_cons, List.length_append] at hp ⊢
              omega

theorem wsum_nil (W : World) : ((W.filter (fun p => decide (p.1 ∉ ([] : List Id)))).map (fun p => msize p.2)).sum = World.size W := by
  have : W.filter (fun p => decide (p.1 ∉ ([] : List Id))) = W := by simp
  rw [this]
  rfl

/-- `individual_ids` returns exactly the ids of the individuals reached. -/
theorem individual_spec (hT : ∀ i h, AMap.get W i = some h → AMap.WF h.members)
    (hK : ∀ b c, Walk W a0 b → Walk W a0 c → b.id = c.id → b = c) {held : List Id} {out : List Id}
    (hok : a0.individualIds W held = .ok out) (i : Id) :
    i ∈ out ↔ ∃ b, Walk W a0 b ∧ b.isMembered = false ∧ b.id = i := by
  have h0 : WInv W a0 [] [a0] [] [] :=
    ⟨by rintro b (h | h); · cases h
        · rw [List.mem_singleton] at h; subst h; exact .refl, Or.inr (by simp), by simp, by simp, by simp⟩
  obtain ⟨P, seen, hi⟩ := walk_run hT hK (W.size + 2) h0 (by
    simp only [wpot, wsum_nil, List.length_cons, List.length_nil]; omega) hok
  have hall : ∀ b, Walk W a0 b → b ∈ P := by
    intro b hb
    induction hb with
    | refl => exact hi.root.resolve_right (by simp)
    | step _ hm hw hd ih => exact (hi.closed ih hm hw hd).resolve_right (by simp)
  rw [hi.ids]
  constructor
  · rintro ⟨b, hb, r⟩; exact ⟨b, hi.walk b (Or.inl hb), r⟩
  · rintro ⟨b, hb, r⟩; exact ⟨b, hall b hb, r⟩

theorem individual_ok (n : Nat) (stack : List Agent) (seen ids : List Id) :
    ∃ out, individualIds W [] n stack seen ids = .ok out := by
  induction n generalizing stack seen ids with
  | zero => exact ⟨_, rfl⟩
  | succ n ih =>
    cases stack with
    | nil => exact ⟨_, rfl⟩
    | cons a stack =>
      unfold individualIds
      split
      · exact ih _ _ _
      · simp only [List.not_mem_nil, if_false]
        split
        · split
          · exact ih _ _ _
          · exact ih _ _ _
        · exact ih _ _ _

end Verif.Group
