import Verif.Cipher.StoreLemmas

/-! # The loop of causal decryption -/

namespace Verif.Cipher

variable {get : Ref → Got} {opened : Ct → Key → Opened}

theorem visitAncestors_ok (hne : ∀ r, get r ≠ .error) (self : Ref) : ∀ (anc : AMap Ref Key) (p : Progress) (stack : List (Ct × Key)),
    ∃ next stack', visitAncestors get self anc (p, stack) = ({ p with next := next }, stack') ∧
      (∀ r k, AMap.get next r = some k → AMap.get p.next r = some k ∨ ((r, k) ∈ anc ∧ get r = .absent)) ∧
      (∀ r, AMap.contains p.next r = true → AMap.contains next r = true) ∧
      (∀ r k, (r, k) ∈ anc → get r = .absent → AMap.contains next r = true) ∧
      (∀ c k, (c, k) ∈ stack' ↔ (c, k) ∈ stack ∨ ∃ r, (r, k) ∈ anc ∧ get r = .found c) := by
  intro anc
  induction anc with
  | nil => intro p stack; exact ⟨p.next, stack, rfl, fun r k h => .inl h, fun r h => h, by simp, by simp⟩
  | cons a anc ih =>
    intro p stack
    obtain ⟨r0, k0⟩ := a
    unfold visitAncestors
    cases hg : get r0 with
    | error => exact absurd hg (hne r0)
    | absent =>
      simp only
      obtain ⟨next, stack', h1, h2, h3, h4, h5⟩ := ih { p with next := AMap.insert p.next r0 k0 } stack
      refine ⟨next, stack', h1, fun r k hr => ?_, fun r hr => h3 r ?_, fun r k hr ha => ?_, fun c k => ?_⟩
      · rcases h2 r k hr with h | h
        · simp only [AMap.get_insert] at h
          split at h
          · rename_i he
            cases h
            subst he
            exact .inr ⟨by simp, hg⟩
          · exact .inl h
        · exact .inr ⟨by simp [h.1], h.2⟩
      · unfold AMap.contains at hr ⊢
        rw [AMap.get_insert]
        split
        · rfl
        · exact hr
      · rcases List.mem_cons.1 hr with he | hr
        · cases he
          exact h3 _ (by simp [AMap.contains])
        · exact h4 r k hr ha
      · rw [h5]
        constructor
        · rintro (h | ⟨r, h6, h7⟩)
          · exact .inl h
          · exact .inr ⟨r, by simp [h6], h7⟩
        · rintro (h | ⟨r, h6, h7⟩)
          · exact .inl h
          · rcases List.mem_cons.1 h6 with he | h6
            · cases he; rw [hg] at h7; cases h7
            · exact .inr ⟨r, h6, h7⟩
    | found c0 =>
      simp only
      obtain ⟨next, stack', h1, h2, h3, h4, h5⟩ := ih p ((c0, k0) :: stack)
      refine ⟨next, stack', h1, fun r k hr => ?_, h3, fun r k hr ha => ?_, fun c k => ?_⟩
      · rcases h2 r k hr with h | h
        · exact .inl h
        · exact .inr ⟨by simp [h.1], h.2⟩
      · rcases List.mem_cons.1 hr with he | hr
        · cases he; rw [hg] at ha; cases ha
        · exact h4 r k hr ha
      · rw [h5]
        constructor
        · rintro (h | ⟨r, h6, h7⟩)
          · rcases List.mem_cons.1 h with he | h
            · cases he; exact .inr ⟨r0, by simp, hg⟩
            · exact .inl h
          · exact .inr ⟨r, by simp [h6], h7⟩
        · rintro (h | ⟨r, h6, h7⟩)
          · exact .inl (by simp [h])
          · rcases List.mem_cons.1 h6 with he | h6
            · cases he; rw [hg] at h7; cases h7; exact .inl (by simp)
            · exact .inr ⟨r, h6, h7⟩

/-- What has become of something to be decrypted. -/
def Settled (opened : Ct → Key → Opened) (p : Progress) (stack : List (Ct × Key)) (c : Ct) (k : Key) : Prop :=
  (c, k) ∈ stack ∨ c.ref ∈ p.seen ∨ (AMap.contains p.cannot c.ref = true ∧ ∀ e, opened c k ≠ .envelope e)

/-- What has become of an ancestor. -/
def Handled (get : Ref → Got) (opened : Ct → Key → Opened) (p : Progress) (stack : List (Ct × Key)) (r : Ref) (k : Key) : Prop :=
  (get r = .absent → AMap.contains p.next r = true) ∧ ∀ c, get r = .found c → Settled opened p stack c k

/-- Invariant of the loop. -/
structure CInv (get : Ref → Got) (opened : Ct → Key → Opened) (start : List (Ct × Key)) (p : Progress) (stack : List (Ct × Key)) :
    Prop where
  reach : ∀ c k, (c, k) ∈ stack → Reach get opened start c k
  begun : ∀ c k, (c, k) ∈ start → Settled opened p stack c k
  done : ∀ r t, (r, t) ∈ p.complete → ∃ c k e, Reach get opened start c k ∧ c.ref = r ∧ opened c k = .envelope e ∧
    e.plaintext = t ∧ AMap.get p.keys r = some k ∧ ∀ r' k', (r', k') ∈ e.ancestors → Handled get opened p stack r' k'
  seen : ∀ r, r ∈ p.seen ↔ ∃ t, (r, t) ∈ p.complete
  once : (p.complete.map Prod.fst).Nodup
  cannot : ∀ r, AMap.contains p.cannot r = true → ∃ c k, Reach get opened start c k ∧ c.ref = r ∧ ∀ e, opened c k ≠ .envelope e
  next : ∀ r k', AMap.get p.next r = some k' → get r = .absent ∧
    ∃ c k e, Reach get opened start c k ∧ opened c k = .envelope e ∧ (r, k') ∈ e.ancestors

theorem cinv_start (start : List (Ct × Key)) : CInv get opened start Progress.new start :=
  ⟨fun c k h => .start h, fun c k h => .inl h, by simp [Progress.new], by simp [Progress.new], by simp [Progress.new],
    by simp [Progress.new, AMap.contains], by simp [Progress.new]⟩

theorem mem_contains_insert {m : AMap Ref Reason} {r r' : Ref} {x : Reason} :
    AMap.contains (AMap.insert m r x) r' = true ↔ r' = r ∨ AMap.contains m r' = true := by
  unfold AMap.contains
  rw [AMap.get_insert]
  split <;> simp_all

/-- The progress after an unsuccessful decryption. -/
abbrev failedAt (p : Progress) (r : Ref) (k : Key) (x : Reason) : Progress :=
  ⟨p.complete, AMap.insert p.keys r k, p.next, AMap.insert p.cannot r x, sremove (sinsert p.seen r) r⟩

/-- The progress after a successful decryption. -/
abbrev openedAt (p : Progress) (r : Ref) (k : Key) (next : AMap Ref Key) (t : Nat) : Progress :=
  ⟨p.complete ++ [(r, t)], AMap.insert p.keys r k, next, p.cannot, sinsert p.seen r⟩

theorem CInv.skip {start : List (Ct × Key)} {p : Progress} {c : Ct} {k : Key} {stack : List (Ct × Key)}
    (h : CInv get opened start p ((c, k) :: stack)) (hs : c.ref ∈ p.seen) : CInv get opened start p stack := by
  have hset : ∀ c' k', Settled opened p ((c, k) :: stack) c' k' → Settled opened p stack c' k' := by
    rintro c' k' (h1 | h1)
    · rcases List.mem_cons.1 h1 with he | h1
      · cases he; exact .inr (.inl hs)
      · exact .inl h1
    · exact .inr h1
  refine ⟨fun c' k' hc => h.reach c' k' (by simp [hc]), fun c' k' hc => hset _ _ (h.begun c' k' hc), fun r t hr => ?_, h.seen,
    h.once, h.cannot, h.next⟩
  obtain ⟨c', k', e, h1, h2, h3, h4, h5, h6⟩ := h.done r t hr
  exact ⟨c', k', e, h1, h2, h3, h4, h5, fun r' k'' ha => ⟨(h6 r' k'' ha).1, fun c'' hc => hset _ _ ((h6 r' k'' ha).2 c'' hc)⟩⟩

theorem sremove_sinsert {l : List Ref} {r : Ref} (h : r ∉ l) : ∀ x, x ∈ sremove (sinsert l r) r ↔ x ∈ l := by
  intro x
  rw [mem_sremove, mem_sinsert]
  constructor
  · rintro ⟨h1, h2 | h2⟩
    · exact absurd h2 h1
    · exact h2
  · intro hx
    exact ⟨fun he => h (he ▸ hx), .inr hx⟩

theorem CInv.fail {start : List (Ct × Key)} {p : Progress} {c : Ct} {k : Key} {stack : List (Ct × Key)}
    (h : CInv get opened start p ((c, k) :: stack)) (hs : c.ref ∉ p.seen) (ho : ∀ e, opened c k ≠ .envelope e) (x : Reason) :
    CInv get opened start (failedAt p c.ref k x) stack := by
  have hseen := sremove_sinsert hs
  have hset : ∀ c' k', Settled opened p ((c, k) :: stack) c' k' → Settled opened (failedAt p c.ref k x) stack c' k' := by
    rintro c' k' (h1 | h1 | h1)
    · rcases List.mem_cons.1 h1 with he | h1
      · cases he
        exact .inr (.inr ⟨mem_contains_insert.2 (.inl rfl), ho⟩)
      · exact .inl h1
    · exact .inr (.inl ((hseen _).2 h1))
    · exact .inr (.inr ⟨mem_contains_insert.2 (.inr h1.1), h1.2⟩)
  refine ⟨fun c' k' hc => h.reach c' k' (by simp [hc]), fun c' k' hc => hset _ _ (h.begun c' k' hc), fun r t hr => ?_,
    fun r => (hseen r).trans (h.seen r), h.once, fun r hr => ?_, h.next⟩
  · obtain ⟨c', k', e, h1, h2, h3, h4, h5, h6⟩ := h.done r t hr
    have hne : r ≠ c.ref := fun he => hs (he ▸ (h.seen r).2 ⟨t, hr⟩)
    exact ⟨c', k', e, h1, h2, h3, h4, by simp only; rw [AMap.get_insert_ne _ _ hne]; exact h5,
      fun r' k'' ha => ⟨(h6 r' k'' ha).1, fun c'' hc => hset _ _ ((h6 r' k'' ha).2 c'' hc)⟩⟩
  · rcases mem_contains_insert.1 hr with rfl | hr
    · exact ⟨c, k, h.reach c k (by simp), rfl, ho⟩
    · exact h.cannot r hr

theorem CInv.open (hne : ∀ r, get r ≠ .error) {start : List (Ct × Key)} {p : Progress} {c : Ct} {k : Key} {stack : List (Ct × Key)}
    (h : CInv get opened start p ((c, k) :: stack)) (hs : c.ref ∉ p.seen) {e : Envelope} (ho : opened c k = .envelope e) :
    ∃ p' stack', visit get opened c k p stack = (p', stack') ∧ CInv get opened start p' stack' ∧
      ∀ r, r ∈ p'.seen ↔ r = c.ref ∨ r ∈ p.seen := by
  obtain ⟨next, stack', h1, h2, h3, h4, h5⟩ := visitAncestors_ok hne c.ref e.ancestors
    { p with seen := sinsert p.seen c.ref, keys := AMap.insert p.keys c.ref k } stack
  refine ⟨openedAt p c.ref k next e.plaintext, stack', ?_, ?_, fun r => mem_sinsert _ _ _⟩
  · unfold visit
    rw [if_neg hs]
    simp only [ho, h1]
  have hreach : Reach get opened start c k := h.reach c k (by simp)
  have hset : ∀ c' k', Settled opened p ((c, k) :: stack) c' k' → Settled opened (openedAt p c.ref k next e.plaintext) stack' c' k' := by
    rintro c' k' (h6 | h6 | h6)
    · rcases List.mem_cons.1 h6 with he | h6
      · cases he; exact .inr (.inl ((mem_sinsert _ _ _).2 (.inl rfl)))
      · exact .inl ((h5 _ _).2 (.inl h6))
    · exact .inr (.inl ((mem_sinsert _ _ _).2 (.inr h6)))
    · exact .inr (.inr h6)
  refine ⟨fun c' k' hc => ?_, fun c' k' hc => hset _ _ (h.begun c' k' hc), fun r t hr => ?_, fun r => ?_, ?_, h.cannot,
    fun r k' hr => ?_⟩
  · rcases (h5 c' k').1 hc with h6 | ⟨r, h6, h7⟩
    · exact h.reach c' k' (by simp [h6])
    · exact .step hreach ho h6 h7
  · rcases List.mem_append.1 hr with hr | hr
    · obtain ⟨c', k', e', g1, g2, g3, g4, g5, g6⟩ := h.done r t hr
      have hner : r ≠ c.ref := fun he => hs (he ▸ (h.seen r).2 ⟨t, hr⟩)
      exact ⟨c', k', e', g1, g2, g3, g4, by simp only; rw [AMap.get_insert_ne _ _ hner]; exact g5,
        fun r' k'' ha => ⟨fun hab => h3 r' ((g6 r' k'' ha).1 hab), fun c'' hc => hset _ _ ((g6 r' k'' ha).2 c'' hc)⟩⟩
    · simp only [List.mem_singleton, Prod.mk.injEq] at hr
      obtain ⟨rfl, rfl⟩ := hr
      exact ⟨c, k, e, hreach, rfl, ho, rfl, by simp, fun r' k' ha =>
        ⟨fun hab => h4 r' k' ha hab, fun c' hc => .inl ((h5 _ _).2 (.inr ⟨r', ha, hc⟩))⟩⟩
  · simp only [mem_sinsert, h.seen, List.mem_append, List.mem_singleton, Prod.mk.injEq]
    constructor
    · rintro (rfl | ⟨t, ht⟩)
      · exact ⟨_, .inr ⟨rfl, rfl⟩⟩
      · exact ⟨t, .inl ht⟩
    · rintro ⟨t, ht | ⟨ht, _⟩⟩
      · exact .inr ⟨t, ht⟩
      · exact .inl ht
  · simp only [List.map_append, List.map_cons, List.map_nil]
    refine List.nodup_append.2 ⟨h.once, by simp, fun a ha b hb => ?_⟩
    simp only [List.mem_singleton] at hb
    subst hb
    rintro rfl
    obtain ⟨⟨r, t⟩, h6, h7⟩ := List.mem_map.1 ha
    exact hs ((h.seen _).2 ⟨t, by rw [← h7]; exact h6⟩)
  · rcases h2 r k' hr with h6 | h6
    · exact h.next r k' h6
    · exact ⟨h6.2, c, k, e, hreach, ho, h6.1⟩

/-- Refs of `U` not seen yet. -/
def unseen (U : List Ref) (p : Progress) : Nat := (U.filter (fun r => decide (r ∉ p.seen))).length

theorem unseen_lt {U : List Ref} {p p' : Progress} {r : Ref} (hr : r ∈ U) (hs : r ∉ p.seen)
    (h : ∀ x, x ∈ p'.seen ↔ x = r ∨ x ∈ p.seen) : unseen U p' < unseen U p := by
  unfold unseen
  have key : ∀ (U : List Ref),
      (U.filter (fun x => decide (x ∉ p'.seen))).length ≤ (U.filter (fun x => decide (x ∉ p.seen))).length ∧
      (r ∈ U → (U.filter (fun x => decide (x ∉ p'.seen))).length < (U.filter (fun x => decide (x ∉ p.seen))).length) := by
    intro U
    induction U with
    | nil => exact ⟨Nat.le_refl _, by simp⟩
    | cons a U ih =>
      obtain ⟨ih1, ih2⟩ := ih
      by_cases h1 : a ∈ p.seen
      · have h2 : a ∈ p'.seen := (h a).2 (.inr h1)
        have hne : r ≠ a := fun he => hs (he ▸ h1)
        simp only [List.filter_cons, h1, h2, not_true_eq_false, decide_false, Bool.false_eq_true, if_false, List.mem_cons, hne,
          false_or]
        exact ⟨ih1, ih2⟩
      · by_cases h2 : a ∈ p'.seen
        · simp only [List.filter_cons, h1, h2, not_true_eq_false, not_false_eq_true, decide_false, decide_true,
            Bool.false_eq_true, if_false, if_true, List.length_cons, List.mem_cons]
          exact ⟨by omega, fun _ => by omega⟩
        · have hne : r ≠ a := fun he => h2 ((h a).2 (.inl he.symm))
          simp only [List.filter_cons, h1, h2, not_false_eq_true, decide_true, if_true, List.length_cons, List.mem_cons, hne,
            false_or]
          exact ⟨by omega, fun hx => by have := ih2 hx; omega⟩
  exact (key U).2 hr

theorem loop_terminates (hne : ∀ r, get r ≠ .error) {start : List (Ct × Key)} {U : List Ref}
    (hU : ∀ c k, Reach get opened start c k → c.ref ∈ U) : ∀ (m len : Nat) (p : Progress) (stack : List (Ct × Key)),
    unseen U p ≤ m → stack.length ≤ len → CInv get opened start p stack →
    ∃ n p', loop get opened n p stack = some p' ∧ CInv get opened start p' [] := by
  intro m
  induction m using Nat.strongRecOn with
  | _ m ihm =>
    intro len
    induction len with
    | zero =>
      intro p stack _ hl h
      have : stack = [] := List.length_eq_zero_iff.1 (by omega)
      subst this
      exact ⟨0, p, rfl, h⟩
    | succ len ihl =>
      intro p stack hm hl h
      cases stack with
      | nil => exact ⟨0, p, rfl, h⟩
      | cons x stack =>
        obtain ⟨c, k⟩ := x
        simp only [List.length_cons] at hl
        by_cases hs : c.ref ∈ p.seen
        · obtain ⟨n, p', h1, h2⟩ := ihl p stack hm (by omega) (h.skip hs)
          refine ⟨n + 1, p', ?_, h2⟩
          unfold loop
          simp only [visit, hs, if_true]
          exact h1
        · cases ho : opened c k with
          | failed =>
            obtain ⟨n, p', h1, h2⟩ := ihl _ stack (by
              refine Nat.le_trans (Nat.le_of_eq ?_) hm
              unfold unseen
              simp only [sremove_sinsert hs]) (by omega) (h.fail hs (by simp [ho]) (.decryption k))
            refine ⟨n + 1, p', ?_, h2⟩
            unfold loop
            simp only [visit, hs, if_false, ho]
            exact h1
          | garbage =>
            obtain ⟨n, p', h1, h2⟩ := ihl _ stack (by
              refine Nat.le_trans (Nat.le_of_eq ?_) hm
              unfold unseen
              simp only [sremove_sinsert hs]) (by omega) (h.fail hs (by simp [ho]) .deserialization)
            refine ⟨n + 1, p', ?_, h2⟩
            unfold loop
            simp only [visit, hs, if_false, ho]
            exact h1
          | envelope e =>
            obtain ⟨p1, stack1, h1, h2, h3⟩ := h.open hne hs ho
            have hlt := unseen_lt (hU c k (h.reach c k (by simp))) hs h3
            obtain ⟨n, p', h4, h5⟩ := ihm (unseen U p1) (by omega) stack1.length p1 stack1 (Nat.le_refl _) (Nat.le_refl _) h2
            refine ⟨n + 1, p', ?_, h5⟩
            unfold loop
            simp only [h1]
            exact h4

theorem loop_mono : ∀ (n : Nat) {p p' : Progress} {stack : List (Ct × Key)}, loop get opened n p stack = some p' →
    ∀ m, n ≤ m → loop get opened m p stack = some p' := by
  intro n
  induction n with
  | zero =>
    intro p p' stack h m _
    cases stack with
    | nil => cases m <;> exact h
    | cons => cases h
  | succ n ih =>
    intro p p' stack h m hm
    cases stack with
    | nil => cases m <;> exact h
    | cons x stack =>
      obtain ⟨m, rfl⟩ : ∃ m', m = m' + 1 := ⟨m - 1, by omega⟩
      exact ih h m (by omega)

theorem loop_det {n m : Nat} {p p1 p2 : Progress} {stack : List (Ct × Key)} (h1 : loop get opened n p stack = some p1)
    (h2 : loop get opened m p stack = some p2) : p1 = p2 :=
  Option.some.inj ((loop_mono n h1 _ (Nat.le_max_left n m)).symm.trans (loop_mono m h2 _ (Nat.le_max_right n m)))

theorem reach_ref {start : List (Ct × Key)} (hr : Reliable get) {rs : List Ref} (hrs : ∀ r c, get r = .found c → r ∈ rs) {c : Ct}
    {k : Key} (h : Reach get opened start c k) : c.ref ∈ rs ++ start.map (fun x => x.1.ref) := by
  cases h with
  | start h => exact List.mem_append.2 (.inr (List.mem_map.2 ⟨_, h, rfl⟩))
  | step _ _ _ hg => rw [hr.own _ _ hg]; exact List.mem_append.2 (.inl (hrs _ _ hg))

theorem loop_result (hr : Reliable get) (start : List (Ct × Key)) :
    ∃ n p, loop get opened n Progress.new start = some p ∧ CInv get opened start p [] := by
  obtain ⟨rs, hrs⟩ := hr.finite
  exact loop_terminates hr.noError (fun c k h => reach_ref hr hrs h) _ _ _ _ (Nat.le_refl _) (Nat.le_refl _) (cinv_start start)

theorem CInv.settled {start : List (Ct × Key)} {p : Progress} (h : CInv get opened start p [])
    (ho : OneEnvelope get opened start) {c : Ct} {k : Key} (hc : Reach get opened start c k) :
    c.ref ∈ p.seen ∨ (AMap.contains p.cannot c.ref = true ∧ ∀ e, opened c k ≠ .envelope e) := by
  induction hc with
  | start hm =>
    rcases h.begun _ _ hm with h1 | h1
    · cases h1
    · exact h1
  | step hreach hop ha hg ih =>
    rename_i c' k0 k' e r
    rcases ih with h1 | ⟨_, h1⟩
    · obtain ⟨t, ht⟩ := (h.seen _).1 h1
      obtain ⟨c0, k1, e0, g1, g2, g3, _, _, g6⟩ := h.done _ _ ht
      have he := ho _ _ _ _ _ _ g1 hreach g2 g3 hop
      subst he
      rcases (g6 _ _ ha).2 _ hg with h2 | h2
      · cases h2
      · exact h2
    · exact absurd hop (h1 _)

/-! ## The in-memory store is reliable -/

/-- The part of the invariant that survives every call. -/
structure Weak (H : Ct → Nat) (s : Store) : Prop where
  store : ∀ d x, AMap.get s.store d = some x → H x.2 = d
  refs : ∀ r ds, AMap.get s.refsToDigests r = some ds → ∀ d ∈ ds, ∃ c, H c = d ∧ c.ref = r

theorem weak_run {H : Ct → Nat} {s : Store} (h : Weak H s) (cmd : Cmd) : Weak H (cmd.run H s) := by
  cases cmd with
  | insert c =>
    have hst : ∀ d x, AMap.get (AMap.insert s.store (H c) (c.size, c)) d = some x → H x.2 = d := by
      intro d x hx
      rw [AMap.get_insert] at hx
      split at hx
      · rename_i he; cases hx; exact he.symm
      · exact h.store d x hx
    simp only [Cmd.run, Store.insert]
    split
    · exact ⟨hst, h.refs⟩
    · refine ⟨hst, fun r ds hr d hd => ?_⟩
      simp only [AMap.get_insert] at hr
      split at hr
      · rename_i he
        cases hr
        rcases (mem_sinsert _ _ _).1 hd with rfl | hd
        · exact ⟨c, rfl, he.symm⟩
        · cases hg : AMap.get s.refsToDigests c.ref with
          | none => rw [hg] at hd; cases hd
          | some ds => rw [hg] at hd; rw [he]; exact h.refs _ _ hg d hd
      · exact h.refs r ds hr d hd
  | remove d =>
    have hst : ∀ d' x, AMap.get (AMap.erase s.store d) d' = some x → H x.2 = d' := by
      intro d' x hx
      rw [AMap.get_erase] at hx
      split at hx
      · cases hx
      · exact h.store d' x hx
    simp only [Cmd.run, Store.remove]
    split
    · exact h
    · rename_i c _
      split
      · exact ⟨hst, h.refs⟩
      · split
        · exact ⟨hst, h.refs⟩
        · rename_i ds0 hg
          refine ⟨hst, fun r ds hr d' hd' => ?_⟩
          dsimp only at hr
          split at hr
          · rw [AMap.get_erase] at hr
            split at hr
            · cases hr
            · exact h.refs r ds hr d' hd'
          · rw [AMap.get_insert] at hr
            split at hr
            · rename_i he
              cases hr
              rw [he]
              exact h.refs _ _ hg d' ((mem_sremove _ _ _).1 hd').2
            · exact h.refs r ds hr d' hd'
  | removeAll r0 =>
    simp only [Cmd.run, Store.removeAll]
    split
    · exact h
    · refine ⟨fun d x hx => ?_, fun r ds' hr d hd => ?_⟩
      · dsimp only at hx
        rw [get_eraseAll] at hx
        split at hx
        · cases hx
        · exact h.store d x hx
      · simp only [AMap.get_erase] at hr
        split at hr
        · cases hr
        · exact h.refs r ds' hr d hd

theorem weak_runAll (H : Ct → Nat) (cmds : List Cmd) : Weak H (runAll H cmds) := by
  have : ∀ (cmds : List Cmd) (s : Store), Weak H s → Weak H (cmds.foldl (Cmd.run H) s) := by
    intro cmds
    induction cmds with
    | nil => intro s h; exact h
    | cons c cmds ih => intro s h; exact ih _ (weak_run h c)
  exact this cmds _ ⟨by simp [Store.new], by simp [Store.new]⟩

theorem collect_mem {m : AMap Nat (Nat × Ct)} : ∀ {ds : List Nat} {xs : List (Nat × Ct)}, Store.collect m ds = some xs →
    ∀ x ∈ xs, ∃ d ∈ ds, AMap.get m d = some x := by
  intro ds
  induction ds with
  | nil => intro xs h x hx; cases h; cases hx
  | cons d ds ih =>
    intro xs h x hx
    unfold Store.collect at h
    cases h1 : AMap.get m d with
    | none => simp [h1] at h
    | some y =>
      cases h2 : Store.collect m ds with
      | none => simp [h1, h2] at h
      | some ys =>
        simp only [h1, h2, Option.some.injEq] at h
        subst h
        rcases List.mem_cons.1 hx with rfl | hx
        · exact ⟨d, by simp, h1⟩
        · obtain ⟨d', h3, h4⟩ := ih h2 x hx
          exact ⟨d', by simp [h3], h4⟩

theorem reliable_store {H : Ct → Nat} (hH : Function.Injective H) (cmds : List Cmd) : Reliable (runAll H cmds).got := by
  have hw := weak_runAll H cmds
  generalize runAll H cmds = s at hw
  have hfound : ∀ r c, s.got r = .found c → s.getByRef r = some c := by
    intro r c h
    unfold Store.got at h
    split at h
    · cases h
    · rename_i c' hc; cases h; exact hc
  refine ⟨fun r h => ?_, fun r c h => ?_, AMap.keys s.refsToDigests, fun r c h => ?_⟩
  · unfold Store.got at h
    split at h <;> cases h
  · have := hfound r c h
    unfold Store.getByRef at this
    split at this
    · cases this
    · rename_i ds hds
      split at this
      · cases this
      · rename_i xs hxs
        obtain ⟨y, hy, rfl⟩ := Option.map_eq_some_iff.1 this
        obtain ⟨d, hd, hg⟩ := collect_mem hxs y ((largest_spec xs).2 y hy).1
        obtain ⟨c', h1, h2⟩ := hw.refs r ds hds d hd
        rw [hH (a₁ := y.2) (a₂ := c') ((hw.store d y hg).trans h1.symm)]
        exact h2
  · have := hfound r c h
    unfold Store.getByRef at this
    split at this
    · cases this
    · rename_i ds hds
      exact (AMap.mem_keys_iff _ _).2 (by rw [hds]; simp)

theorem Inv.markAll {H : Ct → Nat} (hH : Function.Injective H) : ∀ (done : List (Ref × Nat)) {s : Store} {l ins : List Ct},
    Inv H s l ins → ∃ l', Inv H (s.markAll done) l' ins ∧ ∀ c, c ∈ l' ↔ c ∈ l ∧ ∀ t, (c.ref, t) ∉ done := by
  intro done
  induction done with
  | nil => intro s l ins h; exact ⟨l, h, by simp⟩
  | cons x done ih =>
    intro s l ins h
    obtain ⟨l', h1, h2⟩ := ih (h.removeAll hH x.1)
    refine ⟨l', h1, fun c => ?_⟩
    rw [h2]
    simp only [List.mem_filter, decide_eq_true_eq, List.mem_cons, not_or]
    constructor
    · rintro ⟨⟨h3, h4⟩, h5⟩
      exact ⟨h3, fun t => ⟨fun he => h4 (by rw [← he]), h5 t⟩⟩
    · rintro ⟨h3, h4⟩
      exact ⟨⟨h3, fun he => (h4 x.2).1 (by rw [he])⟩, fun t => (h4 t).2⟩

end Verif.Cipher
