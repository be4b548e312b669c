import Verif.Cipher.CausalLemmas

/-! # The loop of causal decryption over a store whose lookups can fail -/

namespace Verif.Cipher

variable {get : Ref → Got} {opened : Ct → Key → Opened}

/-- What looking up the ancestors does, whether or not lookups fail. -/
structure Looked (get : Ref → Got) (own : Ref) (anc : AMap Ref Key) (p p' : Progress) (stack stack' : List (Ct × Key)) : Prop where
  complete : p'.complete = p.complete
  seen : ∀ r ∈ p'.seen, r ∈ p.seen
  cannot : ∀ r w, AMap.get p'.cannot r = some w →
    AMap.get p.cannot r = some w ∨ (r = own ∧ w = .getCiphertext ∧ ∃ r' k', (r', k') ∈ anc ∧ get r' = .error)
  keepsCannot : ∀ r, AMap.contains p.cannot r = true → AMap.contains p'.cannot r = true
  failed : ∀ r k, (r, k) ∈ anc → get r = .error → AMap.contains p'.cannot own = true
  next : ∀ r k, AMap.get p'.next r = some k → AMap.get p.next r = some k ∨ ((r, k) ∈ anc ∧ get r = .absent)
  keepsNext : ∀ r, AMap.contains p.next r = true → AMap.contains p'.next r = true
  absent : ∀ r k, (r, k) ∈ anc → get r = .absent → AMap.contains p'.next r = true
  stack : ∀ c k, (c, k) ∈ stack' ↔ (c, k) ∈ stack ∨ ∃ r, (r, k) ∈ anc ∧ get r = .found c

theorem contains_insert {β : Type} (m : AMap Ref β) (a : Ref) (v : β) {r : Ref} (h : AMap.contains m r = true) :
    AMap.contains (AMap.insert m a v) r = true := by
  unfold AMap.contains at h ⊢
  rw [AMap.get_insert]
  split
  · rfl
  · exact h

theorem contains_insert_self {β : Type} (m : AMap Ref β) (a : Ref) (v : β) : AMap.contains (AMap.insert m a v) a = true := by
  simp [AMap.contains]

theorem visitAncestors_looked (self : Ref) : ∀ (anc : AMap Ref Key) (p : Progress) (stack : List (Ct × Key)),
    Looked get self anc p (visitAncestors get self anc (p, stack)).1 stack (visitAncestors get self anc (p, stack)).2 := by
  intro anc
  induction anc with
  | nil =>
    intro p stack
    exact ⟨rfl, fun r h => h, fun r w h => .inl h, fun r h => h, by simp, fun r k h => .inl h, fun r h => h, by simp,
      by simp [visitAncestors]⟩
  | cons a anc ih =>
    intro p stack
    obtain ⟨r0, k0⟩ := a
    unfold visitAncestors
    cases hg : get r0 with
    | error =>
      dsimp only
      have h := ih { p with seen := sremove p.seen self, cannot := AMap.insert p.cannot self .getCiphertext } stack
      refine ⟨h.complete, fun r hr => (List.mem_filter.1 (h.seen r hr)).1, fun r w hw => ?_, fun r hr => h.keepsCannot r (contains_insert _ _ _ hr),
        fun r k hr hf => ?_, fun r k hr => ?_, h.keepsNext, fun r k hr hf => ?_, fun c k => ?_⟩
      · rcases h.cannot r w hw with h1 | ⟨h1, h2, r', k', h3, h4⟩
        · simp only [AMap.get_insert] at h1
          split at h1
          · rename_i he
            exact .inr ⟨he, (Option.some.inj h1).symm, r0, k0, by simp, hg⟩
          · exact .inl h1
        · exact .inr ⟨h1, h2, r', k', by simp [h3], h4⟩
      · exact h.keepsCannot _ (contains_insert_self _ _ _)
      · exact (h.next r k hr).imp id (fun h => ⟨by simp [h.1], h.2⟩)
      · rcases List.mem_cons.1 hr with he | hr
        · cases he; rw [hg] at hf; cases hf
        · exact h.absent r k hr hf
      · rw [h.stack]
        constructor
        · rintro (h1 | ⟨r, h1, h2⟩)
          · exact .inl h1
          · exact .inr ⟨r, by simp [h1], h2⟩
        · rintro (h1 | ⟨r, h1, h2⟩)
          · exact .inl h1
          · rcases List.mem_cons.1 h1 with he | h1
            · cases he; rw [hg] at h2; cases h2
            · exact .inr ⟨r, h1, h2⟩
    | absent =>
      dsimp only
      have h := ih { p with next := AMap.insert p.next r0 k0 } stack
      refine ⟨h.complete, h.seen, fun r w hw => ?_, h.keepsCannot,
        fun r k hr hf => ?_, fun r k hr => ?_, fun r hr => h.keepsNext r (contains_insert _ _ _ hr), fun r k hr hf => ?_, fun c k => ?_⟩
      · rcases h.cannot r w hw with h1 | ⟨h1, h2, r', k', h3, h4⟩
        · exact .inl h1
        · exact .inr ⟨h1, h2, r', k', by simp [h3], h4⟩
      · rcases List.mem_cons.1 hr with he | hr
        · cases he; rw [hg] at hf; cases hf
        · exact h.failed r k hr hf
      · rcases h.next r k hr with h1 | h1
        · simp only [AMap.get_insert] at h1
          split at h1
          · rename_i he
            cases h1
            subst he
            exact .inr ⟨by simp, hg⟩
          · exact .inl h1
        · exact .inr ⟨by simp [h1.1], h1.2⟩
      · rcases List.mem_cons.1 hr with he | hr
        · cases he; exact h.keepsNext _ (contains_insert_self _ _ _)
        · exact h.absent r k hr hf
      · rw [h.stack]
        constructor
        · rintro (h1 | ⟨r, h1, h2⟩)
          · exact .inl h1
          · exact .inr ⟨r, by simp [h1], h2⟩
        · rintro (h1 | ⟨r, h1, h2⟩)
          · exact .inl h1
          · rcases List.mem_cons.1 h1 with he | h1
            · cases he; rw [hg] at h2; cases h2
            · exact .inr ⟨r, h1, h2⟩
    | found c0 =>
      dsimp only
      have h := ih p ((c0, k0) :: stack)
      refine ⟨h.complete, h.seen, fun r w hw => ?_, h.keepsCannot,
        fun r k hr hf => ?_, fun r k hr => (h.next r k hr).imp id (fun h => ⟨by simp [h.1], h.2⟩), h.keepsNext, fun r k hr hf => ?_, fun c k => ?_⟩
      · rcases h.cannot r w hw with h1 | ⟨h1, h2, r', k', h3, h4⟩
        · exact .inl h1
        · exact .inr ⟨h1, h2, r', k', by simp [h3], h4⟩
      · rcases List.mem_cons.1 hr with he | hr
        · cases he; rw [hg] at hf; cases hf
        · exact h.failed r k hr hf
      · rcases List.mem_cons.1 hr with he | hr
        · cases he; rw [hg] at hf; cases hf
        · exact h.absent r k hr hf
      · rw [h.stack]
        constructor
        · rintro (h1 | ⟨r, h1, h2⟩)
          · rcases List.mem_cons.1 h1 with he | h1
            · cases he; exact .inr ⟨r0, by simp, hg⟩
            · exact .inl h1
          · exact .inr ⟨r, by simp [h1], h2⟩
        · rintro (h1 | ⟨r, h1, h2⟩)
          · exact .inl (by simp [h1])
          · rcases List.mem_cons.1 h1 with he | h1
            · cases he; rw [hg] at h2; cases h2; exact .inl (by simp)
            · exact .inr ⟨r, h1, h2⟩

/-- The ciphertext is dealt with: something is reported for its reference, or it is reported as impossible and cannot be opened. -/
def Dealt (opened : Ct → Key → Opened) (p : Progress) (c : Ct) (k : Key) : Prop :=
  (∃ t, (c.ref, t) ∈ p.complete) ∨ (AMap.contains p.cannot c.ref = true ∧ ∀ e, opened c k ≠ .envelope e)

theorem Dealt.mono {p p' : Progress} {c : Ct} {k : Key} (h1 : ∀ x ∈ p.complete, x ∈ p'.complete)
    (h2 : ∀ r, AMap.contains p.cannot r = true → AMap.contains p'.cannot r = true) (h : Dealt opened p c k) : Dealt opened p' c k :=
  h.imp (fun ⟨t, ht⟩ => ⟨t, h1 _ ht⟩) (fun ⟨a, b⟩ => ⟨h2 _ a, b⟩)

/-- The invariant of the loop. -/
structure FInv (get : Ref → Got) (opened : Ct → Key → Opened) (start : List (Ct × Key)) (p : Progress) (stack : List (Ct × Key)) : Prop where
  stacked : ∀ c k, (c, k) ∈ stack → Reach get opened start c k
  seen : ∀ r ∈ p.seen, ∃ t, (r, t) ∈ p.complete
  starts : ∀ c k, (c, k) ∈ start → Dealt opened p c k ∨ (c, k) ∈ stack
  cannot : ∀ r w, AMap.get p.cannot r = some w → ∃ c k, Reach get opened start c k ∧ c.ref = r ∧ Explains get opened c k w
  next : ∀ r k', AMap.get p.next r = some k' → get r = .absent ∧
    ∃ c k e, Reach get opened start c k ∧ opened c k = .envelope e ∧ (r, k') ∈ e.ancestors
  done : ∀ r t, (r, t) ∈ p.complete → ∃ c k e, Reach get opened start c k ∧ c.ref = r ∧ opened c k = .envelope e ∧ e.plaintext = t ∧
    ∀ r' k', (r', k') ∈ e.ancestors → (get r' = .absent → AMap.contains p.next r' = true) ∧
      (get r' = .error → AMap.contains p.cannot r = true) ∧
      ∀ c', get r' = .found c' → Dealt opened p c' k' ∨ (c', k') ∈ stack

theorem finv_start (start : List (Ct × Key)) : FInv get opened start Progress.new start :=
  ⟨fun _ _ h => .start h, by simp [Progress.new], fun _ _ h => .inr h, (fun _ _ h => by cases h), (fun _ _ h => by cases h),
    (fun _ _ h => by cases h)⟩

/-- What cannot be opened is reported and taken off the stack. -/
theorem finv_cannot {start : List (Ct × Key)} {c : Ct} {k : Key} {p : Progress} {stack : List (Ct × Key)} {w : Reason} {keys : AMap Ref Key}
    {seen : List Ref} (h : FInv get opened start p ((c, k) :: stack)) (hs : ∀ r ∈ seen, r ∈ p.seen) (hw : Explains get opened c k w)
    (hno : ∀ e, opened c k ≠ .envelope e) :
    FInv get opened start { p with seen := seen, keys := keys, cannot := AMap.insert p.cannot c.ref w } stack := by
  have hd : ∀ c' k', Dealt opened p c' k' ∨ (c', k') ∈ (c, k) :: stack →
      Dealt opened { p with seen := seen, keys := keys, cannot := AMap.insert p.cannot c.ref w } c' k' ∨ (c', k') ∈ stack := by
    rintro c' k' (h1 | h1)
    · exact .inl (Dealt.mono (p := p) (fun _ h => h) (fun r (hr : AMap.contains p.cannot r = true) => contains_insert _ _ _ hr) h1)
    · rcases List.mem_cons.1 h1 with he | h1
      · cases he; exact .inl (.inr ⟨contains_insert_self _ _ _, hno⟩)
      · exact .inr h1
  refine ⟨fun c' k' h1 => h.stacked _ _ (.tail _ h1), fun r hr => h.seen r (hs r hr), fun c' k' h1 => hd _ _ (h.starts c' k' h1),
    fun r w' hw' => ?_, h.next, fun r t ht => ?_⟩
  · simp only [AMap.get_insert] at hw'
    split at hw'
    · rename_i he
      cases hw'
      exact ⟨c, k, h.stacked _ _ (.head _), he.symm, hw⟩
    · exact h.cannot r w' hw'
  · obtain ⟨c1, k1, e1, g1, g2, g3, g4, g5⟩ := h.done r t ht
    refine ⟨c1, k1, e1, g1, g2, g3, g4, fun r' k' ha => ?_⟩
    obtain ⟨a1, a2, a3⟩ := g5 r' k' ha
    exact ⟨a1, fun he => contains_insert _ _ _ (a2 he), fun c' hc' => hd _ _ (a3 c' hc')⟩

theorem finv_visit {start : List (Ct × Key)} {c : Ct} {k : Key} {p : Progress} {stack : List (Ct × Key)}
    (h : FInv get opened start p ((c, k) :: stack)) :
    FInv get opened start (visit get opened c k p stack).1 (visit get opened c k p stack).2 := by
  unfold visit
  split
  · rename_i hs
    have hd : ∀ c' k', Dealt opened p c' k' ∨ (c', k') ∈ (c, k) :: stack → Dealt opened p c' k' ∨ (c', k') ∈ stack := by
      rintro c' k' (h1 | h1)
      · exact .inl h1
      · rcases List.mem_cons.1 h1 with he | h1
        · cases he; exact .inl (.inl (h.seen _ hs))
        · exact .inr h1
    refine ⟨fun c' k' h1 => h.stacked _ _ (.tail _ h1), h.seen, fun c' k' h1 => hd _ _ (h.starts c' k' h1), h.cannot, h.next, fun r t ht => ?_⟩
    obtain ⟨c1, k1, e1, g1, g2, g3, g4, g5⟩ := h.done r t ht
    refine ⟨c1, k1, e1, g1, g2, g3, g4, fun r' k' ha => ?_⟩
    obtain ⟨a1, a2, a3⟩ := g5 r' k' ha
    exact ⟨a1, a2, fun c' hc' => hd _ _ (a3 c' hc')⟩
  · rename_i hs
    have hrem : ∀ r ∈ sremove (sinsert p.seen c.ref) c.ref, r ∈ p.seen := by
      intro r hr
      obtain ⟨h1, h2⟩ := List.mem_filter.1 hr
      rcases (mem_sinsert _ _ _).1 h1 with h1 | h1
      · subst h1; simp at h2
      · exact h1
    dsimp only
    cases ho : opened c k with
    | failed => exact finv_cannot h hrem ⟨rfl, ho⟩ (fun e he => by rw [ho] at he; cases he)
    | garbage => exact finv_cannot h hrem ho (fun e he => by rw [ho] at he; cases he)
    | envelope e =>
      dsimp only
      have hl := visitAncestors_looked (get := get) c.ref e.ancestors
        { p with seen := sinsert p.seen c.ref, keys := AMap.insert p.keys c.ref k } stack
      revert hl
      generalize visitAncestors get c.ref e.ancestors ({ p with seen := sinsert p.seen c.ref, keys := AMap.insert p.keys c.ref k }, stack) = r
      obtain ⟨p', stack'⟩ := r
      dsimp only
      intro hl
      have hcomp : p'.complete = p.complete := hl.complete
      have hr := h.stacked c k (.head _)
      have hd : ∀ c' k', Dealt opened p c' k' ∨ (c', k') ∈ (c, k) :: stack →
          Dealt opened { p' with complete := p'.complete ++ [(c.ref, e.plaintext)] } c' k' ∨ (c', k') ∈ stack' := by
        rintro c' k' (h1 | h1)
        · exact .inl (h1.mono (fun x hx => by simp [hcomp, hx]) hl.keepsCannot)
        · rcases List.mem_cons.1 h1 with he | h1
          · cases he; exact .inl (.inl ⟨e.plaintext, by simp⟩)
          · exact .inr ((hl.stack _ _).2 (.inl h1))
      refine ⟨fun c' k' h1 => ?_, fun r hr => ?_, fun c' k' h1 => hd _ _ (h.starts c' k' h1), fun r w hw => ?_, fun r k' hn => ?_, fun r t ht => ?_⟩
      · rcases (hl.stack _ _).1 h1 with h1 | ⟨r, h1, h2⟩
        · exact h.stacked _ _ (.tail _ h1)
        · exact .step hr ho h1 h2
      · rcases (mem_sinsert _ _ _).1 (hl.seen r hr) with h1 | h1
        · subst h1; exact ⟨e.plaintext, by simp⟩
        · obtain ⟨t, ht⟩ := h.seen r h1
          exact ⟨t, by simp [hcomp, ht]⟩
      · rcases hl.cannot r w hw with h1 | ⟨h1, rfl, r', k', h2, h3⟩
        · exact h.cannot r w h1
        · exact ⟨c, k, hr, h1.symm, e, r', k', ho, h2, h3⟩
      · rcases hl.next r k' hn with h1 | ⟨h1, h2⟩
        · exact h.next r k' h1
        · exact ⟨h2, c, k, e, hr, ho, h1⟩
      · rw [hcomp] at ht
        rcases List.mem_append.1 ht with ht | ht
        · obtain ⟨c1, k1, e1, g1, g2, g3, g4, g5⟩ := h.done r t ht
          refine ⟨c1, k1, e1, g1, g2, g3, g4, fun r' k' ha => ?_⟩
          obtain ⟨a1, a2, a3⟩ := g5 r' k' ha
          exact ⟨fun he => hl.keepsNext _ (a1 he), fun he => hl.keepsCannot _ (a2 he), fun c' hc' => hd _ _ (a3 c' hc')⟩
        · cases List.mem_singleton.1 ht
          refine ⟨c, k, e, hr, rfl, ho, rfl, fun r' k' ha => ⟨fun he => hl.absent r' k' ha he, fun he => hl.failed r' k' ha he, fun c' hc' => ?_⟩⟩
          exact .inr ((hl.stack _ _).2 (.inr ⟨r', ha, hc'⟩))

theorem finv_loop {start : List (Ct × Key)} : ∀ (n : Nat) {p p' : Progress} {stack : List (Ct × Key)}, FInv get opened start p stack →
    loop get opened n p stack = some p' → FInv get opened start p' []
  | _, p, p', [], h, hl => by
    unfold loop at hl
    cases hl
    exact h
  | 0, _, _, _ :: _, _, hl => by cases hl
  | n + 1, p, p', (c, k) :: stack, h, hl => finv_loop n (finv_visit h) hl

theorem FInv.dealt {start : List (Ct × Key)} {p : Progress} (h : FInv get opened start p []) (ho : OneEnvelope get opened start) {c : Ct} {k : Key}
    (hc : Reach get opened start c k) : Dealt opened p c k := by
  induction hc with
  | start hs => exact (h.starts _ _ hs).resolve_right (by simp)
  | step hr hop ha hg ih =>
    rcases ih with ⟨t, ht⟩ | ⟨_, hno⟩
    · obtain ⟨c0, k0, e0, g1, g2, g3, g4, g5⟩ := h.done _ _ ht
      have := ho _ _ _ _ _ _ g1 hr g2 g3 hop
      subst this
      exact ((g5 _ _ ha).2.2 _ hg).resolve_right (by simp)
    · exact absurd hop (hno _)

end Verif.Cipher
