import Verif.Group.RevokeLemmas

/-! # Helper lemmas: when looking at nested groups does not meet a locked group -/

namespace Verif.Group

variable {H : Op → Nat} {W : World}

namespace Trans

theorem member_stack (bst : Access) (t : Trans) (m : Id × List Dlg) {a : Agent} {x y : Access}
    (h : (a, x, y) ∈ (member bst t m).explore) : (a, x, y) ∈ t.explore ∨ ∃ d ∈ m.2, a = d.delegate := by
  have key : ∀ (c : Access) (l : List Dlg) (t : Trans), (a, x, y) ∈ (l.foldl (sub c bst) t).explore →
      (a, x, y) ∈ t.explore ∨ ∃ d ∈ l, a = d.delegate := by
    intro c l
    induction l with
    | nil => intro t h; exact Or.inl h
    | cons d l ih =>
      intro t h
      rcases ih _ h with h1 | ⟨e, h1, h2⟩
      · unfold sub at h1
        split at h1
        · exact Or.inl h1
        · simp only [List.mem_cons, Prod.mk.injEq] at h1
          rcases h1 with ⟨h1, _⟩ | h1
          · exact Or.inr ⟨d, by simp, h1⟩
          · exact Or.inl h1
      · exact Or.inr ⟨e, by simp [h1], h2⟩
  unfold member at h
  cases hm : maxByCan m.2 with
  | none => simp only [hm] at h; exact Or.inl h
  | some c => simp only [hm] at h; exact (key _ _ _ h).imp_left id

theorem members_stack (bst : Access) (l : List (Id × List Dlg)) (t : Trans) {a : Agent} {x y : Access}
    (h : (a, x, y) ∈ (l.foldl (member bst) t).explore) : (a, x, y) ∈ t.explore ∨ ∃ m ∈ l, ∃ d ∈ m.2, a = d.delegate := by
  induction l generalizing t with
  | nil => exact Or.inl h
  | cons m l ih =>
    rcases ih _ h with h1 | ⟨m', h1, h2⟩
    · rcases member_stack bst t m h1 with h3 | h3
      · exact Or.inl h3
      · exact Or.inr ⟨m, by simp, h3⟩
    · exact Or.inr ⟨m', by simp [h1], h2⟩

theorem start_stack (l : List (Id × List Dlg)) (t : Trans) {a : Agent} {x y : Access}
    (h : (a, x, y) ∈ (l.foldl startStep t).explore) : (a, x, y) ∈ t.explore ∨ ∃ m ∈ l, ∃ d ∈ m.2, a = d.delegate := by
  induction l generalizing t with
  | nil => exact Or.inl h
  | cons m l ih =>
    rcases ih _ h with h1 | ⟨m', h1, h2⟩
    · unfold startStep at h1
      cases hm : maxByCan m.2 with
      | none => simp only [hm] at h1; exact Or.inl h1
      | some c =>
        simp only [hm, List.mem_cons, Prod.mk.injEq] at h1
        rcases h1 with ⟨h1, _⟩ | h1
        · exact Or.inr ⟨m, by simp, c, (maxByCan_some hm).1, h1⟩
        · exact Or.inl h1
    · exact Or.inr ⟨m', by simp [h1], h2⟩

/-- Nothing reached is locked, except the group itself: no deadlock. -/
theorem run_free {held : List Id} {self : Id} {R : Agent → Prop}
    (hstep : ∀ a g, R a → a.isMembered = true → AMap.get W a.id = some g → ∀ m ∈ g.members, ∀ d ∈ m.2, R d.delegate)
    (hfree : ∀ a, R a → a.isMembered = true → a.id ∈ held → a.id = self) (n : Nat) (t : Trans)
    (ht : ∀ a x y, (a, x, y) ∈ t.explore → R a) : ∃ t', run W held self n t = .ok t' := by
  induction n generalizing t with
  | zero => exact ⟨t, rfl⟩
  | succ n ih =>
    unfold run
    cases he : t.explore with
    | nil => exact ⟨t, rfl⟩
    | cons p rest =>
      obtain ⟨a, x, y⟩ := p
      have hRa := ht a x y (by simp [he])
      have hrest : ∀ a x y, (a, x, y) ∈ rest → R a := fun b u v hb => ht b u v (by simp [he, hb])
      simp only [bind, Except.bind]
      unfold turn
      by_cases h1 : a.id = self
      · simp only [h1, if_true]
        exact ih _ hrest
      · simp only [h1, if_false]
        by_cases h2 : a.isMembered = true
        · have h3 : a.id ∉ held := fun h => h1 (hfree a hRa h2 h)
          simp only [h2, if_true, h3, if_false]
          cases hg : AMap.get W a.id with
          | none => exact ih _ hrest
          | some g =>
            refine ih _ ?_
            intro b u v hb
            rcases members_stack _ _ _ hb with hb | ⟨m, h4, d, h5, rfl⟩
            · exact hrest b u v hb
            · exact hstep a g hRa h2 hg m h4 d h5
        · simp only [h2]
          exact ih _ hrest

end Trans

/-- No walk from the agent meets a group locked by the caller. -/
theorem membersOf_free {held : List Id} (hT : ∀ i h, AMap.get W i = some h → AMap.WF h.members)
    (hI : ∀ i h, AMap.get W i = some h → h.id = i) (a : Agent)
    (h : ∀ b, Walk W a b → b.isMembered = true → b.id ∉ held) :
    ∃ r, membersOf W held a = .ok r := by
  unfold membersOf
  by_cases h1 : a.isMembered = true
  · have h2 := h a .refl h1
    simp only [h1, Bool.not_true, Bool.false_eq_true, if_false, h2]
    cases hg : AMap.get W a.id with
    | none => exact ⟨_, rfl⟩
    | some g =>
      have hmb : ∀ (i : Id) (k : Group), AMap.get W i = some k → ∀ m ∈ k.members, ∀ d ∈ m.2, k.MemberBy m.1 d := by
        intro i k hk m hm d hd
        exact ⟨m.2, AMap.get_of_mem (hT i k hk) hm, hd⟩
      have hid : g.id = a.id := hI _ _ hg
      obtain ⟨t, ht⟩ := Trans.run_free (W := W) (held := a.id :: held) (self := g.id) (R := Walk W a)
        (fun b k hb hb2 hk m hm d hd => hb.step hb2 hk (hmb _ _ hk m hm d hd))
        (fun b hb hb2 hb3 => by
          rcases List.mem_cons.1 hb3 with h3 | h3
          · rw [h3, hid]
          · exact absurd h3 (h b hb hb2))
        (g.members.length + W.size + 1) (Trans.start g) (fun b x y hb => by
          rcases Trans.start_stack _ _ hb with hb | ⟨m, hm, d, hd, rfl⟩
          · cases hb
          · exact Walk.refl.step h1 hg (hmb _ _ hg m hm d hd))
      simp only [transitiveMembers, ht, bind, Except.bind, pure, Except.pure]
      exact ⟨_, rfl⟩
  · simp only [h1]
    exact ⟨_, rfl⟩

theorem isTransitive_free {N : Nested} {a : Agent} {i : Id} {c : Access} (h : ∃ r, N a = .ok r) :
    ∃ b, isTransitiveMemberOf N a i c = .ok b := by
  obtain ⟨r, h⟩ := h
  unfold isTransitiveMemberOf
  simp only [h, bind, Except.bind, pure, Except.pure]
  cases r with
  | none => exact ⟨_, rfl⟩
  | some tm =>
    simp only
    cases AMap.get tm i with
    | none => exact ⟨_, rfl⟩
    | some q => exact ⟨_, rfl⟩

theorem checkChain_free {N : Nested} {c : Access} (l : List Dlg) (d : Dlg) (h : ∀ p ∈ l, ∃ r, N p.delegate = .ok r) :
    checkChain N c d l ≠ .error .deadlock := by
  induction l generalizing d with
  | nil => intro h; cases h
  | cons p l ih =>
    have ih' := ih p (fun q hq => h q (by simp [hq]))
    unfold checkChain
    by_cases h1 : p.can < c
    · simp [h1]
    · simp only [h1, if_false, bind, Except.bind]
      by_cases h2 : d.issuer = p.delegate.id
      · simpa [h2] using ih'
      · obtain ⟨b, hb⟩ := isTransitive_free (i := d.issuer) (c := c) (h p (by simp))
        cases b with
        | false => simp [h2, hb, throw, throwThe, MonadExceptOf.throw]
        | true => simpa [h2, hb] using ih'

theorem receive_free {N : Nested} {g : Group} {d : Dlg} (h : ∀ p ∈ d.lineage, ∃ r, N p.delegate = .ok r) :
    g.receiveDelegation H N d ≠ .error .deadlock := by
  have h0 := checkChain_free (c := d.can) d.lineage d h
  unfold Group.receiveDelegation Group.addDelegation
  by_cases h1 : d.subject = g.id
  · by_cases h2 : d.proof.isNone ∧ d.issuer ≠ g.id
    · simp [h1, h2, bind, Except.bind, throw, throwThe, MonadExceptOf.throw]
    · simp only [h1, ne_eq, not_true_eq_false, if_false, h2, bind, Except.bind, pure, Except.pure]
      cases h3 : checkChain N d.can d d.lineage with
      | error e => intro he; rw [h3] at h0; simp only [Except.error.injEq] at he; subst he; exact h0 rfl
      | ok u => simp
  · simp [h1, bind, Except.bind, throw, throwThe, MonadExceptOf.throw]

end Verif.Group
