import Verif.Group.RevokeLemmas

/-! # Lemmas about refused additions -/

namespace Verif.Group

variable {H : Op → Nat} {N : Nested} {S : Op → Option Nat}

/-- Errors that only the search for a proof returns. -/
def Err.Refusal : Err → Prop
  | .accessEscalation _ _ => True
  | .noProof => True
  | _ => False

theorem run_quiet {W : World} {held : List Id} {i : Id} : ∀ (n : Nat) (t : Trans) {e : Err}, Trans.run W held i n t = .error e → ¬ e.Refusal
  | 0, t, e, h => by cases h
  | n + 1, t, e, h => by
    unfold Trans.run at h
    split at h
    · cases h
    · rename_i agent access parent rest hx
      simp only [bind, Except.bind] at h
      split at h
      · rename_i e' he
        cases h
        unfold Trans.turn at he
        split at he
        · cases he
        · dsimp only at he
          split at he
          · split at he
            · cases he; exact id
            · split at he <;> cases he
          · cases he
      · exact run_quiet n _ h

/-- Asking a nested group for its members never says that something may not be granted. -/
theorem membersOf_quiet (W : World) (held : List Id) (a : Agent) {e : Err} (h : membersOf W held a = .error e) : ¬ e.Refusal := by
  unfold membersOf at h
  split at h
  · cases h
  · split at h
    · cases h; exact id
    · split at h
      · cases h
      · simp only [bind, Except.bind, pure, Except.pure] at h
        split at h
        · rename_i e' he
          cases h
          unfold transitiveMembers at he
          simp only [bind, Except.bind, pure, Except.pure] at he
          split at he
          · rename_i e2 h2
            cases he
            exact run_quiet _ _ h2
          · cases he
        · cases h

theorem checkChain_quiet (hN : ∀ a e, N a = .error e → ¬ e.Refusal) {can : Access} : ∀ (l : List Dlg) (d : Dlg) {e : Err},
    checkChain N can d l = .error e → ¬ e.Refusal
  | [], _, _, h => by cases h
  | p :: l, d, e, h => by
    unfold checkChain at h
    split at h
    · cases h; exact id
    · simp only [bind, Except.bind, pure, Except.pure] at h
      split at h
      · unfold isTransitiveMemberOf at h
        simp only [bind, Except.bind, pure, Except.pure] at h
        cases hn : N p.delegate with
        | error e' =>
          rw [hn] at h
          cases h
          exact hN _ _ hn
        | ok o =>
          rw [hn] at h
          revert h
          dsimp only
          have key : ∀ b : Bool, (match (Except.ok b : Except Err Bool) with
            | .error err => Except.error err
            | .ok v => if (!v) = true then
                match (throw Err.invalidProofChain : Except Err Unit) with
                | .error err => Except.error err
                | .ok _ => checkChain N can p l
              else checkChain N can p l) = .error e → ¬ e.Refusal := by
            intro b h
            cases b
            · cases h; exact id
            · exact checkChain_quiet hN l p h
          cases o with
          | none => exact key false
          | some tm =>
            dsimp only
            cases AMap.get tm d.issuer with
            | none => exact key false
            | some q => obtain ⟨a, x⟩ := q; exact key _
      · exact checkChain_quiet hN l p h

theorem receiveDelegation_quiet (hN : ∀ a e, N a = .error e → ¬ e.Refusal) {g : Group} {d : Dlg} {e : Err}
    (h : g.receiveDelegation H N d = .error e) : ¬ e.Refusal := by
  unfold Group.receiveDelegation Group.addDelegation at h
  simp only [bind, Except.bind, pure, Except.pure, throw, throwThe, MonadExceptOf.throw] at h
  split at h
  · rename_i e' he
    cases h
    split at he
    · cases he; exact id
    · split at he
      · cases he; exact id
      · split at he
        · rename_i e2 h2
          cases he
          exact checkChain_quiet hN _ _ h2
        · cases he
  · cases h

/-- The best access that the search has come across. -/
theorem findProof_best {g : Group} {signer : Id} {can : Access} : ∀ {ms : List Id} {best b : Option Access},
    g.findProof N signer can ms best = .ok (none, b) →
    (∀ x, b = some x → best = some x ∨ (¬ can ≤ x ∧ ∃ m ∈ ms, ∃ p tm a, g.getCapability m = some p ∧ N p.delegate = .ok (some tm) ∧
      AMap.get tm signer = some (a, x))) ∧
    (∀ y, best = some y → ∃ x, b = some x ∧ y ≤ x) ∧
    (∀ m ∈ ms, ∀ p tm a y, g.getCapability m = some p → N p.delegate = .ok (some tm) → AMap.get tm signer = some (a, y) →
      ¬ can ≤ y ∧ ∃ x, b = some x ∧ y ≤ x) := by
  have le_refl : ∀ x : Access, x ≤ x := fun x => Nat.le_refl _
  intro ms
  induction ms with
  | nil =>
    intro best b h
    cases h
    exact ⟨fun x hx => .inl hx, fun y hy => ⟨y, hy, le_refl y⟩, by simp⟩
  | cons m ms ih =>
    intro best b h
    -- nothing is learned from this member
    have skip : g.findProof N signer can ms best = .ok (none, b) →
        (∀ p tm a y, g.getCapability m = some p → N p.delegate = .ok (some tm) → AMap.get tm signer = some (a, y) → False) →
        (∀ x, b = some x → best = some x ∨ (¬ can ≤ x ∧ ∃ m' ∈ m :: ms, ∃ p tm a, g.getCapability m' = some p ∧ N p.delegate = .ok (some tm) ∧
          AMap.get tm signer = some (a, x))) ∧
        (∀ y, best = some y → ∃ x, b = some x ∧ y ≤ x) ∧
        (∀ m' ∈ m :: ms, ∀ p tm a y, g.getCapability m' = some p → N p.delegate = .ok (some tm) → AMap.get tm signer = some (a, y) →
          ¬ can ≤ y ∧ ∃ x, b = some x ∧ y ≤ x) := by
      intro h hno
      obtain ⟨h1, h2, h3⟩ := ih h
      refine ⟨fun x hx => (h1 x hx).imp id (fun ⟨a, m', hm', r⟩ => ⟨a, m', .tail _ hm', r⟩), h2, fun m' hm' p tm a y e1 e2 e3 => ?_⟩
      rcases List.mem_cons.1 hm' with rfl | hm'
      · exact (hno p tm a y e1 e2 e3).elim
      · exact h3 m' hm' p tm a y e1 e2 e3
    unfold Group.findProof at h
    cases hc : g.getCapability m with
    | none =>
      rw [hc] at h
      exact skip h (fun p tm a y e1 => by rw [hc] at e1; cases e1)
    | some p0 =>
      rw [hc] at h
      simp only [bind, Except.bind] at h
      cases hn : N p0.delegate with
      | error e => rw [hn] at h; cases h
      | ok o =>
        rw [hn] at h
        cases o with
        | none =>
          exact skip h (fun p tm a y e1 e2 => by rw [hc] at e1; cases e1; rw [hn] at e2; cases e2)
        | some tm0 =>
          dsimp only at h
          cases ht : AMap.get tm0 signer with
          | none =>
            rw [ht] at h
            exact skip h (fun p tm a y e1 e2 e3 => by rw [hc] at e1; cases e1; rw [hn] at e2; cases e2; rw [ht] at e3; cases e3)
          | some q =>
            obtain ⟨a0, x0⟩ := q
            rw [ht] at h
            dsimp only at h
            split at h
            · cases h
            · rename_i hle
              obtain ⟨h1, h2, h3⟩ := ih h
              have hbest : ∀ y, best = some y → ∃ x, b = some x ∧ y ≤ x := by
                rintro y rfl
                obtain ⟨x, e1, e2⟩ := h2 _ rfl
                refine ⟨x, e1, ?_⟩
                dsimp only at e2
                split at e2
                · rename_i hlt; exact Nat.le_trans (Nat.le_of_lt hlt) e2
                · exact e2
              have hx0 : ∃ x, b = some x ∧ x0 ≤ x := by
                obtain ⟨x, e1, e2⟩ := h2 _ rfl
                refine ⟨x, e1, ?_⟩
                cases best with
                | none => exact e2
                | some y =>
                  dsimp only at e2
                  split at e2
                  · exact e2
                  · rename_i hlt; exact Nat.le_trans (Nat.le_of_not_lt hlt) e2
              have mine : ¬ can ≤ x0 ∧ ∃ m' ∈ m :: ms, ∃ p tm a, g.getCapability m' = some p ∧ N p.delegate = .ok (some tm) ∧
                  AMap.get tm signer = some (a, x0) := ⟨hle, m, .head _, p0, tm0, a0, hc, hn, ht⟩
              refine ⟨fun x hx => ?_, hbest, fun m' hm' p tm a y e1 e2 e3 => ?_⟩
              · rcases h1 x hx with e | ⟨e, m', hm', r⟩
                · cases best with
                  | none => cases e; exact .inr mine
                  | some y =>
                    dsimp only at e
                    split at e
                    · cases e; exact .inr mine
                    · cases e; exact .inl rfl
                · exact .inr ⟨e, m', .tail _ hm', r⟩
              · rcases List.mem_cons.1 hm' with rfl | hm'
                · rw [hc] at e1; cases e1; rw [hn] at e2; cases e2; rw [ht] at e3; cases e3
                  exact ⟨hle, hx0⟩
                · exact h3 m' hm' p tm a y e1 e2 e3

theorem findProof_quiet (hN : ∀ a e, N a = .error e → ¬ e.Refusal) {g : Group} {signer : Id} {can : Access} : ∀ (ms : List Id) (best : Option Access)
    {e : Err}, g.findProof N signer can ms best = .error e → ¬ e.Refusal := by
  intro ms
  induction ms with
  | nil => intro best e h; cases h
  | cons m ms ih =>
    intro best e h
    unfold Group.findProof at h
    split at h
    · exact ih _ h
    · rename_i p0 _
      simp only [bind, Except.bind] at h
      cases hn : N p0.delegate with
      | error e' => rw [hn] at h; cases h; exact hN _ _ hn
      | ok o =>
        rw [hn] at h
        dsimp only at h
        split at h
        · exact ih _ h
        · split at h
          · exact ih _ h
          · split at h
            · cases h
            · exact ih _ h

/-- A refused addition was refused while looking for a proof. -/
theorem addMember_refused (hN : ∀ a e, N a = .error e → ¬ e.Refusal) {g : Group} {who : Agent} {can : Access} {signer : Id} {content : Content} {e : Err}
    (h : g.addMember H N S who can signer content = .error e) (he : e.Refusal) :
    signer ≠ g.id ∧ ((∃ p, g.getCapability signer = some p ∧ p.can < can ∧ e = .accessEscalation can p.can) ∨
      (g.getCapability signer = none ∧ ∃ b, g.findProof N signer can (AMap.keys g.members) none = .ok (none, b) ∧
        ((b = none ∧ e = .noProof) ∨ ∃ x, b = some x ∧ e = .accessEscalation can x))) := by
  unfold Group.addMember at h
  simp only [bind, Except.bind, pure, Except.pure] at h
  cases hp : g.proofFor N signer can with
  | ok proof =>
    exfalso
    rw [hp] at h
    dsimp only at h
    split at h
    · cases h; exact he
    · split at h
      · rename_i e' h'
        cases h
        exact receiveDelegation_quiet hN h' he
      · cases h
  | error e' =>
    rw [hp] at h
    cases h
    unfold Group.proofFor at hp
    split at hp
    · cases hp
    · rename_i hid
      refine ⟨fun h => hid h.symm, ?_⟩
      split at hp
      · rename_i p hc
        split at hp
        · rename_i hlt
          cases hp
          exact .inl ⟨p, hc, hlt, rfl⟩
        · cases hp
      · rename_i hc
        refine .inr ⟨hc, ?_⟩
        simp only [bind, Except.bind] at hp
        split at hp
        · rename_i e2 h2
          cases hp
          exact (findProof_quiet hN _ _ h2 he).elim
        · rename_i v h2
          obtain ⟨q, b⟩ := v
          cases q with
          | some p => cases hp
          | none =>
            cases b with
            | none => cases hp; exact ⟨none, h2, .inl ⟨rfl, rfl⟩⟩
            | some x => cases hp; exact ⟨some x, h2, .inr ⟨x, rfl, rfl⟩⟩

end Verif.Group
