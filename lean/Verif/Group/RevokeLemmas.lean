import Verif.Group.GroupFacts
import Verif.Group.TransLemmas

/-! # Helper lemmas: proof chains, and what `revoke_member` issues -/

namespace Verif.Group

variable {H : Op → Nat} {N : Nested} {S : Op → Option Nat}

theorem isTransitive_true {c : Access} {a : Agent} {i : Id} (h : isTransitiveMemberOf N a i c = .ok true) :
    ∃ tm b x, N a = .ok (some tm) ∧ AMap.get tm i = some (b, x) ∧ c ≤ x := by
  unfold isTransitiveMemberOf at h
  simp only [bind, Except.bind, pure, Except.pure] at h
  cases hN : N a with
  | error e => simp [hN] at h
  | ok o =>
    cases o with
    | none => simp [hN] at h
    | some tm =>
      cases hg : AMap.get tm i with
      | none => simp [hN, hg] at h
      | some p =>
        obtain ⟨b, x⟩ := p
        simp only [hN, hg, Except.ok.injEq, decide_eq_true_eq] at h
        exact ⟨tm, b, x, rfl, hg, h⟩

theorem isTransitive_of {c : Access} {a : Agent} {i : Id} {tm : AMap Id (Agent × Access)} {b : Agent} {x : Access}
    (h1 : N a = .ok (some tm)) (h2 : AMap.get tm i = some (b, x)) (h3 : c ≤ x) : isTransitiveMemberOf N a i c = .ok true := by
  unfold isTransitiveMemberOf
  simp [h1, h2, h3, bind, Except.bind, pure, Except.pure]

theorem checkChain_backed {c : Access} : ∀ {d : Dlg}, checkChain N c d d.lineage = .ok () → Backed N c d.subject d
  | .root i s a k af ct, _ => .root rfl rfl
  | .link i s a k p af ct, h => by
    simp only [Dlg.lineage, checkChain] at h
    by_cases h1 : p.can < c
    · simp [h1] at h
    · simp only [h1, if_false, bind, Except.bind] at h
      have hle : c ≤ p.can := Nat.le_of_not_lt h1
      by_cases h2 : (Dlg.link i s a k p af ct).issuer = p.delegate.id
      · simp only [h2, ne_eq, not_true_eq_false, if_false] at h
        exact .link rfl hle (Or.inl h2) (checkChain_backed h)
      · simp only [h2, ne_eq, not_false_eq_true, if_true] at h
        cases h3 : isTransitiveMemberOf N p.delegate (Dlg.link i s a k p af ct).issuer c with
        | error e => simp [h3] at h
        | ok b =>
          cases b with
          | false => simp [h3, throw, throwThe, MonadExceptOf.throw] at h
          | true =>
            simp only [h3, Bool.not_true, Bool.false_eq_true, if_false] at h
            exact .link rfl hle (Or.inr (isTransitive_true h3)) (checkChain_backed h)

theorem backed_subject {c : Access} {gid : Id} : ∀ {d : Dlg}, Backed N c gid d → d.subject = gid
  | .root i s a k af ct, h => by
    cases h with
    | root _ h2 => exact h2
    | link h1 => simp [Dlg.proof] at h1
  | .link i s a k p af ct, h => by
    cases h with
    | root h1 => simp [Dlg.proof] at h1
    | link h1 _ _ h4 =>
      simp only [Dlg.proof, Option.some.injEq] at h1
      subst h1
      exact (View.Dlg.subject_proof (d := .link i s a k p af ct) rfl).trans (backed_subject h4)

theorem backed_checkChain {c : Access} {gid : Id} : ∀ {d : Dlg}, Backed N c gid d → checkChain N c d d.lineage = .ok ()
  | .root i s a k af ct, _ => rfl
  | .link i s a k p af ct, h => by
    cases h with
    | root h1 => simp [Dlg.proof] at h1
    | link h1 h2 h3 h4 =>
      simp only [Dlg.proof, Option.some.injEq] at h1
      subst h1
      have ih := backed_checkChain h4
      simp only [Dlg.lineage, checkChain]
      have hlt : ¬ p.can < c := Nat.not_lt_of_le h2
      simp only [hlt, if_false, bind, Except.bind]
      by_cases h5 : (Dlg.link i s a k p af ct).issuer = p.delegate.id
      · simp only [h5, ne_eq, not_true_eq_false, if_false]
        exact ih
      · rcases h3 with h3 | ⟨tm, b, x, e1, e2, e3⟩
        · exact absurd h3 h5
        · simp only [h5, ne_eq, not_false_eq_true, if_true, isTransitive_of e1 e2 e3, Bool.not_true, Bool.false_eq_true, if_false]
          exact ih

theorem backed_lineage {c : Access} {gid : Id} : ∀ {d : Dlg}, Backed N c gid d → ∀ a ∈ d.lineage, c ≤ a.can
  | .root i s a k af ct, _, x, hx => by simp [Dlg.lineage] at hx
  | .link i s a k p af ct, h, x, hx => by
    cases h with
    | root h1 => simp [Dlg.proof] at h1
    | link h1 h2 h3 h4 =>
      simp only [Dlg.proof, Option.some.injEq] at h1
      subst h1
      simp only [Dlg.lineage, List.mem_cons] at hx
      rcases hx with rfl | hx
      · exact h2
      · exact backed_lineage h4 x hx

/-- `receive_delegation` succeeds exactly for delegations with a chain. -/
theorem receive_iff {g : Group} {d : Dlg} :
    (∃ g', g.receiveDelegation H N d = .ok g') ↔ Backed N d.can g.id d := by
  constructor
  · rintro ⟨g', h⟩
    obtain ⟨h1, h2, h3, _⟩ := receiveDelegation_ok h
    rw [← h1]
    exact checkChain_backed h3
  · intro h
    have h1 := backed_subject h
    have h2 := backed_checkChain h
    have h3 : ¬ (d.proof.isNone ∧ d.issuer ≠ g.id) := by
      rintro ⟨h4, h5⟩
      cases h with
      | root _ h6 => exact h5 h6
      | link h6 => rw [h6] at h4; cases h4
    unfold Group.receiveDelegation Group.addDelegation
    simp only [h1, ne_eq, not_true_eq_false, if_false, h2, bind, Except.bind, pure, Except.pure]
    rw [if_neg h3]
    exact ⟨_, rfl⟩

theorem receiveRevocation_grounds {g g' : Group} {r : Rev} (h : g.receiveRevocation H N r = .ok g') :
    r.subject = g.id ∧ Grounds N g.id r := by
  obtain ⟨h1, h2, _⟩ := receiveRevocation_ok h
  refine ⟨h1, ?_⟩
  rcases h2 with h2 | ⟨p, e1, e2, e3⟩
  · exact Or.inl h2
  · refine Or.inr ⟨p, e1, ⟨_, checkChain_backed e2⟩, ?_⟩
    rcases e3 with e3 | e3 | e3
    · exact Or.inl (Or.inl e3)
    · refine Or.inl (Or.inr ?_)
      unfold Dlg.isDescendantOf at e3
      simpa [List.any_eq_true] using e3
    · exact Or.inr (isTransitive_true e3)

theorem receiveRevocation_iff {g : Group} {r : Rev} :
    (∃ g', g.receiveRevocation H N r = .ok g') ↔ r.subject = g.id ∧ Grounds N g.id r := by
  constructor
  · rintro ⟨g', h⟩
    exact receiveRevocation_grounds h
  · rintro ⟨h1, h2⟩
    unfold Group.receiveRevocation Group.addRevocation
    rcases h2 with ⟨h2, h3⟩ | ⟨p, h2, ⟨root, h3⟩, h4⟩
    · simp [h1, h2, h3, bind, Except.bind, pure, Except.pure]
    · have hch := backed_checkChain h3
      by_cases h5 : r.revoke.same p = true
      · simp [h1, h2, h5, hch, bind, Except.bind, pure, Except.pure]
      · by_cases h6 : r.revoke.isDescendantOf p = true
        · simp [h1, h2, h5, h6, hch, bind, Except.bind, pure, Except.pure]
        · rcases h4 with (h4 | h4) | ⟨tm, b, x, e1, e2, e3⟩
          · exact absurd h4 h5
          · exact absurd (by unfold Dlg.isDescendantOf; simpa [List.any_eq_true] using h4) h6
          · have := isTransitive_of e1 e2 e3
            simp [h1, h2, h5, h6, hch, this, bind, Except.bind, pure, Except.pure]

theorem getCapability_mem {g : Group} {m : Id} {d : Dlg} (h : g.getCapability m = some d) :
    g.MemberBy m d ∧ ∀ x, g.MemberBy m x → x.can ≤ d.can := by
  unfold Group.getCapability at h
  cases hg : AMap.get g.members m with
  | none => simp [hg] at h
  | some ds =>
    simp only [hg, Option.bind_some] at h
    obtain ⟨h1, h2⟩ := maxByCan_some h
    refine ⟨⟨ds, hg, h1⟩, ?_⟩
    rintro x ⟨ds', h3, h4⟩
    rw [hg] at h3
    cases h3
    exact h2 x h4

theorem findProof_mem {g : Group} {signer : Id} {can : Access} {ms : List Id} {best b : Option Access} {p : Dlg}
    (h : g.findProof N signer can ms best = .ok (some p, b)) : ∃ m, g.MemberBy m p := by
  induction ms generalizing best with
  | nil => simp [Group.findProof] at h
  | cons m ms ih =>
    unfold Group.findProof at h
    cases hc : g.getCapability m with
    | none => simp only [hc] at h; exact ih h
    | some dlg =>
      simp only [hc, bind, Except.bind] at h
      cases hN : N dlg.delegate with
      | error e => simp [hN] at h
      | ok o =>
        cases o with
        | none => simp only [hN] at h; exact ih h
        | some tm =>
          simp only [hN] at h
          cases hg : AMap.get tm signer with
          | none => simp only [hg] at h; exact ih h
          | some q =>
            obtain ⟨_, access⟩ := q
            simp only [hg] at h
            by_cases hle : can ≤ access
            · simp only [hle, if_true, pure, Except.pure, Except.ok.injEq, Prod.mk.injEq, Option.some.injEq] at h
              exact ⟨m, by rw [← h.1]; exact (getCapability_mem hc).1⟩
            · simp only [hle, if_false] at h
              exact ih h

theorem proofFor_mem {g : Group} {signer : Id} {can : Access} {p : Dlg} (h : g.proofFor N signer can = .ok (some p)) :
    ∃ m, g.MemberBy m p := by
  unfold Group.proofFor at h
  by_cases h1 : g.id = signer
  · simp [h1] at h
  · simp only [h1, if_false] at h
    cases hc : g.getCapability signer with
    | some q =>
      simp only [hc] at h
      by_cases h2 : q.can < can
      · simp [h2] at h
      · simp only [h2, if_false, Except.ok.injEq, Option.some.injEq] at h
        exact ⟨signer, by rw [← h]; exact (getCapability_mem hc).1⟩
    | none =>
      simp only [hc, bind, Except.bind] at h
      cases hf : g.findProof N signer can (AMap.keys g.members) none with
      | error e => simp [hf] at h
      | ok q =>
        obtain ⟨q1, q2⟩ := q
        cases q1 with
        | some x =>
          simp only [hf, pure, Except.pure, Except.ok.injEq, Option.some.injEq] at h
          subst h
          exact findProof_mem hf
        | none => cases q2 <;> simp [hf, throw, throwThe, MonadExceptOf.throw] at h

theorem proofFor_none {g : Group} {signer : Id} {can : Access} (h : g.proofFor N signer can = .ok none) : signer = g.id := by
  unfold Group.proofFor at h
  by_cases h1 : g.id = signer
  · exact h1.symm
  · exfalso
    simp only [h1, if_false] at h
    cases hc : g.getCapability signer with
    | some q =>
      simp only [hc] at h
      by_cases h2 : q.can < can <;> simp [h2] at h
    | none =>
      simp only [hc, bind, Except.bind] at h
      cases hf : g.findProof N signer can (AMap.keys g.members) none with
      | error e => simp [hf] at h
      | ok q =>
        obtain ⟨q1, q2⟩ := q
        cases q1 with
        | some x => simp [hf, pure, Except.pure] at h
        | none => cases q2 <;> simp [hf, throw, throwThe, MonadExceptOf.throw] at h

theorem dlg_mk (i : Id) (s : Nat) (a : Agent) (c : Access) (p : Option Dlg) (af : List Rev) (ct : Content) :
    (Dlg.mk i s a c p af ct).issuer = i ∧ (Dlg.mk i s a c p af ct).delegate = a ∧ (Dlg.mk i s a c p af ct).can = c ∧
      (Dlg.mk i s a c p af ct).proof = p := by
  cases p <;> exact ⟨rfl, rfl, rfl, rfl⟩

theorem nestedProof_none {g : Group} {signer : Id} {min : Access} {ms : List Id}
    (h : ∀ m p, g.MemberBy m p → ∀ tm b x, N p.delegate = .ok (some tm) → AMap.get tm signer = some (b, x) → ¬ min ≤ x) :
    ∀ p, g.nestedProof N signer min ms ≠ .ok (some p) := by
  induction ms with
  | nil => intro p hp; simp [Group.nestedProof] at hp
  | cons m ms ih =>
    intro p hp
    unfold Group.nestedProof at hp
    cases hc : g.getCapability m with
    | none => simp only [hc] at hp; exact ih p hp
    | some dlg =>
      simp only [hc, bind, Except.bind] at hp
      cases hN : N dlg.delegate with
      | error e => simp [hN] at hp
      | ok o =>
        cases o with
        | none => simp only [hN] at hp; exact ih p hp
        | some tm =>
          simp only [hN] at hp
          cases hg : AMap.get tm signer with
          | none => simp only [hg] at hp; exact ih p hp
          | some q =>
            obtain ⟨b, access⟩ := q
            simp only [hg] at hp
            have := h m dlg (getCapability_mem hc).1 tm b access hN hg
            simp only [this, if_false] at hp
            exact ih p hp

/-! ## `revoke_member` by the group key or by the issuer of the member's delegations -/

/-- The proof used for such a revocation. -/
def plainProof (g : Group) (signer : Id) (d : Dlg) : Option Dlg := if signer = g.id then none else some d

theorem ownProofs_plain {g : Group} (ht : g.Tidy) {member signer : Id} (hne : signer ≠ member) {d : Dlg} (hd : d.issuer = signer) :
    g.ownProofs member signer d = [some d] := by
  unfold Group.ownProofs
  have h1 : ((AMap.get g.members signer).getD []).filter
      (fun d => decide (d.delegate.id = member) && decide (d.can = .admin)) = [] := by
    rw [List.filter_eq_nil_iff]
    intro x hx
    cases hg : AMap.get g.members signer with
    | none => rw [hg] at hx; simp at hx
    | some ds =>
      rw [hg] at hx
      have := ht.2.2 signer x ⟨ds, hg, hx⟩
      simp [this, hne]
  rw [h1, if_pos hd]
  rfl

theorem Run.good {g g' : Group} {l : List Op} (h : HeadsOk H g) (hb : Rebuilt H g) (hr : Run H g l g') :
    HeadsOk H g' ∧ Rebuilt H g' ∧ g'.id = g.id := by
  induction hr with
  | nil => exact ⟨h, hb, rfl⟩
  | snoc _ ha ih =>
    obtain ⟨i1, i2, i3⟩ := ih
    obtain ⟨h1, h2, h3⟩ := accepts_step ha i1
    exact ⟨h1, h2, h3.trans i3⟩

theorem revokeEach_plain {member signer : Id} {content : Content} (ds : List Dlg) {g g' : Group} {done out : List Rev}
    (hg : HeadsOk H g) (hb : Rebuilt H g) (hp : signer = g.id ∨ (signer ≠ member ∧ ∀ d ∈ ds, d.issuer = signer))
    (h : g.revokeEach H N S member signer content ds done = (g', .ok out)) :
    ∃ revs, out = done ++ revs ∧ Run H g (revs.map Op.rev) g' ∧ revs.map Rev.revoke = ds ∧
      ∀ r ∈ revs, ∃ s, S (.rev (.mk signer 0 r.revoke (plainProof g signer r.revoke) content)) = some s ∧
        r = .mk signer s r.revoke (plainProof g signer r.revoke) content := by
  induction ds generalizing g done with
  | nil =>
    simp only [Group.revokeEach, Prod.mk.injEq, Except.ok.injEq] at h
    obtain ⟨rfl, rfl⟩ := h
    exact ⟨[], by simp, .nil, rfl, by simp⟩
  | cons d ds ih =>
    unfold Group.revokeEach at h
    have hstep : (if signer = g.id then Group.issueAll H N S signer d content g [none] done
        else Group.revokeOne H N S member signer content g d done) =
        Group.issueAll H N S signer d content g [plainProof g signer d] done := by
      unfold plainProof
      by_cases h1 : signer = g.id
      · simp [h1]
      · simp only [h1, if_false]
        obtain ⟨h2, h3⟩ := hp.resolve_left h1
        unfold Group.revokeOne
        rw [ownProofs_plain hb.tidy h2 (h3 d (by simp))]
    rw [hstep] at h
    unfold Group.issueAll at h
    cases hi : g.issueRevocation H N S signer d (plainProof g signer d) content with
    | error e => simp [hi] at h
    | ok gr =>
      obtain ⟨g1, r⟩ := gr
      simp only [hi, Group.issueAll] at h
      obtain ⟨s, e1, e2, e3⟩ := issueRevocation_ok hi
      have hacc : Accepts H g (.rev r) g1 := .rev N e3
      obtain ⟨k1, k2, k3⟩ := accepts_step hacc hg
      have hp' : signer = g1.id ∨ (signer ≠ member ∧ ∀ d ∈ ds, d.issuer = signer) := by
        rw [k3]
        exact hp.imp id (fun h => ⟨h.1, fun x hx => h.2 x (by simp [hx])⟩)
      obtain ⟨revs, j1, j2, j3, j4⟩ := ih k1 k2 hp' h
      have hpp : ∀ x, plainProof g1 signer x = plainProof g signer x := by intro x; unfold plainProof; rw [k3]
      have hrv : r.revoke = d := by
        rw [e2]
        cases plainProof g signer d <;> rfl
      refine ⟨r :: revs, by rw [j1]; simp, ?_, by simp [hrv, j3], ?_⟩
      · have := (Run.one hacc).append j2
        simpa using this
      · intro x hx
        rcases List.mem_cons.1 hx with rfl | hx
        · exact ⟨s, by rw [hrv]; exact e1, by rw [hrv]; exact e2⟩
        · obtain ⟨s', q1, q2⟩ := j4 x hx
          rw [hpp] at q1 q2
          exact ⟨s', q1, q2⟩

theorem rev_mk_proof (signer : Id) (s : Nat) (d : Dlg) (p : Option Dlg) (c : Content) :
    (Rev.mk signer s d p c).proof = p ∧ (Rev.mk signer s d p c).issuer = signer ∧ (Rev.mk signer s d p c).revoke = d := by
  cases p <;> exact ⟨rfl, rfl, rfl⟩

theorem members_held {g : Group} (hb : Rebuilt H g) (hc : NoClash H g.heads) (hs : NoClash Op.sig g.heads) {m : Id} {d : Dlg}
    (h : g.MemberBy m d) : g.Holds (.dlg d) :=
  history_below hc ((history_view hc hs).mem ((mem_view hb).1 h)).2.1

/-- Revoking every delegation of a member in a group without revocations removes the member. -/
theorem revoke_removes {g g' : Group} (hr : HeadsOk H g ∧ Rebuilt H g) (hne : g.dlgHeads ≠ []) {revs : List Rev} (hrun : Run H g (revs.map Op.rev) g')
    (hc : NoClash H (g.heads ++ revs.map Op.rev)) (hs : NoClash Op.sig (g.heads ++ revs.map Op.rev))
    (hu : PayloadUnique (g.heads ++ revs.map Op.rev)) (hnone : ∀ r, ¬ g.Holds (.rev r))
    (hown : ∀ d, g.Holds (.dlg d) → d.subject = g.id) {m : Id}
    (hall : ∀ d, g.MemberBy m d → ∃ r ∈ revs, r.revoke = d) (hrev : ∀ r ∈ revs, g.MemberBy m r.revoke)
    (hself : ∀ r ∈ revs, (r.proof = none ∧ r.issuer = g.id) ∨ r.proof = some r.revoke)
    (hfun : ∀ r ∈ revs, ∀ r' ∈ revs, r.revoke = r'.revoke → r = r') : ∀ d, ¬ g'.MemberBy m d := by
  obtain ⟨hg, hb⟩ := hr
  obtain ⟨hg', hb', hid⟩ := Run.good hg hb hrun
  obtain ⟨-, -, hholds⟩ := holds_run hg hne hc hs hu hrun
  have hsub : ∀ x ∈ g.heads, Below (g.heads ++ revs.map Op.rev) x := fun x hx => Below.head (by simp [hx])
  have hc0 : NoClash H g.heads := hc.mono hsub
  have hs0 : NoClash Op.sig g.heads := hs.mono hsub
  have hsub' : ∀ x ∈ g'.heads, Below (g.heads ++ revs.map Op.rev) x := fun x hx => (hholds x).1 (Below.head hx)
  have hc' : NoClash H g'.heads := hc.mono hsub'
  have hs' : NoClash Op.sig g'.heads := hs.mono hsub'
  have hrevHeld : ∀ r ∈ revs, g.Holds (.dlg r.revoke) := fun r h => members_held hb hc0 hs0 (hrev r h)
  -- what is held afterwards
  have hsplit : ∀ op, g'.Holds op → g.Holds op ∨ ∃ r ∈ revs, op = .rev r := by
    intro op ho
    obtain ⟨x, hx, hrt⟩ := (hholds op).1 ho
    rcases List.mem_append.1 hx with hx | hx
    · exact Or.inl ⟨x, hx, hrt⟩
    · obtain ⟨r, hr1, rfl⟩ := List.mem_map.1 hx
      rcases Relation.ReflTransGen.cases_head hrt with rfl | ⟨b, h1, h2⟩
      · exact Or.inr ⟨r, hr1, rfl⟩
      · left
        have hbb : g.Holds b := by
          rcases mem_after_rev.1 h1 with rfl | ⟨p, hp, rfl⟩
          · exact hrevHeld r hr1
          · rcases hself r hr1 with ⟨h3, _⟩ | h3
            · rw [h3] at hp; cases hp
            · rw [h3] at hp; cases hp; exact hrevHeld r hr1
        exact hbb.trans h2
  have hrevs : ∀ r, g'.Holds (.rev r) → r ∈ revs := by
    intro r h
    rcases hsplit _ h with h | ⟨r', h1, h2⟩
    · exact absurd h (hnone r)
    · cases h2; exact h1
  have hdirect' : Direct g'.heads := by
    intro r h p hp
    rcases hself r (hrevs r h) with ⟨h1, _⟩ | h1
    · rw [h1] at hp; cases hp
    · rw [h1] at hp; cases hp; exact Or.inl rfl
  have hdirect : Direct g.heads := fun r h => absurd h (hnone r)
  have hac' := acyclic_of_direct hs' hdirect'
  have hac := acyclic_of_direct hs0 hdirect
  have hsole : Sole g'.heads := by
    intro r r' h h' he
    have k1 := hrevs r h
    have k2 := hrevs r' h'
    refine hfun r k1 r' k2 ?_
    have := hs0 (.dlg r.revoke) (.dlg r'.revoke) (hrevHeld r k1) (hrevHeld r' k2) he
    injection this
  intro d hd
  have hS := View.sinv (gid := g'.id) (ctx_of hs') (g'.history H) (fun _ ho => history_below hc' ho) (rev_first hc' hsole)
  have hin := hS.inPlay ((mem_view hb').1 hd)
  have hm' := (history_view hc' hs').mem ((mem_view hb').1 hd)
  have hheld : g.Holds (.dlg d) := by
    rcases hsplit _ (history_below hc' hm'.2.1) with h | ⟨r, _, h⟩
    · exact h
    · cases h
  have hmem : g.MemberBy m d := by
    rw [← hm'.1]
    refine (mem_view hb).2 (View.clean_mem (ctx_of hs0) _ (fun _ ho => history_below hc0 ho) (proof_first hc0 hac)
      ((history_complete hc0 hac).2 hheld) (hown d hheld) ?_)
    intro r hr1
    exact absurd (history_below hc0 hr1) (hnone r)
  obtain ⟨r, hr1, rfl⟩ := hall d hmem
  have hrh : g'.Holds (.rev r) := (hholds _).2 (Below.head (by simp [hr1]))
  obtain ⟨l1, l2, hl⟩ := List.append_of_mem ((history_complete hc' hac').2 hrh)
  have hbefore := history_causal hc' hac' hl (b := .dlg r.revoke) (mem_after_rev.2 (Or.inl rfl))
  have hout := View.self_revoked (gid := g'.id) (ctx_of hs') l1 l2 (r := r)
    (fun o ho => history_below hc' (by rw [hl]; exact ho)) (by rw [← hl]; exact history_nodup' hc')
    (by rw [hid]; exact hself r hr1) hbefore
  rw [← hl] at hout
  rw [hin] at hout
  cases hout

theorem vetted_reach {g : Group} (h : Vetted H g) : Reach H g := by
  induction h with
  | new h => exact .new h
  | generate h1 h2 => exact .generate h1 h2
  | dlg W held _ _ h ih => exact .accept ih (.dlg _ h)
  | rev W held _ _ h ih => exact .accept ih (.rev _ h)

theorem below_alone {heads : List Op} (h : ∀ x ∈ heads, x.after = []) {o : Op} (ho : Below heads o) : o ∈ heads := by
  obtain ⟨x, hx, hr⟩ := ho
  rcases Relation.ReflTransGen.cases_head hr with h2 | ⟨b, h2, h3⟩
  · rw [← h2]; exact hx
  · unfold Dep at h2
    rw [h x hx] at h2
    cases h2

theorem vetted_backed {g : Group} (h : Vetted H g) {d : Dlg} (hd : g.Holds (.dlg d)) :
    ∃ W held, Backed (membersOf W held) d.can g.id d := by
  induction h generalizing d with
  | new h ha =>
    rename_i e
    obtain ⟨_, h1, _⟩ := new_ok (H := H) e
    unfold Group.Holds at hd
    have := below_alone (by rw [h1]; simp [Op.after, h, ha]) hd
    rw [h1, List.mem_singleton] at this
    cases this
    exact ⟨[], [], .root h rfl⟩
  | generate h1 h2 =>
    rename_i S' id' parents' content' _
    obtain ⟨heads, rfl, k1, k2, k3⟩ := generate_ok h2
    have hall : ∀ x ∈ (Group.rebuild H ⟨id', [], [], heads, []⟩).heads, ∃ a s, x = .dlg (.mk id' s a .admin none [] content') := by
      intro x hx
      simp only [Group.heads, Group.rebuild, List.mem_append, List.mem_map] at hx
      rcases hx with ⟨y, hy, rfl⟩ | ⟨y, hy, rfl⟩
      · obtain ⟨⟨k, z⟩, hz, rfl⟩ := List.mem_map.1 hy
        obtain ⟨_, a, _, s, h3⟩ := k3 k z (AMap.get_of_mem k1 hz)
        exact ⟨a, s, by simpa using h3⟩
      · simp [AMap.values] at hy
    have := below_alone (fun x hx => by obtain ⟨a, s, rfl⟩ := hall x hx; rfl) hd
    obtain ⟨a, s, h3⟩ := hall _ this
    injection h3 with h3
    subst h3
    exact ⟨[], [], .root rfl rfl⟩
  | dlg W held hv hdep h ih =>
    have hg := (reach_good (vetted_reach hv)).1
    have hid : _ = _ := (accepts_step (.dlg _ h) hg).2.2
    rw [hid]
    rcases holds_sub hg (.dlg _ h) hd with h1 | h1 | ⟨b, h1, h2⟩
    · exact ih h1
    · cases h1
      exact ⟨W, held, receive_iff.1 ⟨_, h⟩⟩
    · refine ih ?_
      obtain ⟨x, hx, hr⟩ := h2
      rw [List.mem_singleton] at hx
      subst hx
      exact (hdep _ h1).trans hr
  | rev W held hv hdep h ih =>
    have hg := (reach_good (vetted_reach hv)).1
    have hid : _ = _ := (accepts_step (.rev _ h) hg).2.2
    rw [hid]
    rcases holds_sub hg (.rev _ h) hd with h1 | h1 | ⟨b, h1, h2⟩
    · exact ih h1
    · cases h1
    · refine ih ?_
      obtain ⟨x, hx, hr⟩ := h2
      rw [List.mem_singleton] at hx
      subst hx
      exact (hdep _ h1).trans hr

end Verif.Group
