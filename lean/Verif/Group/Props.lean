import Verif.Group.RefuseLemmas
import Verif.Group.DownLemmas
import Verif.Group.Sample
import Verif.Group.LockLemmas

/-!
# Properties of groups

Statements use the vocabulary of `Verif.Group.Spec`. `H` is the digest of an operation; `NoClash H heads` says that the operations
below `heads` have different digests, `NoClash Op.sig heads` that they have different signatures. `N` is what a group sees of the
members of other groups, `S` signs.
-/

namespace Verif.Group.Props

open Sample

variable {H : Op → Nat} {N : Nested} {S : Op → Option Nat}

/-! ## C21, C22, C23: delegations -/

/-- C21: a delegation is accepted exactly when it has a proof chain rooted in the group. -/
theorem C21_accepted_iff_backed (g : Group) (d : Dlg) :
    (∃ g', g.receiveDelegation H N d = .ok g') ↔ Backed N d.can g.id d := receive_iff

example : Backed noN .edit 100 d2 :=
  .link rfl (by decide) (Or.inl rfl) (.link rfl (by decide) (Or.inl rfl) (.root rfl rfl))
example : ¬ ∃ g', g0.receiveDelegation Sample.H noN x66 = .ok g' := by
  rintro ⟨g', h⟩
  have : isOk (g0.receiveDelegation Sample.H noN x66) = false := by decide +kernel
  rw [h] at this
  cases this

/-- C21 when every operation is received after the operations it names: every delegation held has a chain. -/
theorem C21_held_backed_partial {g : Group} (h : Vetted H g) {d : Dlg} (hd : g.Holds (.dlg d)) :
    ∃ W held, Backed (membersOf W held) d.can g.id d := vetted_backed h hd

example : ∃ g, Vetted Sample.H g ∧ g.Holds (.dlg d1) := by
  have h : g0.receiveDelegation Sample.H (membersOf [] [100]) d1 = .ok (okG (deliver noN g0 [.dlg d1])) := by decide +kernel
  refine ⟨_, .dlg [] [100] (.new rfl rfl) ?_ h, Below.head (by decide +kernel)⟩
  intro b hb
  have : b = .dlg p0 := by
    rcases mem_after_dlg.1 hb with ⟨p, h1, rfl⟩ | ⟨r, h1, rfl⟩
    · cases h1; rfl
    · cases h1
  subst this
  exact Below.head (by decide +kernel)

/-- C21 in any reachable state: every member is there for a reason (see `Justified`). -/
theorem C21_member_justified_partial {g : Group} (h : Reach H g) (hc : NoClash H g.heads) (hs : NoClash Op.sig g.heads) {m : Id} {d : Dlg}
    (hm : g.MemberBy m d) : Justified g.id g.Holds d :=
  ((history_view hc hs).mem ((mem_view (reach_good h).2).1 hm)).2.2.1

example : Reach Sample.H gCarol ∧ NoClash Sample.H gCarol.heads ∧ gCarol.MemberBy 3 d2 :=
  ⟨gCarol_reach, noClash_of [.dlg p0, .dlg d1, .dlg d2] (by decide +kernel) (by decide +kernel), [d2], by decide +kernel, by simp⟩

theorem backed_individual {W : World} {held : List Id} {c : Access} {gid : Id} {d p : Dlg} (h : Backed (membersOf W held) c gid d)
    (hp : d.proof = some p) (hk : p.delegate.isMembered = false) : d.issuer = p.delegate.id := by
  cases h with
  | root h1 => rw [h1] at hp; cases hp
  | link h1 h2 h3 h4 =>
    rw [h1] at hp
    cases hp
    rcases h3 with h3 | ⟨tm, b, x, e1, _⟩
    · exact h3
    · unfold membersOf at e1
      simp [hk] at e1

/-- C21 fails without this: a revocation brings along the delegation it revokes and everything above it, and these are not
checked. Here a stranger becomes an admin of the group. -/
theorem C21_fails : ∃ g, Reach Sample.H g ∧ NoClash Sample.H g.heads ∧ ∃ d, g.MemberBy 66 d ∧ d.can = .admin ∧
    ¬ ∃ W held, Backed (membersOf W held) d.can g.id d := by
  refine ⟨g66, g66_reach, noClash_of [.dlg p0, .dlg x66, .dlg y66, .rev r66] (by decide +kernel) (by decide +kernel),
    x66, ⟨[x66], by decide +kernel, by simp⟩, rfl, ?_⟩
  rintro ⟨W, held, h⟩
  have := backed_individual h rfl rfl
  exact absurd this (by decide)

/-- C22: an accepted delegation grants at most what each delegation of its proof chain grants. -/
theorem C22_no_escalation {g g' : Group} {d : Dlg} (h : g.receiveDelegation H N d = .ok g') : ∀ a ∈ d.lineage, d.can ≤ a.can :=
  backed_lineage (receive_iff.1 ⟨g', h⟩)

/-- C22 for delegations made locally. -/
theorem C22_no_escalation_local {g g' : Group} {who : Agent} {can : Access} {signer : Id} {content : Content} {d : Dlg}
    (h : g.addMember H N S who can signer content = .ok (g', d)) : d.can = can ∧ ∀ a ∈ d.lineage, can ≤ a.can := by
  obtain ⟨proof, s, h1, h2, h3, h4⟩ := addMember_ok h
  have hc : d.can = can := by rw [h3]; exact (dlg_mk _ _ _ _ _ _ _).2.2.1
  refine ⟨hc, fun a ha => ?_⟩
  rw [← hc]
  exact C22_no_escalation h4 a ha

example : ∃ g', g0.receiveDelegation Sample.H noN d1 = .ok g' := ⟨_, okG_eq (by decide +kernel)⟩
example : isOk (gCarol.receiveDelegation Sample.H noN (.link 3 19 (ind 5) .admin d2 .nil [])) = false := by decide +kernel
example : isOk (gCarol.addMember Sample.H noN S99 (ind 5) .read 3 []) = true := by decide +kernel

/-- C23: a delegation about another group is refused. -/
theorem C23_other_subject_delegation (g : Group) {d : Dlg} (h : d.subject ≠ g.id) :
    g.receiveDelegation H N d = .error .invalidSubject := by
  unfold Group.receiveDelegation Group.addDelegation
  simp [h, bind, Except.bind, throw, throwThe, MonadExceptOf.throw]

/-- C23: a revocation about another group is refused. -/
theorem C23_other_subject_revocation (g : Group) {r : Rev} (h : r.subject ≠ g.id) :
    g.receiveRevocation H N r = .error .invalidSubject := by
  unfold Group.receiveRevocation Group.addRevocation
  simp [h, bind, Except.bind, throw, throwThe, MonadExceptOf.throw]

/-- C23: what is accepted is about the group: its chain of proofs was started by the group key. -/
theorem C23_accepted_subject {g g' : Group} {o : Op} (h : Accepts H g o g') : o.subject = g.id := by
  cases h with
  | dlg N h => exact backed_subject (receive_iff.1 ⟨_, h⟩)
  | rev N h => exact (receiveRevocation_grounds h).1

example : (Dlg.link 6 40 (ind 7) .read (.root 200 30 (ind 6) .admin .nil []) .nil []).subject ≠ g0.id := by decide

/-! ## C24–C26: revocations -/

/-- C24: a revocation is accepted exactly on these grounds (see `Grounds`). Missing from the full property: when the proof is
the revoked delegation or above it, nobody checks that the issuer has anything to do with it (`C24_fails`); and nobody checks that
the proof is about this group (`C24_foreign_fails`). -/
theorem C24_accepted_iff_grounds_partial (g : Group) (r : Rev) :
    (∃ g', g.receiveRevocation H N r = .ok g') ↔ r.subject = g.id ∧ Grounds N g.id r := receiveRevocation_iff

example : Grounds noN 100 rBobByAlice :=
  Or.inr ⟨p0, rfl, ⟨100, .root rfl rfl⟩, Or.inl (Or.inr ⟨p0, by decide, by decide⟩)⟩
/-- A revocation without proof by someone else is refused. -/
example : ¬ Grounds noN 100 (.root 66 40 d1 []) := by
  rintro (⟨_, h⟩ | ⟨p, h, _⟩)
  · exact absurd h (by decide)
  · cases h

/-- C24 fails: a stranger, who neither issued nor received any delegation of the group, removes the only admin. -/
theorem C24_fails : ∃ g g', Reach Sample.H g ∧ (∀ d, g.Holds (.dlg d) → d.issuer ≠ 66 ∧ d.delegate.id ≠ 66) ∧
    ∃ r, r.issuer = 66 ∧ g.receiveRevocation Sample.H noN r = .ok g' ∧ (∃ d, g.MemberBy 1 d ∧ d.can = .admin) ∧ ¬ ∃ d, g'.MemberBy 1 d := by
  refine ⟨okG (deliver noN g0 [.dlg d1]), okG (deliver noN g0 [.dlg d1, .rev rStranger]), deliver_reach rfl (by decide +kernel), ?_,
    rStranger, rfl, by decide +kernel, ⟨p0, ⟨[p0], by decide +kernel, by simp⟩, rfl⟩, ?_⟩
  · intro d hd
    have hcl : Closed (okG (deliver noN g0 [.dlg d1])).heads [.dlg p0, .dlg d1] := by decide +kernel
    have h := hcl.below hd
    simp only [List.mem_cons, Op.dlg.injEq, List.not_mem_nil, or_false] at h
    rcases h with rfl | rfl <;> decide
  · rintro ⟨d, ds, h, _⟩
    have : AMap.get (okG (deliver noN g0 [.dlg d1, .rev rStranger])).members 1 = none := by decide +kernel
    rw [this] at h
    cases h

/-- The stranger's own team 900, … -/
def ownTeam : Group := Group.new Sample.H (.root 900 90 (ind 66) .admin .nil [])
/-- … which they make a member of their own team 901. -/
def ownProof : Dlg := .root 901 91 (grp 900) .admin .nil []
/-- The stranger revokes Alice, with this as proof. -/
def rForeign : Rev := .via 66 92 p0 ownProof []

/-- C24 fails in another way: the proof may be about another group. A stranger removes the only admin on the strength of a team
they made for the purpose; the proof is not about the group, and not the revoked delegation. -/
theorem C24_foreign_fails : ∃ W g g', Reach Sample.H g ∧ (∀ d, g.Holds (.dlg d) → d.issuer ≠ 66 ∧ d.delegate.id ≠ 66) ∧
    ∃ r p, r.issuer = 66 ∧ r.proof = some p ∧ p.subject ≠ g.id ∧ (∀ d, g.Holds (.dlg d) → d ≠ p) ∧
      g.receiveRevocation Sample.H (membersOf W []) r = .ok g' ∧ (∃ d, g.MemberBy 1 d ∧ d.can = .admin) ∧ ¬ ∃ d, g'.MemberBy 1 d := by
  have hd : ∀ d, (okG (deliver noN g0 [.dlg d1])).Holds (.dlg d) → d = p0 ∨ d = d1 := by
    intro d hd
    have hcl : Closed (okG (deliver noN g0 [.dlg d1])).heads [.dlg p0, .dlg d1] := by decide +kernel
    simpa using hcl.below hd
  refine ⟨[(900, ownTeam)], okG (deliver noN g0 [.dlg d1]),
    okG (deliver (membersOf [(900, ownTeam)] []) (okG (deliver noN g0 [.dlg d1])) [.rev rForeign]), deliver_reach rfl (by decide +kernel), ?_,
    rForeign, ownProof, rfl, rfl, by decide +kernel, ?_, by decide +kernel, ⟨p0, ⟨[p0], by decide +kernel, by simp⟩, rfl⟩, ?_⟩
  · intro d h
    rcases hd d h with rfl | rfl <;> decide
  · intro d h
    rcases hd d h with rfl | rfl <;> decide
  · rintro ⟨d, ds, h, _⟩
    have : AMap.get (okG (deliver (membersOf [(900, ownTeam)] []) (okG (deliver noN g0 [.dlg d1])) [.rev rForeign])).members 1 = none := by
      decide +kernel
    rw [this] at h
    cases h
/-- C25 when no delegation is revoked twice: a delegation whose revocation is in effect makes nobody a member. -/
theorem C25_revoked_not_member_partial {g : Group} (h : Reach H g) (hc : NoClash H g.heads) (hs : NoClash Op.sig g.heads)
    (hsole : Sole g.heads) {r : Rev} (hr : g.InEffect r) (m : Id) : ¬ g.MemberBy m r.revoke := by
  intro hm
  have hb := (reach_good h).2
  have hS := View.sinv (gid := g.id) (ctx_of hs) (g.history H) (fun _ ho => history_below hc ho) (rev_first hc hsole)
  have hR := history_view hc hs
  have h1 := hS.inPlay ((mem_view hb).1 hm)
  exact (hR.play h1).2.2.1 (hR.act ((effect_view hb).1 hr)).2.2

example : Sole gBobOut.heads ∧ gBobOut.InEffect rBobSelf ∧ Reach Sample.H gBobOut ∧ NoClash Sample.H gBobOut.heads :=
  ⟨sole_of [.dlg p0, .dlg d1, .dlg d2, .rev rBobSelf] (by decide +kernel) (by decide +kernel), by unfold Group.InEffect; decide +kernel,
    gBobOut_reach, noClash_of [.dlg p0, .dlg d1, .dlg d2, .rev rBobSelf] (by decide +kernel) (by decide +kernel)⟩

/-- C25 in general: a delegation whose revocation is in effect can make someone a member only below another delegation whose
revocation is in effect; never a root delegation. -/
theorem C25_revoked_above_partial {g : Group} (h : Reach H g) (hc : NoClash H g.heads) (hs : NoClash Op.sig g.heads)
    {r : Rev} (hr : g.InEffect r) {m : Id} (hm : g.MemberBy m r.revoke) :
    ∃ a ∈ r.revoke.lineage, ∃ r', g.InEffect r' ∧ r'.revoke.sig = a.sig := by
  have hb := (reach_good h).2
  obtain ⟨a, h1, r', h2, h3⟩ := View.member_revoked (ctx_of hs) (fun _ ho => history_below hc ho) (history_view hc hs)
    ((mem_view hb).1 hm) ((effect_view hb).1 hr) rfl
  exact ⟨a, h1, r', (effect_view hb).2 h2, h3⟩

/-- C25 fails: with two revocations of one delegation, a delegation below it outlives its own revocation. -/
theorem C25_fails : ∃ g r m, Reach Sample.H g ∧ NoClash Sample.H g.heads ∧ PayloadUnique g.heads ∧
    g.InEffect r ∧ g.MemberBy m r.revoke :=
  ⟨gA, q2, 200, gA_reach, noClash_of (.dlg p0 :: orderA) (by decide +kernel) (by decide +kernel),
    payloadUnique_of (.dlg p0 :: orderA) (by decide +kernel) (by decide +kernel), by unfold Group.InEffect; decide +kernel,
    [k2], by decide +kernel, by simp [q2, Rev.revoke]⟩

/-- C26 when no delegation is revoked twice: whoever is still a member through a delegation whose proof is revoked is there
because the issuer of that proof is the group key, or had another delegation with at least that access. -/
theorem C26_cascade_partial {g : Group} (h : Reach H g) (hc : NoClash H g.heads) (hs : NoClash Op.sig g.heads)
    (hsole : Sole g.heads) {r : Rev} (hr : g.InEffect r) {m : Id} {d p : Dlg} (hm : g.MemberBy m d) (hp : d.proof = some p)
    (hrev : r.revoke.sig = p.sig) :
    p.issuer = g.id ∨ ∃ a, g.Holds (.dlg a) ∧ a ≠ p ∧ a.delegate.id = p.issuer ∧ p.can ≤ a.can ∧ Justified g.id g.Holds a := by
  have hb := (reach_good h).2
  have hS := View.sinv (gid := g.id) (ctx_of hs) (g.history H) (fun _ ho => history_below hc ho) (rev_first hc hsole)
  have hR := history_view hc hs
  have hre := (hR.act ((effect_view hb).1 hr)).2.2
  rw [hrev] at hre
  obtain ⟨l1, l2, hl, ho⟩ := hS.other ((mem_view hb).1 hm) hp hre
  rcases ho with ⟨h1, _⟩ | ⟨a, h1, h2, h3⟩
  · exact Or.inl h1
  · have hsub : ∀ o ∈ l1, Below g.heads o := fun o ho => history_below hc (by rw [hl]; simp [ho])
    have hm' := (View.replay_inv (gid := g.id) (ctx_of hs) l1 hsub).mem h1
    exact Or.inr ⟨a, hsub _ hm'.2.1, h2, hm'.1, h3, hm'.2.2.1⟩

example : gBobOut.InEffect rBobSelf ∧ gBobOut.MemberBy 3 d2 ∧ d2.proof = some d1 ∧ rBobSelf.revoke.sig = d1.sig :=
  ⟨by unfold Group.InEffect; decide +kernel, ⟨[d2], by decide +kernel, by simp⟩, rfl, rfl⟩

/-- C26 fails: Carol was added by Bob, whose only delegation is revoked; Bob is out and Carol stays. -/
theorem C26_fails : ∃ g r d, Reach Sample.H g ∧ NoClash Sample.H g.heads ∧ Sole g.heads ∧ Direct g.heads ∧ g.InEffect r ∧
    d.proof = some r.revoke ∧ d.issuer = r.revoke.delegate.id ∧ (¬ ∃ e, g.MemberBy d.issuer e) ∧
    (∀ e, g.Holds (.dlg e) → e.delegate.id = d.issuer → e = r.revoke) ∧ g.MemberBy d.delegate.id d := by
  have hcl : Closed gBobOut.heads [.dlg p0, .dlg d1, .dlg d2, .rev rBobSelf] := by decide +kernel
  refine ⟨gBobOut, rBobSelf, d2, gBobOut_reach, noClash_of _ hcl (by decide +kernel), sole_of _ hcl (by decide +kernel),
    direct_of _ hcl (by decide +kernel), by unfold Group.InEffect; decide +kernel, rfl, rfl, ?_, ?_, ⟨[d2], by decide +kernel, by simp⟩⟩
  · rintro ⟨e, ds, h, _⟩
    have : AMap.get gBobOut.members d2.issuer = none := by decide +kernel
    rw [this] at h
    cases h
  · intro e he hid
    have h := hcl.below he
    simp only [List.mem_cons, Op.dlg.injEq, List.not_mem_nil, or_false, reduceCtorEq] at h
    rcases h with rfl | rfl | rfl
    · exact absurd hid (by decide)
    · rfl
    · exact absurd hid (by decide)

/-! ## C27, C28: replay -/

/-- C27 when no delegation is revoked twice and no payload is signed by two keys: the same operations accepted in any two
orders give the same members, the same revocations in effect, the same revoked members and the same history. -/
theorem C27_order_independent_partial {g g1 g2 : Group} {l1 l2 : List Op} (hr : Reach H g) (hne : g.dlgHeads ≠ [])
    (h1 : Run H g l1 g1) (h2 : Run H g l2 g2) (hsame : ∀ o, o ∈ l1 ↔ o ∈ l2) (hc : NoClash H (g.heads ++ l1))
    (hs : NoClash Op.sig (g.heads ++ l1)) (hu : PayloadUnique (g.heads ++ l1)) (hsole : Sole (g.heads ++ l1)) :
    g1.members = g2.members ∧ g1.active = g2.active ∧ g1.revokedMembers = g2.revokedMembers ∧ g1.history H = g2.history H := by
  obtain ⟨hg, hb⟩ := reach_good hr
  have heq : ∀ x, x ∈ g.heads ++ l1 ↔ x ∈ g.heads ++ l2 := fun x => by simp [hsame x]
  have hbel : ∀ o, Below (g.heads ++ l2) o ↔ Below (g.heads ++ l1) o := fun o =>
    ⟨Below.mono fun x hx => (heq x).2 hx, Below.mono fun x hx => (heq x).1 hx⟩
  obtain ⟨_, hb1, hid1⟩ := Run.good hg hb h1
  obtain ⟨_, hb2, hid2⟩ := Run.good hg hb h2
  obtain ⟨_, _, k1⟩ := holds_run hg hne hc hs hu h1
  obtain ⟨_, _, k2⟩ := holds_run hg hne (fun a b ha hb => hc a b ((hbel a).1 ha) ((hbel b).1 hb))
    (fun a b ha hb => hs a b ((hbel a).1 ha) ((hbel b).1 hb)) (fun a b ha hb => hu a b ((hbel _).1 ha) ((hbel _).1 hb)) h2
  obtain ⟨e1, e2, e3⟩ := same_view hb1 hb2 (hid1.trans hid2.symm) (fun a b ha hb => hc a b ((k1 a).1 ha) ((k1 b).1 hb))
    (fun a b ha hb => hsole a b ((k1 _).1 ha) ((k1 _).1 hb)) (fun op => (k1 op).trans ((hbel op).symm.trans (k2 op).symm))
  exact ⟨e1, e2, by unfold Group.revokedMembers; rw [e1, e2], e3⟩

example : let l1 : List Op := [.dlg d1, .dlg d2, .dlg f5, .rev rBobSelf]; let l2 : List Op := [.dlg f5, .dlg d1, .rev rBobSelf, .dlg d2]
    isOk (deliver noN g0 l1) = true ∧ isOk (deliver noN g0 l2) = true ∧ (∀ o, o ∈ l1 ↔ o ∈ l2) ∧ NoClash Sample.H (g0.heads ++ l1) ∧
      PayloadUnique (g0.heads ++ l1) ∧ Sole (g0.heads ++ l1) := by
  intro l1 l2
  have hcl : Closed (g0.heads ++ l1) (.dlg p0 :: l1) := by decide +kernel
  refine ⟨by decide +kernel, by decide +kernel, ?_, noClash_of _ hcl (by decide +kernel), payloadUnique_of _ hcl (by decide +kernel),
    sole_of _ hcl (by decide +kernel)⟩
  intro o
  simp only [l1, l2, List.mem_cons, List.not_mem_nil, or_false]
  tauto

/-- C27 fails with two revocations of one delegation: two replicas hold the same operations, and a group is a member in one
replica only. -/
theorem C27_fails : ∃ g g1 g2 l1 l2, Reach Sample.H g ∧ Run Sample.H g l1 g1 ∧ Run Sample.H g l2 g2 ∧ (∀ o, o ∈ l1 ↔ o ∈ l2) ∧
    NoClash Sample.H (g.heads ++ l1) ∧ PayloadUnique (g.heads ++ l1) ∧ (∃ m d, g1.MemberBy m d ∧ ¬ ∃ e, g2.MemberBy m e) := by
  have hcl : Closed (g0.heads ++ orderA) (.dlg p0 :: orderA) := by decide +kernel
  refine ⟨g0, gA, gB, orderA, orderB, .new rfl, deliver_run (okG_eq (by decide +kernel)), deliver_run (okG_eq (by decide +kernel)), ?_,
    noClash_of _ hcl (by decide +kernel), payloadUnique_of _ hcl (by decide +kernel), 200, k2, ⟨[k2], by decide +kernel, by simp⟩, ?_⟩
  · intro o
    simp only [orderA, orderB, List.mem_cons, List.not_mem_nil, or_false]
    tauto
  · rintro ⟨e, ds, h, _⟩
    have : AMap.get gB.members 200 = none := by decide +kernel
    rw [this] at h
    cases h

/-- C28 unless the operations have to precede each other in a circle: the replay order has exactly the operations held, each
once, and every operation after those it names. -/
theorem C28_causal_partial {g : Group} (hc : NoClash H g.heads) (ha : Acyclic g.heads) :
    (g.history H).Nodup ∧ (∀ o, o ∈ g.history H ↔ g.Holds o) ∧
      ∀ l a r, g.history H = l ++ a :: r → ∀ b, Dep a b → b ∈ l :=
  ⟨history_nodup' hc, fun _ => history_complete hc ha, fun _ _ _ hl _ hb => history_causal hc ha hl hb⟩

/-- C28: there is no such circle if every revocation is made with the group key, with the revoked delegation or with one above
it. -/
theorem C28_direct_acyclic_partial {heads : List Op} (hs : NoClash Op.sig heads) (hd : Direct heads) : Acyclic heads := acyclic_of_direct hs hd

/-- C28 in general: nothing twice, nothing that is not held. -/
theorem C28_sound_partial {g : Group} (hc : NoClash H g.heads) : (g.history H).Nodup ∧ ∀ o ∈ g.history H, g.Holds o :=
  ⟨history_nodup' hc, fun _ h => history_below hc h⟩

example : Direct gBobOut.heads := direct_of [.dlg p0, .dlg d1, .dlg d2, .rev rBobSelf] (by decide +kernel) (by decide +kernel)
example : (gBobOut.history Sample.H).map Op.sig = [10, 11, 14, 12] := by decide +kernel

/-- C28 fails: a member of a nested group revokes the delegation through which the nested group was added. The replay order is
then empty, and the group has no members at all. -/
theorem C28_fails : ∃ g, Reach Sample.H g ∧ NoClash Sample.H g.heads ∧ Sole g.heads ∧ (∃ o, g.Holds o) ∧ g.history Sample.H = [] ∧
    g.members = [] := by
  have hcl : Closed gC.heads [.dlg p0, .dlg dH, .rev rC] := by decide +kernel
  exact ⟨gC, gC_reach, noClash_of _ hcl (by decide +kernel), sole_of _ hcl (by decide +kernel),
    ⟨.rev rC, Below.head (by decide +kernel)⟩, by decide +kernel, by decide +kernel⟩

/-! ## C29: capability -/

/-- C29: the capability reported for a member is one of its delegations, and none of them grants more. -/
theorem C29_capability_strongest {g : Group} {m : Id} {d : Dlg} (h : g.getCapability m = some d) :
    g.MemberBy m d ∧ ∀ x, g.MemberBy m x → x.can ≤ d.can := getCapability_mem h

/-- C29: a capability is reported exactly for the members, under the member's own id. -/
theorem C29_capability_iff {g : Group} (hr : Reach H g) (m : Id) :
    (∃ d, g.getCapability m = some d ∧ d.delegate.id = m) ↔ ∃ d, g.MemberBy m d := by
  constructor
  · rintro ⟨d, h, _⟩
    exact ⟨d, (getCapability_mem h).1⟩
  · rintro ⟨d, ds, h1, h2⟩
    obtain ⟨c, hc⟩ := maxByCan_ne (List.ne_nil_of_mem h2)
    have hcap : g.getCapability m = some c := by simp [Group.getCapability, h1, hc]
    exact ⟨c, hcap, hr.tidy.2.2 m c (getCapability_mem hcap).1⟩

example : gAdm2.getCapability 3 = some dCar ∧ gAdm2.MemberBy 3 dCar2 :=
  ⟨by decide +kernel, [dCar2, dCar], by decide +kernel, by simp⟩

/-! ## C30: adding members -/

/-- C30: adding a member succeeds only if the signer is the group key, or acts with at least the granted access for a member
that has at least the granted access. The delegation made names the agent and the access asked for. -/
theorem C30_entitled {g g' : Group} {who : Agent} {can : Access} {signer : Id} {content : Content} {d : Dlg}
    (h : g.addMember H N S who can signer content = .ok (g', d)) :
    (signer = g.id ∨ ∃ m p, g.MemberBy m p ∧ can ≤ p.can ∧ ActsFor N can p.delegate signer) ∧
      d.delegate = who ∧ d.can = can ∧ d.issuer = signer := by
  obtain ⟨proof, s, h1, h2, h3, h4⟩ := addMember_ok h
  obtain ⟨e1, e2, e3, e4⟩ := dlg_mk signer s who can proof (AMap.values g.revHeads) content
  rw [← h3] at e1 e2 e3 e4
  refine ⟨?_, e2, e3, e1⟩
  cases proof with
  | none => exact Or.inl (proofFor_none h1)
  | some p =>
    right
    obtain ⟨m, hm⟩ := proofFor_mem h1
    have hb := (receive_iff (H := H)).1 ⟨g', h4⟩
    cases hb with
    | root h5 => rw [e4] at h5; cases h5
    | link h5 h6 h7 h8 =>
      rw [e4] at h5
      cases h5
      rw [e1, e3] at h7
      rw [e3] at h6
      exact ⟨m, p, hm, h6, h7⟩

example : isOk (gCarol.addMember Sample.H noN S99 (ind 5) .edit 3 []) = true := by decide +kernel
example : isOk (gCarol.addMember Sample.H noN S99 (ind 5) .admin 3 []) = false := by decide +kernel
example : isOk (gCarol.addMember Sample.H noN S99 (ind 5) .read 66 []) = false := by decide +kernel

/-- C30, refusals: adding a member is refused for want of access only if the signer, who is not the group key, has less than is
granted; the error names the most the signer has: as a member, or through members that are groups if the signer is no member.
Without any access through members, the refusal says so. -/
theorem C30_refused {W : World} {held : List Id} {g : Group} {who : Agent} {can want x : Access} {signer : Id} {content : Content} :
    (g.addMember H (membersOf W held) S who can signer content = .error (.accessEscalation want x) →
      signer ≠ g.id ∧ want = can ∧ x < can ∧
      ((∃ p, g.MemberBy signer p ∧ p.can = x ∧ ∀ q, g.MemberBy signer q → q.can ≤ x) ∨
       (g.getCapability signer = none ∧
        (∃ m p tm a, g.getCapability m = some p ∧ membersOf W held p.delegate = .ok (some tm) ∧ AMap.get tm signer = some (a, x)) ∧
        ∀ m p tm a y, g.getCapability m = some p → membersOf W held p.delegate = .ok (some tm) → AMap.get tm signer = some (a, y) →
          y ≤ x))) ∧
    (g.addMember H (membersOf W held) S who can signer content = .error .noProof →
      signer ≠ g.id ∧ g.getCapability signer = none ∧
      ∀ m p tm, g.getCapability m = some p → membersOf W held p.delegate = .ok (some tm) → AMap.get tm signer = none) := by
  have hN : ∀ a e, membersOf W held a = .error e → ¬ e.Refusal := fun a e h => membersOf_quiet W held a h
  have inKeys : ∀ {m p}, g.getCapability m = some p → m ∈ AMap.keys g.members := by
    intro m p h
    obtain ⟨ds, h1, _⟩ := (getCapability_mem h).1
    exact (AMap.mem_keys_iff _ _).2 (by rw [h1]; simp)
  constructor
  · intro h
    obtain ⟨h0, h1 | ⟨hc, b, h1, h2⟩⟩ := addMember_refused hN h trivial
    · obtain ⟨p, hc, hlt, he⟩ := h1
      cases he
      exact ⟨h0, rfl, hlt, .inl ⟨p, (getCapability_mem hc).1, rfl, (getCapability_mem hc).2⟩⟩
    · rcases h2 with ⟨_, h2⟩ | ⟨y, rfl, h2⟩
      · cases h2
      · cases h2
        obtain ⟨f1, _, f3⟩ := findProof_best h1
        rcases f1 _ rfl with f | ⟨hle, m, _, p, tm, a, e1, e2, e3⟩
        · cases f
        · refine ⟨h0, rfl, Nat.lt_of_not_le hle, .inr ⟨hc, ⟨m, p, tm, a, e1, e2, e3⟩, fun m p tm a y e1 e2 e3 => ?_⟩⟩
          obtain ⟨_, z, hz, hyz⟩ := f3 m (inKeys e1) p tm a y e1 e2 e3
          cases hz
          exact hyz
  · intro h
    obtain ⟨h0, h1 | ⟨hc, b, h1, h2⟩⟩ := addMember_refused hN h trivial
    · obtain ⟨p, _, _, he⟩ := h1
      cases he
    · rcases h2 with ⟨rfl, _⟩ | ⟨y, rfl, h2⟩
      · obtain ⟨_, _, f3⟩ := findProof_best h1
        refine ⟨h0, hc, fun m p tm e1 e2 => ?_⟩
        cases ht : AMap.get tm signer with
        | none => rfl
        | some q =>
          obtain ⟨a, y⟩ := q
          obtain ⟨_, z, hz, _⟩ := f3 m (inKeys e1) p tm a y e1 e2 ht
          cases hz
      · cases h2

/-- Groups 10 and 11 are members of group 1. Agent 7 reads in group 10 and edits in group 11. -/
def g10 : Group := Group.rebuild Sample.H ⟨10, [], [], [(71, .root 10 71 (ind 7) .read (Revs.ofList []) [])], []⟩
/-- See `g10`. -/
def g11 : Group := Group.rebuild Sample.H ⟨11, [], [], [(72, .root 11 72 (ind 7) .edit (Revs.ofList []) [])], []⟩
/-- See `g10`. -/
def g1011 : Group := Group.rebuild Sample.H ⟨1, [], [], [(73, .root 1 73 (grp 11) .admin (Revs.ofList []) []),
  (74, .root 1 74 (grp 10) .admin (Revs.ofList []) [])], []⟩

/-- What the call is refused with. -/
def refusal {α : Type} : Except Err α → Option Err
  | .ok _ => none
  | .error e => some e

/-- Agent 7 can make nobody an admin of group 1, being an editor; agent 8 has no access at all. -/
example : refusal (g1011.addMember Sample.H (membersOf [(10, g10), (11, g11)] [1]) S99 (ind 5) .admin 7 []) = some (.accessEscalation .admin .edit) ∧
    refusal (g1011.addMember Sample.H (membersOf [(10, g10), (11, g11)] [1]) S99 (ind 5) .admin 8 []) = some .noProof ∧
    refusal (gCarol.addMember Sample.H (membersOf [] []) S99 (ind 5) .admin 3 []) = some (.accessEscalation .admin .edit) := by decide +kernel

/-- C30 when none of the delegations in the chain of the new one has ever been revoked (and the replay order is complete): the
new member is a member, with the access asked for. -/
theorem C30_new_member_partial {g g' : Group} {who : Agent} {can : Access} {signer : Id} {content : Content} {d : Dlg} (hr : Reach H g)
    (hne : g.dlgHeads ≠ []) (h : g.addMember H N S who can signer content = .ok (g', d)) (hc : NoClash H (g.heads ++ [.dlg d]))
    (hs : NoClash Op.sig (g.heads ++ [.dlg d])) (hu : PayloadUnique (g.heads ++ [.dlg d])) (ha : Acyclic g'.heads)
    (hclean : ∀ r, g'.Holds (.rev r) → ∀ a ∈ d :: d.lineage, r.revoke.sig ≠ a.sig) :
    ∃ e, g'.MemberBy who.id e ∧ e.delegate = who ∧ e.can = can := by
  obtain ⟨_, e2, e3, _⟩ := C30_entitled h
  obtain ⟨proof, s, h1, h2, h3, h4⟩ := addMember_ok h
  have hacc : Accepts H g (.dlg d) g' := .dlg N h4
  obtain ⟨hg, hb⟩ := reach_good hr
  obtain ⟨hg', hb', hid⟩ := accepts_step hacc hg
  obtain ⟨_, _, hh⟩ := holds_run hg hne hc hs hu (Run.one hacc)
  have hc' : NoClash H g'.heads := fun a b ha hb => hc a b ((hh a).1 ha) ((hh b).1 hb)
  have hs' : NoClash Op.sig g'.heads := fun a b ha hb => hs a b ((hh a).1 ha) ((hh b).1 hb)
  have hd : g'.Holds (.dlg d) := (hh _).2 (Below.head (by simp))
  have := View.clean_mem (gid := g'.id) (ctx_of hs') (g'.history H) (fun _ ho => history_below hc' ho) (proof_first hc' ha)
    ((history_complete hc' ha).2 hd) (by rw [hid]; exact C23_accepted_subject hacc) (fun r hr1 => hclean r (history_below hc' hr1))
  rw [e2] at this
  exact ⟨d, (mem_view hb').2 this, e2, e3⟩

example : ∃ g' d, gCarol.addMember Sample.H noN S99 (ind 5) .edit 3 [] = .ok (g', d) ∧ NoClash Sample.H (gCarol.heads ++ [.dlg d]) ∧
    Direct g'.heads ∧ ∀ r, ¬ g'.Holds (.rev r) := by
  have hcl : Closed (okG (deliver noN gCarol [.dlg (.link 3 99 (ind 5) .edit d2 .nil [])])).heads
      [.dlg p0, .dlg d1, .dlg d2, .dlg (.link 3 99 (ind 5) .edit d2 .nil [])] := by decide +kernel
  refine ⟨okG (deliver noN gCarol [.dlg (.link 3 99 (ind 5) .edit d2 .nil [])]), .link 3 99 (ind 5) .edit d2 .nil [], by decide +kernel,
    noClash_of [.dlg p0, .dlg d1, .dlg d2, .dlg (.link 3 99 (ind 5) .edit d2 .nil [])] (by decide +kernel) (by decide +kernel),
    direct_of _ hcl (by decide +kernel), ?_⟩
  intro r hr
  have := hcl.below hr
  simp at this

/-- C30 fails: adding a member succeeds and the new member is not a member. -/
theorem C30_fails : ∃ g g' d who, Reach Sample.H g ∧ g.addMember Sample.H N2 S99 who .edit 6 [] = .ok (g', d) ∧
    NoClash Sample.H (g.heads ++ [.dlg d]) ∧ PayloadUnique (g.heads ++ [.dlg d]) ∧ ¬ ∃ e, g'.MemberBy who.id e := by
  have h : isOk ((gA.addMember Sample.H N2 S99 (ind 70) .edit 6 []).map (·.1)) = true := by decide +kernel
  cases hc : gA.addMember Sample.H N2 S99 (ind 70) .edit 6 [] with
  | error e => rw [hc] at h; cases h
  | ok q =>
    obtain ⟨g', d⟩ := q
    have hd : d = .link 6 99 (ind 70) .edit k2 (Revs.ofList (AMap.values gA.revHeads)) [] := by
      have : (gA.addMember Sample.H N2 S99 (ind 70) .edit 6 []).map (·.2) =
        .ok (.link 6 99 (ind 70) .edit k2 (Revs.ofList (AMap.values gA.revHeads)) []) := by decide +kernel
      rw [hc] at this
      exact Except.ok.inj this
    refine ⟨gA, g', d, ind 70, gA_reach, hc, ?_, ?_, ?_⟩
    · rw [hd]
      exact noClash_of (.dlg p0 :: orderA ++ [.dlg (.link 6 99 (ind 70) .edit k2 (Revs.ofList (AMap.values gA.revHeads)) [])])
        (by decide +kernel) (by decide +kernel)
    · rw [hd]
      exact payloadUnique_of (.dlg p0 :: orderA ++ [.dlg (.link 6 99 (ind 70) .edit k2 (Revs.ofList (AMap.values gA.revHeads)) [])])
        (by decide +kernel) (by decide +kernel)
    · rintro ⟨e, ds, h1, _⟩
      have : (gA.addMember Sample.H N2 S99 (ind 70) .edit 6 []).map (fun q => AMap.get q.1.members 70) = .ok none := by decide +kernel
      rw [hc] at this
      have := Except.ok.inj this
      simp only at this
      rw [show (ind 70).id = 70 from rfl, this] at h1
      cases h1

/-! ## C31: revoking members -/

/-- `C31_revoke_removes_partial` for every group whose members are those of its history. -/
theorem revokeMember_removes {g g' : Group} {member signer : Id} {content : Content} {revs : List Rev} {dlgs : List Dlg}
    (hr : HeadsOk H g ∧ Rebuilt H g) (hne : g.dlgHeads ≠ []) (h : g.revokeMember H N S member false signer content = (g', .ok (revs, dlgs)))
    (hsig : signer = g.id ∨ (signer ≠ member ∧ ∀ d, g.MemberBy member d → d.issuer = signer))
    (hnone : ∀ r, ¬ g.Holds (.rev r)) (hown : ∀ d, g.Holds (.dlg d) → d.subject = g.id)
    (hc : NoClash H (g.heads ++ revs.map Op.rev)) (hs : NoClash Op.sig (g.heads ++ revs.map Op.rev))
    (hu : PayloadUnique (g.heads ++ revs.map Op.rev)) : dlgs = [] ∧ ∀ d, ¬ g'.MemberBy member d := by
  obtain ⟨hg, hb⟩ := hr
  unfold Group.revokeMember at h
  cases hm : AMap.get g.members member with
  | none =>
    simp only [hm, Prod.mk.injEq, Except.ok.injEq] at h
    obtain ⟨rfl, rfl, rfl⟩ := h
    refine ⟨rfl, ?_⟩
    rintro d ⟨ds, h1, _⟩
    rw [hm] at h1
    cases h1
  | some ds =>
    simp only [hm] at h
    cases he : g.revokeEach H N S member signer content ds [] with
    | mk g1 res =>
      cases res with
      | error e => simp [he] at h
      | ok out =>
        simp only [he, Bool.false_eq_true, if_false, Prod.mk.injEq, Except.ok.injEq] at h
        obtain ⟨rfl, rfl, rfl⟩ := h
        have hsig' : signer = g.id ∨ (signer ≠ member ∧ ∀ d ∈ ds, d.issuer = signer) :=
          hsig.imp id (fun h => ⟨h.1, fun d hd => h.2 d ⟨ds, hm, hd⟩⟩)
        obtain ⟨revs, e1, hrun, e3, e4⟩ := revokeEach_plain ds hg hb hsig' he
        rw [List.nil_append] at e1
        subst e1
        refine ⟨rfl, revoke_removes ⟨hg, hb⟩ hne hrun hc hs hu hnone hown ?_ ?_ ?_ ?_⟩
        · rintro d ⟨ds', h1, h2⟩
          rw [hm] at h1
          cases h1
          rw [← e3] at h2
          obtain ⟨r, h3, h4⟩ := List.mem_map.1 h2
          exact ⟨r, h3, h4⟩
        · intro r hr1
          exact ⟨ds, hm, by rw [← e3]; exact List.mem_map.2 ⟨r, hr1, rfl⟩⟩
        · intro r hr1
          obtain ⟨s, _, h2⟩ := e4 r hr1
          have h3 := rev_mk_proof signer s r.revoke (plainProof g signer r.revoke) content
          rw [← h2] at h3
          rw [h3.1, h3.2.1]
          unfold plainProof
          by_cases hsg : signer = g.id
          · exact Or.inl ⟨by rw [if_pos hsg], hsg⟩
          · exact Or.inr (by rw [if_neg hsg])
        · intro r h1 r' h2 heq
          obtain ⟨s, k1, k2⟩ := e4 r h1
          obtain ⟨s', k3, k4⟩ := e4 r' h2
          rw [heq] at k1 k2
          rw [k1] at k3
          cases k3
          exact k2.trans k4.symm

/-- C31 in a group whose delegations are all its own and which holds no revocation yet: if the signer is the group key, or
someone else than the member who issued all the member's delegations, a successful revocation (without re-delegation) leaves the
member with no delegation at all. -/
theorem C31_revoke_removes_partial {g g' : Group} {member signer : Id} {content : Content} {revs : List Rev} {dlgs : List Dlg}
    (hr : Reach H g) (hne : g.dlgHeads ≠ []) (h : g.revokeMember H N S member false signer content = (g', .ok (revs, dlgs)))
    (hsig : signer = g.id ∨ (signer ≠ member ∧ ∀ d, g.MemberBy member d → d.issuer = signer))
    (hnone : ∀ r, ¬ g.Holds (.rev r)) (hown : ∀ d, g.Holds (.dlg d) → d.subject = g.id)
    (hc : NoClash H (g.heads ++ revs.map Op.rev)) (hs : NoClash Op.sig (g.heads ++ revs.map Op.rev))
    (hu : PayloadUnique (g.heads ++ revs.map Op.rev)) : dlgs = [] ∧ ∀ d, ¬ g'.MemberBy member d :=
  revokeMember_removes (reach_good hr) hne h hsig hnone hown hc hs hu

/-- Alice revokes Bob, whom they added. -/
example : (match gCarol.revokeMember Sample.H noN Ss 2 false 1 [] with
    | (g', .ok (revs, _)) => decide (revs.length = 1) && decide (AMap.get g'.members 2 = none)
    | _ => false) = true := by decide +kernel
example : (∀ r, ¬ gCarol.Holds (.rev r)) ∧ ∀ d, gCarol.Holds (.dlg d) → d.subject = gCarol.id := by
  have hcl : Closed gCarol.heads [.dlg p0, .dlg d1, .dlg d2] := by decide +kernel
  refine ⟨fun r hr => ?_, fun d hd => ?_⟩
  · have := hcl.below hr
    simp at this
  · have := hcl.below hd
    simp only [List.mem_cons, Op.dlg.injEq, List.not_mem_nil, or_false] at this
    rcases this with rfl | rfl | rfl <;> decide +kernel

/-- The loop that grants again: one delegation by the signer for each one that had been made on the strength of the member's. -/
theorem redelegate_granted {member signer : Id} {content : Content} : ∀ {ds : List Dlg} {g g' : Group} {done dlgs : List Dlg},
    Group.redelegate H N S member signer content g ds done = (g', .ok dlgs) →
    ∃ new, dlgs = done ++ new ∧ (∀ d ∈ new, d.issuer = signer) ∧
      new.map (fun d => (d.delegate, d.can)) =
        (ds.filter (fun d => decide (d.delegate.id ≠ member) && d.proof.any (fun p => decide (p.delegate.id = member)))).map (fun d => (d.delegate, d.can)) := by
  intro ds
  induction ds with
  | nil => intro g g' done dlgs h; cases h; exact ⟨[], by simp, by simp, rfl⟩
  | cons d ds ih =>
    intro g g' done dlgs h
    unfold Group.redelegate at h
    rw [List.filter_cons]
    split at h
    · rename_i hm
      rw [if_neg (by simp [hm])]
      exact ih h
    · rename_i hm
      split at h
      · rename_i hp
        rw [if_neg (by simp [hp])]
        exact ih h
      · rename_i p hp
        split at h
        · rename_i hd
          rw [if_pos (by simp [hm, hp, hd])]
          split at h
          · cases h
          · rename_i g1 d' ha
            obtain ⟨new, h1, h2, h3⟩ := ih h
            obtain ⟨proof, s, _, _, hd', _⟩ := addMember_ok ha
            have e : d'.issuer = signer ∧ d'.delegate = d.delegate ∧ d'.can = d.can := by
              rw [hd']; cases proof <;> exact ⟨rfl, rfl, rfl⟩
            refine ⟨d' :: new, by rw [h1]; simp, ?_, ?_⟩
            · intro x hx
              rcases List.mem_cons.1 hx with rfl | hx
              · exact e.1
              · exact h2 x hx
            · rw [List.map_cons, List.map_cons, h3, e.2.1, e.2.2]
        · rename_i hd
          rw [if_neg (by simp [hp, hd])]
          exact ih h

/-- C31, the flag: when a member has been revoked with the flag set, the signer has granted again, with the same access, exactly what
others in the group had through a delegation to the removed member; without the flag nothing has been granted.
Missing from the full property: that those granted again are members afterwards (`C30_fails`). -/
theorem C31_retain_partial {g g' : Group} (ht : g.Tidy) {member signer : Id} {content : Content} {retain : Bool} {revs : List Rev} {dlgs : List Dlg}
    (h : g.revokeMember H N S member retain signer content = (g', .ok (revs, dlgs))) (hm : ∃ d, g.MemberBy member d) :
    (retain = false → dlgs = []) ∧ (∀ d ∈ dlgs, d.issuer = signer) ∧
    (retain = true → ∀ a x, (∃ d ∈ dlgs, d.delegate = a ∧ d.can = x) ↔
      ∃ m d p, g.MemberBy m d ∧ d.proof = some p ∧ p.delegate.id = member ∧ a.id ≠ member ∧ d.delegate = a ∧ d.can = x) := by
  obtain ⟨d0, ds, hg, -⟩ := hm
  unfold Group.revokeMember at h
  rw [hg] at h
  simp only at h
  split at h
  · cases h
  · split at h
    · rename_i hret
      split at h
      · cases h
      · rename_i hd
        cases h
        obtain ⟨new, h1, h2, h3⟩ := redelegate_granted hd
        rw [List.nil_append] at h1
        subst h1
        refine ⟨fun h => (by rw [hret] at h; cases h), h2, fun _ a x => ?_⟩
        have key : (∃ d ∈ dlgs, d.delegate = a ∧ d.can = x) ↔ (a, x) ∈ dlgs.map (fun d => (d.delegate, d.can)) := by
          simp only [List.mem_map, Prod.mk.injEq]
        rw [key, h3]
        simp only [List.mem_map, List.mem_filter, Bool.and_eq_true, decide_eq_true_eq, Option.any_eq_true, Prod.mk.injEq, List.mem_flatten]
        constructor
        · rintro ⟨d, ⟨⟨l, hl, hdl⟩, hne, p, hp, hpm⟩, rfl, rfl⟩
          obtain ⟨q, hq, rfl⟩ := List.mem_map.1 hl
          exact ⟨q.1, d, p, ⟨q.2, AMap.get_of_mem ht.1 hq, hdl⟩, hp, hpm, hne, rfl, rfl⟩
        · rintro ⟨m, d, p, ⟨l, hl, hdl⟩, hp, hpm, hne, rfl, rfl⟩
          exact ⟨d, ⟨⟨l, List.mem_map.2 ⟨(m, l), AMap.mem_of_get hl, rfl⟩, hdl⟩, hne, p, hp, hpm⟩, rfl, rfl⟩
    · rename_i hret
      cases h
      exact ⟨fun _ => rfl, by simp, fun h => absurd h hret⟩

-- Alice revokes Bob, who had added Carol, and keeps Carol.
example : gCarol.Tidy ∧ gCarol.MemberBy 2 d1 ∧ gCarol.MemberBy 3 d2 ∧ d2.proof = some d1 ∧
    (match gCarol.revokeMember Sample.H noN Ss 2 true 1 [] with
    | (g', .ok (_, [d])) => decide (d.delegate.id = 3) && decide (d.can = d2.can) && decide (AMap.get g'.members 2 = none) && AMap.contains g'.members 3
    | _ => false) = true :=
  ⟨gCarol_reach.tidy, ⟨[d1], by decide +kernel, by simp⟩, ⟨[d2], by decide +kernel, by simp⟩, rfl, by decide +kernel⟩

/-- C31: somebody who is not the group key nor the member, has issued nothing in the chains of the member's delegations, and
has too little access through every member that is a group, cannot revoke the member; nothing changes. -/
theorem C31_unentitled_refused {g : Group} {member signer : Id} {content : Content} {retain : Bool} (ht : g.Tidy)
    (h1 : signer ≠ g.id) (h2 : signer ≠ member) (hmem : ∃ d, g.MemberBy member d)
    (h3 : ∀ d, g.MemberBy member d → ∀ a ∈ d :: d.lineage, a.issuer ≠ signer)
    (h4 : ∀ d, g.MemberBy member d → ∀ m p, g.MemberBy m p → ∀ tm b x, N p.delegate = .ok (some tm) →
      AMap.get tm signer = some (b, x) → ¬ d.can ≤ x) :
    (g.revokeMember H N S member retain signer content).1 = g ∧
      ∃ e, (g.revokeMember H N S member retain signer content).2 = .error e := by
  obtain ⟨d0, ds, hm, hd0⟩ := hmem
  cases ds with
  | nil => cases hd0
  | cons d ds =>
    have hd : g.MemberBy member d := ⟨_, hm, by simp⟩
    have hown : g.ownProofs member signer d = [] := by
      unfold Group.ownProofs
      have k1 : ((AMap.get g.members signer).getD []).filter
          (fun d => decide (d.delegate.id = member) && decide (d.can = .admin)) = [] := by
        rw [List.filter_eq_nil_iff]
        intro x hx
        cases hg : AMap.get g.members signer with
        | none => rw [hg] at hx; simp at hx
        | some es =>
          rw [hg] at hx
          have := ht.2.2 signer x ⟨es, hg, hx⟩
          simp [this, h2]
      have k2 : d.lineage.find? (fun a => decide (a.issuer = signer)) = none := by
        rw [List.find?_eq_none]
        intro a ha
        simpa using h3 d hd a (by simp [ha])
      rw [k1, if_neg (h3 d hd d (by simp)), k2]
      rfl
    have hstep : Group.revokeOne H N S member signer content g d [] =
        (g, .error (match g.nestedProof N signer d.can (AMap.keys g.members) with | .error e => e | _ => .noProof)) := by
      unfold Group.revokeOne
      rw [hown]
      simp only
      cases hn : g.nestedProof N signer d.can (AMap.keys g.members) with
      | error e => rfl
      | ok o =>
        cases o with
        | none => rfl
        | some p => exact absurd hn (nestedProof_none (fun m p hmp tm b x => h4 d hd m p hmp tm b x) p)
    unfold Group.revokeMember Group.revokeEach
    simp only [hm, h1, if_false, hstep, true_and]
    exact ⟨_, rfl⟩

example : gCarol.Tidy ∧ gCarol.MemberBy 3 d2 ∧ (66 : Nat) ≠ gCarol.id ∧ ∀ a ∈ d2 :: d2.lineage, a.issuer ≠ 66 :=
  ⟨gCarol_reach.tidy, ⟨[d2], by decide +kernel, by simp⟩, by decide +kernel, by decide⟩

/-- C31 fails: an admin of the group is refused when it revokes a member added by another admin. -/
theorem C31_fails : ∃ g, Reach Sample.H g ∧ (∃ d, g.MemberBy 2 d ∧ d.can = .admin) ∧ (∃ d, g.MemberBy 3 d ∧ d.can = .edit) ∧
    (g.revokeMember Sample.H noN Ss 3 false 2 []).2 = .error .noProof :=
  ⟨gAdm, gAdm_reach, ⟨dBob, ⟨[dBob], by decide +kernel, by simp⟩, rfl⟩, ⟨dCar, ⟨[dCar], by decide +kernel, by simp⟩, rfl⟩, by decide +kernel⟩

/-! ## C32, C33: transitive members -/

/-- C32 when the groups nested in the group do not contain further groups: the access reported is at most every link of some
path. -/
theorem C32_access_bounded_partial {W : World} {g : Group} (hS : Sound W g) (hF : Flat W g) (hO : OwnMembers W g) {held : List Id}
    {caps : AMap Id (Agent × Access)} (hok : transitiveMembers W held g = .ok caps) {i : Id} {a : Agent} {x : Access}
    (hc : AMap.get caps i = some (a, x)) (hne : i ≠ g.id) : a.id = i ∧ ∃ links, Path W g a links ∧ ∀ l ∈ links, x ≤ l :=
  Trans.transitive_flat hS hF hO hok hc hne

/-- Group 200 with 6 as admin, nested in group 100 for reading. -/
example : (transitiveMembers W2 [100] g3).toOption.map (fun c => (AMap.get c 200, AMap.get c 6)) =
    some (some (grp 200, .read), some (ind 6, .read)) := by decide +kernel
example : Flat W2 g3 ∧ OwnMembers W2 g3 := by
  have hW : ∀ i h m d, AMap.get W2 i = some h → h.MemberBy m d → d = .root 200 30 (ind 6) .admin .nil [] ∧ i = 200 := by
    intro i h m d e1 e2
    have h1 := AMap.mem_of_get e1
    simp only [W2, List.mem_singleton, Prod.mk.injEq] at h1
    obtain ⟨rfl, rfl⟩ := h1
    have h2 := mem_memberDlgs e2
    have h3 : memberDlgs (Group.new Sample.H (.root 200 30 (ind 6) .admin .nil [])) = [.root 200 30 (ind 6) .admin .nil []] := by
      decide +kernel
    rw [h3, List.mem_singleton] at h2
    exact ⟨h2, rfl⟩
  have hg : ∀ m d, g3.MemberBy m d → d = .root 100 10 (grp 200) .read .nil [] := by
    intro m d h
    have h2 := mem_memberDlgs h
    have h3 : memberDlgs g3 = [.root 100 10 (grp 200) .read .nil []] := by decide +kernel
    rwa [h3, List.mem_singleton] at h2
  refine ⟨?_, ?_, ?_⟩
  · intro m d h m' d' _ _ e1 e2 e3 _
    obtain ⟨rfl, _⟩ := hW _ _ _ _ e1 e2
    cases e3
  · intro m d h
    rw [hg m d h]
    decide +kernel
  · intro i h m d e1 e2
    obtain ⟨rfl, rfl⟩ := hW _ _ _ _ e1 e2
    decide +kernel

/-- C32 in general: the access reported is at most some link of some path. -/
theorem C32_some_link_partial {W : World} {g : Group} (hS : Sound W g) {held : List Id} {caps : AMap Id (Agent × Access)}
    (hok : transitiveMembers W held g = .ok caps) {i : Id} {a : Agent} {x : Access} (hc : AMap.get caps i = some (a, x)) :
    a.id = i ∧ ∃ links, Path W g a links ∧ ∃ l ∈ links, x ≤ l :=
  (transitive_spec hS hok).1 i a x hc

/-- C32 fails two groups down: a reader group that contains a group. Its member is reported as admin, although every path to it
starts with a read-only link. -/
theorem C32_fails : ∃ W g caps, Sound W g ∧ transitiveMembers W [g.id] g = .ok caps ∧
    ∃ a, AMap.get caps a.id = some (a, .admin) ∧ ∀ links, Path W g a links → Access.read ∈ links := by
  obtain ⟨caps, h⟩ := transitive_ok W3 g3
  refine ⟨W3, g3, caps, g3_sound, h, ind 3, ?_, ?_⟩
  · have : (transitiveMembers W3 [100] g3).toOption.map (fun c => AMap.get c 3) = some (some (ind 3, .admin)) := by decide +kernel
    rw [show g3.id = 100 from rfl] at h
    rw [h] at this
    exact Option.some.inj this
  · have : ∀ a links, Path W3 g3 a links → Access.read ∈ links := by
      intro a links hp
      induction hp with
      | direct hm =>
        rename_i m d
        have h2 := mem_memberDlgs hm
        have h3 : memberDlgs g3 = [.root 100 10 (grp 200) .read .nil []] := by decide +kernel
        rw [h3, List.mem_singleton] at h2
        subst h2
        simp [Dlg.can]
      | nested _ _ _ _ _ ih => exact List.mem_cons_of_mem _ ih
    exact this _

/-- C33: listing the transitive members of a group (asked by nobody holding a lock on another group) returns, whatever the
nesting, and lists exactly the agents other than the group reachable through memberships. -/
theorem C33_transitive_exact {W : World} {g : Group} (hS : Sound W g) :
    ∃ caps, transitiveMembers W [g.id] g = .ok caps ∧
      ∀ i, i ≠ g.id → ((∃ a x, AMap.get caps i = some (a, x)) ↔ ∃ a links, Path W g a links ∧ a.id = i) := by
  obtain ⟨caps, h⟩ := transitive_ok W g
  obtain ⟨h1, h2⟩ := transitive_spec hS h
  refine ⟨caps, h, fun i hi => ⟨?_, ?_⟩⟩
  · rintro ⟨a, x, hc⟩
    obtain ⟨e, links, hp, _⟩ := h1 i a x hc
    exact ⟨a, links, hp, e⟩
  · rintro ⟨a, links, hp, rfl⟩
    cases hc : AMap.get caps a.id with
    | none => exact absurd hc (h2 a links hp hi)
    | some p => exact ⟨p.1, p.2, rfl⟩

/-- Two nested groups that contain each other. -/
example : Sound W4 g3 := g4_sound
example : (transitiveMembers W4 [100] g3).toOption.map (fun c => (AMap.keys c).length) = some 3 := by decide +kernel

/-- C33: the individuals of an agent are exactly the individuals found by following members of groups, also in cyclic nesting. -/
theorem C33_individuals_exact {W : World} {a : Agent} (hT : ∀ i h, AMap.get W i = some h → h.Tidy)
    (hK : ∀ b c, Walk W a b → Walk W a c → b.id = c.id → b = c) :
    ∃ out, a.individualIds W [] = .ok out ∧ ∀ i, i ∈ out ↔ ∃ b, Walk W a b ∧ b.isMembered = false ∧ b.id = i := by
  obtain ⟨out, h⟩ := individual_ok (W := W) (W.size + 2) [a] [] []
  exact ⟨out, h, individual_spec (fun i h hh => (hT i h hh).1) hK h⟩

example : (grp 200).individualIds W4 [] = .ok [4] := by decide +kernel

/-! ## C34: redelivery -/

/-- C34 when no delegation is revoked twice and no payload is signed by two keys: accepting an operation that is already held
changes neither what is held, nor the members, the revocations in effect, or the history. (The heads may change.) -/
theorem C34_redelivery_partial {g g' : Group} {o : Op} (hr : Reach H g) (hne : g.dlgHeads ≠ []) (ho : g.Holds o) (ha : Accepts H g o g')
    (hc : NoClash H g.heads) (hs : NoClash Op.sig g.heads) (hu : PayloadUnique g.heads) (hsole : Sole g.heads) :
    (∀ x, g'.Holds x ↔ g.Holds x) ∧ g'.members = g.members ∧ g'.active = g.active ∧ g'.history H = g.history H := by
  obtain ⟨hg, hb⟩ := reach_good hr
  obtain ⟨hg', hb', hid⟩ := accepts_step ha hg
  have hsub : ∀ x ∈ g.heads ++ [o], Below g.heads x := by
    intro x hx
    rcases List.mem_append.1 hx with hx | hx
    · exact Below.head hx
    · rw [List.mem_singleton] at hx; subst hx; exact ho
  obtain ⟨_, _, hh⟩ := holds_run hg hne (hc.mono hsub) (hs.mono hsub) (hu.mono hsub) (Run.one ha)
  have hbel : ∀ x, g.Holds x ↔ g'.Holds x := fun x =>
    ⟨fun h => (hh x).2 (Below.mono (fun y hy => by simp [hy]) h), fun h => Below.of_heads hsub ((hh x).1 h)⟩
  obtain ⟨e1, e2, e3⟩ := same_view hb hb' hid.symm hc hsole hbel
  exact ⟨fun x => (hbel x).symm, e1.symm, e2.symm, e3.symm⟩

example : isOk (deliver noN gBobOut [.rev rBobSelf, .dlg d1]) = true := by decide +kernel

/-- C34 fails for the heads: redelivering a delegation in the past of one head, when there is another head, makes it a head
again. -/
theorem C34_fails : ∃ g g' o, Reach Sample.H g ∧ g.Holds o ∧ NoClash Sample.H g.heads ∧ Accepts Sample.H g o g' ∧
    o ∈ g'.heads ∧ o ∉ g.heads := by
  refine ⟨okG (deliver noN g0 [.dlg d1, .dlg e5]), okG (deliver noN g0 [.dlg d1, .dlg e5, .dlg p0]), .dlg p0,
    deliver_reach rfl (by decide +kernel), ⟨.dlg d1, by decide +kernel, .single ?_⟩,
    noClash_of [.dlg p0, .dlg d1, .dlg e5] (by decide +kernel) (by decide +kernel), .dlg noN (by decide +kernel), by decide +kernel,
    by decide +kernel⟩
  exact mem_after_dlg.2 (Or.inl ⟨p0, rfl, rfl⟩)

/-! ## C64–C67 -/

/-- C64: listing members never blocks when no lock is held (see `C33_transitive_exact` and `C33_individuals_exact`); checking a received
delegation blocks when two groups contain each other. -/
theorem C64_fails : ∃ W g d, Reach Sample.H g ∧ (∃ p, d.proof = some p ∧ ∃ m, g.MemberBy m p) ∧
    g.receiveDelegation Sample.H (membersOf W [g.id]) d = .error .deadlock :=
  ⟨WC, gD, .link 9 51 (ind 9) .read dD .nil [], gD_reach, ⟨dD, rfl, 200, [dD], by decide +kernel, by simp⟩, by decide +kernel⟩

/-- C64 when the group cannot be reached from the delegates of the proof chain by following members: receiving a delegation does
not block. -/
theorem C64_no_deadlock_partial {W : World} {g : Group} {d : Dlg} (hT : ∀ i h, AMap.get W i = some h → h.Tidy)
    (hI : ∀ i h, AMap.get W i = some h → h.id = i)
    (hfree : ∀ p ∈ d.lineage, ∀ b, Walk W p.delegate b → b.isMembered = true → b.id ≠ g.id) :
    g.receiveDelegation H (membersOf W [g.id]) d ≠ .error .deadlock :=
  receive_free fun p hp => membersOf_free (fun i h hh => (hT i h hh).1) hI p.delegate
    (fun b hb hb2 hb3 => hfree p hp b hb hb2 (List.mem_singleton.1 hb3))

/-- 6 acts for group 200. -/
example : isOk (deliver N2 g0 [.dlg d1, .dlg k2, .dlg (.link 6 70 (ind 7) .read k2 .nil [])]) = true := by decide +kernel
example : ∀ p ∈ (Dlg.link 2 70 (ind 7) .read d1 .nil []).lineage, ∀ b, Walk W2 p.delegate b → b.isMembered = true → b.id ≠ 100 := by
  intro p hp b hb hb2
  simp only [Dlg.lineage, d1, p0, List.mem_cons, List.not_mem_nil, or_false] at hp
  have : ∀ i c, Walk W2 (ind i) c → c.isMembered = false := by
    intro i c h
    have : c = ind i := by
      induction h with
      | refl => rfl
      | step _ h1 _ _ ih => rw [ih] at h1; cases h1
    rw [this]; rfl
  rcases hp with rfl | rfl
  · rw [this 2 b hb] at hb2; cases hb2
  · rw [this 1 b hb] at hb2; cases hb2

/-- C65 for agents that have been given nothing: if no delegation the group holds is to the agent, nor to a group that contains it,
then nothing that the agent signs makes it a member.
Missing from the full property: an agent whose delegation has been revoked can restore itself (`C65_fails`). -/
theorem C65_given_nothing_partial {W : World} {held : List Id} {i : Id} {g g' : Group} (hr : Reach H g) (hi : i ≠ g.id)
    (hno : ∀ d, g.Holds (.dlg d) → ¬ ActsFor (membersOf W held) .relay d.delegate i) (h : OnlyBy H W held i g g') : ¬ ∃ d, g'.MemberBy i d := by
  have key : Reach H g' ∧ g'.id = g.id ∧ ∀ d, g'.Holds (.dlg d) → g.Holds (.dlg d) := by
    induction h with
    | refl => exact ⟨hr, rfl, fun _ h => h⟩
    | dlg hv hs hdep hrec ih =>
      obtain ⟨h1, h2, h3⟩ := ih
      exfalso
      cases receive_iff.1 ⟨_, hrec⟩ with
      | root _ h5 => exact hi (hs.symm.trans (h5.trans h2))
      | link h4 h5 h6 h7 =>
        refine hno _ (h3 _ (hdep _ (mem_after_dlg.2 (.inl ⟨_, h4, rfl⟩)))) ?_
        rw [hs] at h6
        rcases h6 with h6 | ⟨tm, b, x, e1, e2, _⟩
        · exact .inl h6
        · exact .inr ⟨tm, b, x, e1, e2, by cases x <;> decide⟩
    | rev hv hs hdep hrec ih =>
      obtain ⟨h1, h2, h3⟩ := ih
      have hg := (reach_good h1).1
      refine ⟨.accept h1 (.rev _ hrec), ((accepts_step (.rev _ hrec) hg).2.2).trans h2, fun d hd => h3 d ?_⟩
      rcases holds_sub hg (.rev _ hrec) hd with h4 | h4 | ⟨b, h4, h5⟩
      · exact h4
      · cases h4
      · obtain ⟨x, hx, hb⟩ := h5
        rw [List.mem_singleton] at hx
        subst hx
        exact (hdep _ h4).trans hb
  rintro ⟨d, hd⟩
  have hh := Rebuilt.held (reach_good key.1).2 hd
  refine hno d (key.2.2 d hh) (.inl ?_)
  exact (key.1.tidy.2.2 i d hd).symm

-- Agent 66 has been given nothing in Alice's group.
example : Reach Sample.H gCarol ∧ (66 : Nat) ≠ gCarol.id ∧ ∀ d, gCarol.Holds (.dlg d) → ¬ ActsFor (membersOf [] []) .relay d.delegate 66 := by
  refine ⟨gCarol_reach, by decide +kernel, fun d hd => ?_⟩
  have hcl : Closed gCarol.heads [.dlg p0, .dlg d1, .dlg d2] := by decide +kernel
  have := hcl.below hd
  simp only [List.mem_cons, Op.dlg.injEq, List.not_mem_nil, or_false] at this
  rcases this with rfl | rfl | rfl <;>
  · rintro (h | ⟨tm, b, x, h, _⟩)
    · exact absurd h (by decide)
    · simp [membersOf, p0, d1, d2, ind, Agent.isMembered, Dlg.delegate] at h

/-- C65 fails: Alice revokes Bob; Bob, no longer a member, adds themself back with their revoked delegation, as admin. -/
theorem C65_fails : ∃ g g' r d, Reach Sample.H g ∧ g.InEffect r ∧ r.revoke.delegate.id = 2 ∧ (¬ ∃ e, g.MemberBy 2 e) ∧
    d.issuer = 2 ∧ d.proof = some r.revoke ∧ g.receiveDelegation Sample.H noN d = .ok g' ∧ g'.InEffect r ∧
    g'.MemberBy 2 d ∧ d.can = .admin := by
  refine ⟨gNoBob, okG (deliver noN gNoBob [.dlg back]), rBob, back, gNoBob_reach, by unfold Group.InEffect; decide +kernel, rfl, ?_, rfl, rfl,
    by decide +kernel, by unfold Group.InEffect; decide +kernel, ⟨[back], by decide +kernel, by simp⟩, rfl⟩
  rintro ⟨e, ds, h, _⟩
  have : AMap.get gNoBob.members 2 = none := by decide +kernel
  rw [this] at h
  cases h

/-- C66 fails: a failed revocation of a member has already revoked one of its delegations. -/
theorem C66_fails : ∃ g g' e, Reach Sample.H g ∧ g.revokeMember Sample.H noN Ss 3 false 2 [] = (g', .error e) ∧
    g.MemberBy 3 dCar2 ∧ ¬ g'.MemberBy 3 dCar2 := by
  refine ⟨gAdm2, (gAdm2.revokeMember Sample.H noN Ss 3 false 2 []).1, .noProof, gAdm2_reach, ?_, ⟨[dCar2, dCar], by decide +kernel, by simp⟩, ?_⟩
  · have : (gAdm2.revokeMember Sample.H noN Ss 3 false 2 []).2 = .error .noProof := by decide +kernel
    rw [← this]
  · rintro ⟨ds, h, h2⟩
    have : AMap.get (gAdm2.revokeMember Sample.H noN Ss 3 false 2 []).1.members 3 = some [dCar] := by decide +kernel
    rw [this] at h
    cases h
    exact absurd h2 (by decide +kernel)

/-- C66: whether or not it succeeds, revoking a member only adds operations to what the group holds, all of them issued by this
call: the group afterwards is the group after accepting them. -/
theorem C66_only_adds_partial (g : Group) (member : Id) (retain : Bool) (signer : Id) (content : Content) :
    ∃ l, Run H g l (g.revokeMember H N S member retain signer content).1 := revokeMember_run g member retain signer content

/-- C67 when no payload is signed by two keys: a group holds everything it held, every operation it accepted, and nothing but
these and their past. -/
theorem C67_accepted_kept_partial {g g' : Group} {l : List Op} (hr : Reach H g) (hne : g.dlgHeads ≠ []) (hrun : Run H g l g')
    (hc : NoClash H (g.heads ++ l)) (hs : NoClash Op.sig (g.heads ++ l)) (hu : PayloadUnique (g.heads ++ l)) :
    ∀ o, g'.Holds o ↔ g.Holds o ∨ ∃ x ∈ l, Relation.ReflTransGen Dep x o := by
  intro o
  rw [show g'.Holds o ↔ Below (g.heads ++ l) o from (holds_run (reach_good hr).1 hne hc hs hu hrun).2.2 o]
  constructor
  · rintro ⟨x, hx, h⟩
    rcases List.mem_append.1 hx with hx | hx
    · exact Or.inl ⟨x, hx, h⟩
    · exact Or.inr ⟨x, hx, h⟩
  · rintro (⟨x, hx, h⟩ | ⟨x, hx, h⟩)
    · exact ⟨x, by simp [hx], h⟩
    · exact ⟨x, by simp [hx], h⟩

/-- C67 fails: two admins add the same agent with the same access; once that agent has added someone, the second of the two
delegations is accepted and forgotten. -/
theorem C67_fails : ∃ g g' o, Reach Sample.H g ∧ Accepts Sample.H g o g' ∧ NoClash Sample.H (g.heads ++ [o]) ∧ ¬ g'.Holds o := by
  refine ⟨okG (deliver NK (Group.new Sample.H pK) [.dlg dB, .dlg c4]), okG (deliver NK (Group.new Sample.H pK) [.dlg dB, .dlg c4, .dlg dA]),
    .dlg dA, deliver_reach rfl (by decide +kernel), .dlg NK (by decide +kernel),
    noClash_of [.dlg pK, .dlg dB, .dlg c4, .dlg dA] (by decide +kernel) (by decide +kernel), ?_⟩
  intro h
  have hcl : Closed (okG (deliver NK (Group.new Sample.H pK) [.dlg dB, .dlg c4, .dlg dA])).heads [.dlg pK, .dlg dB, .dlg c4] := by
    decide +kernel
  exact absurd (hcl.below h) (by decide +kernel)

end Verif.Group.Props
