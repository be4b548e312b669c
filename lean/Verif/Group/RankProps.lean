import Verif.Group.PassOnProps
import Verif.Group.CountProps

/-! # C138 — Members who revoke each other at the same time

membership_operation.rs:211-221, 296-298: concurrent revocations are ordered by their distance from the root; "lower distance = closer to root = more senior
authority = wins the tie-break. An attacker cannot reduce their distance by creating puppet delegations — those only increase depth." -/

namespace Verif.Group.RankProps

open Verif.Group.Sample Verif.Group.PassOnProps

variable {H : Op → Nat}

theorem distance_after : ∀ {rs : Revs} {r : Rev}, r ∈ rs.toList → r.distance ≤ rs.distance
  | .nil, _, h => by cases h
  | .cons x xs, r, h => by
    rcases List.mem_cons.1 h with rfl | h
    · exact Nat.le_max_left _ _
    · exact Nat.le_trans (distance_after h) (Nat.le_max_right _ _)

/-- C138, rank: whatever names an operation is farther from the root than the operation. -/
theorem C138_deeper {a b : Op} (h : Dep a b) : b.distance < a.distance := by
  cases a with
  | dlg d =>
    rcases mem_after_dlg.1 h with ⟨p, hp, rfl⟩ | ⟨r, hr, rfl⟩
    · cases d with
      | root => cases hp
      | link => cases hp; exact Nat.lt_succ_of_le (Nat.le_max_left _ _)
    · cases d with
      | root => exact Nat.lt_succ_of_le (distance_after hr)
      | link => exact Nat.lt_succ_of_le (Nat.le_trans (distance_after hr) (Nat.le_max_right _ _))
  | rev r =>
    rcases mem_after_rev.1 h with rfl | ⟨p, hp, rfl⟩
    · cases r with
      | root => exact Nat.lt_succ_self _
      | via => exact Nat.lt_succ_of_le (Nat.le_max_left _ _)
    · cases r with
      | root => cases hp
      | via => cases hp; exact Nat.lt_succ_of_le (Nat.le_max_right _ _)

example : Dep (.dlg d1) (.dlg p0) := mem_after_dlg.2 (.inl ⟨p0, rfl, rfl⟩)

theorem lineage_deeper : ∀ {d a : Dlg}, a ∈ d.lineage → a.distance < d.distance
  | .root .., _, h => by cases h
  | .link i s ag c p rs ct, a, h => by
    have hp : p.distance < (Dlg.link i s ag c p rs ct).distance := Nat.lt_succ_of_le (Nat.le_max_left _ _)
    rcases List.mem_cons.1 h with rfl | h
    · exact hp
    · exact Nat.lt_trans (lineage_deeper h) hp

/-- C138, puppets: of two revocations of one delegation, one that rests on a delegation below that of the other, for example on one its issuer has made for
this purpose, does not rank before it. -/
theorem C138_puppets {r r' : Rev} {p p' : Dlg} (hp : r.proof = some p) (hp' : r'.proof = some p') (hsame : r'.revoke = r.revoke)
    (hbelow : p ∈ p'.lineage) : r.distance ≤ r'.distance := by
  have h := lineage_deeper hbelow
  cases r with
  | root => cases hp
  | via i s d q c =>
    cases r' with
    | root => cases hp'
    | via i' s' d' q' c' =>
      cases hp; cases hp'; cases hsame
      simp only [Rev.distance, Nat.max_def]
      split <;> split <;> omega

example : (Rev.via 1 13 d2 p0 []).proof = some p0 ∧ (Rev.via 1 13 d2 d1 []).proof = some d1 ∧ p0 ∈ d1.lineage := ⟨rfl, rfl, by simp [d1, Dlg.lineage]⟩

/-- Each of the revocations revokes what the other rests on. -/
structure EachOther (r r' : Rev) : Prop where
  one : r.proof = some r'.revoke
  other : r'.proof = some r.revoke

/-- C138, who wins: the rank never decides between two who revoke each other. Both revocations have the same distance, whatever the distances of the
two delegations are. -/
theorem C138_tie {r r' : Rev} (h : EachOther r r') : r.distance = r'.distance := by
  cases r with
  | root => cases h.one
  | via i s d p c =>
    cases r' with
    | root => cases h.other
    | via i' s' d' p' c' =>
      obtain ⟨h1, h2⟩ := h
      simp only [Rev.proof, Rev.revoke, Option.some.injEq] at h1 h2
      subst h1 h2
      simp only [Rev.distance, Nat.max_def]
      split <;> split <;> omega

/-- C138 when nothing else is revoked and whoever gave the two their access has it by the group key or through somebody who still has it: both revocations
count, and both are out. -/
theorem C138_both {g : Group} (h : Reach H g) (hc : NoClash H g.heads) (hs : NoClash Op.sig g.heads) (ha : Acyclic g.heads) (hsole : Sole g.heads)
    {r r' : Rev} (hr : g.Holds (.rev r)) (hr' : g.Holds (.rev r')) (he : EachOther r r')
    (hgiven : ∀ x ∈ [r, r'], ∀ p, x.proof = some p → (∀ d, g.Holds (.dlg d) → d.delegate.id ≠ p.issuer) ∨
      ∃ q, p.proof = some q ∧ q.delegate.id = p.issuer ∧ p.can ≤ q.can ∧ CountProps.Stands g x q) :
    ∀ m, ¬ g.MemberBy m r.revoke ∧ ¬ g.MemberBy m r'.revoke := by
  have key : ∀ x ∈ [r, r'], ∀ p, x.proof = some p → g.Holds (.rev x) → g.InEffect x := by
    intro x hx p hp hh
    rcases hgiven x hx p hp with h1 | ⟨q, h1, h2, h3, h4⟩
    · exact CountProps.C119_root_counts h hc hs ha hh hp h1
    · exact CountProps.C119_given_counts h hc hs ha hh hp h1 h2 h3 h4
  exact fun m => ⟨Props.C25_revoked_not_member_partial h hc hs hsole (key r (by simp) _ he.one hr) m,
    Props.C25_revoked_not_member_partial h hc hs hsole (key r' (by simp) _ he.other hr') m⟩

/-! ## Samples -/

/-- The group key adds group 200 to group 100. -/
def senior : Dlg := .root 100 41 (grp 200) .admin .nil []
/-- Alice adds group 300. -/
def junior : Dlg := .link 1 42 (grp 300) .admin p0 .nil []
/-- Group 100 with both. -/
def g : Group := okG (deliver noN g0 [.dlg senior, .dlg junior])
/-- 7 is an admin of group 200, and 9 of group 300. -/
def W : World := [(200, h7), (300, Group.new Sample.H (.root 300 30 (ind 9) .admin .nil []))]
/-- Signatures. -/
def sigs : Op → Option Nat
  | .dlg _ => some 99
  | .rev r => some (50 + r.issuer)
/-- 7 revokes group 300. -/
def r1 : Rev := .via 7 57 junior senior []
/-- 9 revokes group 200. -/
def r2 : Rev := .via 9 59 senior junior []
/-- Group 100 with both revocations. -/
def after : Group := okG ((g.revokeMember Sample.H (membersOf W [100]) sigs 300 false 7 []).1.receiveRevocation Sample.H (membersOf W [100]) r2)
/-- Everything in it. -/
def ops : List Op := [.dlg p0, .dlg senior, .dlg junior, .rev r1, .rev r2]

theorem g_reach : Reach Sample.H g := deliver_reach rfl (by decide +kernel)
theorem after_reach : Reach Sample.H after := .accept (.revoke g_reach) (.rev _ (okG_eq (by decide +kernel)))
theorem after_closed : Closed after.heads ops := by decide +kernel

theorem after_acyclic : Acyclic after.heads := by
  have h1 : ∀ {a b}, Needs after.heads a b → ops.idxOf b < ops.idxOf a := by
    intro a b h
    cases h with
    | dep ha hab =>
      have key : ∀ a ∈ ops, ∀ b ∈ a.after, ops.idxOf b < ops.idxOf a := by decide +kernel
      exact key a (after_closed.below ha) b hab
    | revoked hd hr hp hsig =>
      exfalso
      have key : ∀ d ∈ dlgs ops, ∀ p ∈ d.proof, ∀ r ∈ revs ops, r.revoke.sig ≠ p.sig := by decide +kernel
      exact key _ (mem_dlgs (after_closed.below hd)) _ hp _ (mem_revs (after_closed.below hr)) hsig
  have h2 : ∀ {a b}, Relation.TransGen (Needs after.heads) a b → ops.idxOf b < ops.idxOf a := by
    intro a b h
    induction h with
    | single h => exact h1 h
    | tail _ h ih => exact Nat.lt_trans (h1 h) ih
  exact fun o h => Nat.lt_irrefl _ (h2 h)

example : EachOther r1 r2 := ⟨rfl, rfl⟩

-- The hypotheses of `C138_both` are met: the group key gave group 200 its access, and Alice, who gave group 300 theirs, has it still.
example : Reach Sample.H after ∧ NoClash Sample.H after.heads ∧ Acyclic after.heads ∧ Sole after.heads ∧ after.Holds (.rev r1) ∧ after.Holds (.rev r2) ∧
    (∀ d, after.Holds (.dlg d) → d.delegate.id ≠ senior.issuer) ∧ junior.proof = some p0 ∧ p0.delegate.id = junior.issuer ∧ junior.can ≤ p0.can ∧
    CountProps.Stands after r2 p0 := by
  refine ⟨after_reach, noClash_of ops after_closed (by decide +kernel), after_acyclic, sole_of ops after_closed (by decide +kernel),
    Below.head (by decide +kernel), Below.head (by decide +kernel), fun d hd => ?_, rfl, rfl, by decide, by decide +kernel, fun r' hr' _ a ha => ?_⟩
  · have key : ∀ d ∈ dlgs ops, d.delegate.id ≠ senior.issuer := by decide +kernel
    exact key d (mem_dlgs (after_closed.below hd))
  · have key : ∀ r ∈ revs ops, ∀ a ∈ p0 :: p0.lineage, r.revoke.sig ≠ a.sig := by decide +kernel
    exact key r' (mem_revs (after_closed.below hr')) a ha

theorem both_made : (g.revokeMember Sample.H (membersOf W [100]) sigs 300 false 7 []).2 = .ok ([r1], []) ∧
    (g.revokeMember Sample.H (membersOf W [100]) sigs 200 false 9 []).2 = .ok ([r2], []) := by
  have get : ∀ {x : Except Err (List Rev × List Dlg)} {v}, x.toOption = some v → x = .ok v := by
    intro x v h
    cases x with
    | error e => cases h
    | ok y => cases h; rfl
  exact ⟨get (by decide +kernel), get (by decide +kernel)⟩

/-- C138 fails: group 200 was added to group 100 by the group key, group 300 by one of its members. A member of group 200 revokes group 300 while a member of
group 300 revokes group 200. Once both are known, neither is a member. -/
theorem C138_fails : ∃ (W : World) (S : Op → Option Nat) (g g' : Group) (d d' : Dlg) (r r' : Rev), Reach Sample.H g ∧ NoClash Sample.H g'.heads ∧
    g.MemberBy 200 d ∧ d.proof = none ∧ d.issuer = g.id ∧ g.MemberBy 300 d' ∧ d.distance < d'.distance ∧
    (g.revokeMember Sample.H (membersOf W [g.id]) S 300 false 7 []).2 = .ok ([r], []) ∧
    (g.revokeMember Sample.H (membersOf W [g.id]) S 200 false 9 []).2 = .ok ([r'], []) ∧
    (g.revokeMember Sample.H (membersOf W [g.id]) S 300 false 7 []).1.receiveRevocation Sample.H (membersOf W [g.id]) r' = .ok g' ∧
    EachOther r r' ∧ (∀ e, ¬ g'.MemberBy 200 e) ∧ ∀ e, ¬ g'.MemberBy 300 e := by
  have none_of : ∀ {g : Group} {i}, AMap.get g.members i = none → ∀ e, ¬ g.MemberBy i e := by
    rintro g i h e ⟨ds, h1, -⟩
    rw [h] at h1
    cases h1
  exact ⟨W, sigs, g, after, senior, junior, r1, r2, g_reach, noClash_of ops after_closed (by decide +kernel), ⟨[senior], by decide +kernel, by simp⟩, rfl,
    by decide +kernel, ⟨[junior], by decide +kernel, by simp⟩, by decide, both_made.1, both_made.2, okG_eq (by decide +kernel), ⟨rfl, rfl⟩,
    none_of (by decide +kernel), none_of (by decide +kernel)⟩

/-- Alice adds 4. -/
def four : Dlg := .link 1 43 (ind 4) .edit p0 .nil []
/-- Alice revokes 4, and Carol, whom Bob has added. -/
def both : Group := okG (deliver noN g0 [.dlg d1, .dlg d2, .dlg four, .rev (.via 1 61 four four []), .rev (.via 1 62 d2 d2 [])])

/-- C138 fails for the order: of two revocations that do not depend on each other, the one closer to the root takes effect after the other. -/
theorem C138_order_fails : ∃ (g : Group) (r r' : Rev) (l1 l2 l3 : List Op), Reach Sample.H g ∧ NoClash Sample.H g.heads ∧
    (.rev r ∈ g.heads ∧ .rev r' ∈ g.heads) ∧ r.distance < r'.distance ∧ g.history Sample.H = l1 ++ .rev r' :: l2 ++ .rev r :: l3 :=
  ⟨both, .via 1 61 four four [], .via 1 62 d2 d2 [], [.dlg p0, .dlg d1, .dlg d2], [.dlg four], [], deliver_reach rfl (by decide +kernel),
    noClash_of [.dlg p0, .dlg d1, .dlg d2, .dlg four, .rev (.via 1 61 four four []), .rev (.via 1 62 d2 d2 [])] (by decide +kernel) (by decide +kernel),
    ⟨by decide +kernel, by decide +kernel⟩, by decide, by decide +kernel⟩

end Verif.Group.RankProps
