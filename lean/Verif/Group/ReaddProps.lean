import Verif.Group.Props

/-! # C136 — Somebody who was taken out can be taken in again

design/group_membership.md:427-431: "An Agent MAY be re-added to a group. In this case, the re-add operation MUST (transitively) causally succeed
that Agent's revocation." -/

namespace Verif.Group.ReaddProps

open Verif.Group.Sample Relation

variable {H : Op → Nat} {N : Nested} {S : Op → Option Nat}

/-- The operation comes after the other in the causal order. -/
def ComesAfter (o x : Op) : Prop := TransGen Dep o x

/-- The revocation concerns the agent. -/
def Concerns (r : Rev) (who : Agent) : Prop := r.revoke.delegate.id = who.id

theorem after_eq {g g' : Group} {who : Agent} {can : Access} {signer : Id} {content : Content} {d : Dlg}
    (h : g.addMember H N S who can signer content = .ok (g', d)) : d.after = AMap.values g.revHeads := by
  obtain ⟨proof, s, h1, h2, h3, h4⟩ := addMember_ok h
  rw [h3]
  cases proof <;> simp [Dlg.mk, Dlg.after, Revs.toList_ofList]

/-- C136, order: the delegation that adds somebody comes after everything below the revocation heads, and after everything below its proof.
Missing: revocations that are no heads any more because a delegation to somebody else has named them (`C136_fails`). -/
theorem C136_order_partial {g g' : Group} {who : Agent} {can : Access} {signer : Id} {content : Content} {d : Dlg}
    (h : g.addMember H N S who can signer content = .ok (g', d)) {r : Rev} (hr : Below ((AMap.values g.revHeads).map Op.rev) (.rev r)) :
    ComesAfter (.dlg d) (.rev r) := by
  obtain ⟨o, ho, hp⟩ := hr
  obtain ⟨r0, hr0, rfl⟩ := List.mem_map.1 ho
  exact TransGen.head' (mem_after_dlg.2 (.inr ⟨r0, by rw [after_eq h]; exact hr0, rfl⟩)) hp

/-- Signatures that differ when the delegate, the number of revocations seen, or what is revoked differ. -/
def sigs : Op → Option Nat
  | .dlg d => some (1000 + d.delegate.id * 10 + d.after.length)
  | .rev r => some (2000 + r.revoke.sig)
/-- Alice (1) adds Bob (2). -/
def a1 : Group := okG ((g0.addMember Sample.H noN sigs (ind 2) .edit 1 []).map (·.1))
/-- And takes them out again. -/
def a2 : Group := (a1.revokeMember Sample.H noN sigs 2 false 1 []).1
/-- Then adds 4. -/
def a3 : Group := okG ((a2.addMember Sample.H noN sigs (ind 4) .edit 1 []).map (·.1))
/-- How Bob was added. -/
def bob : Dlg := .link 1 1020 (ind 2) .edit p0 .nil []
/-- How Bob was taken out. -/
def out : Rev := .via 1 3020 bob bob []
/-- How Bob is added again at once. -/
def bob' : Dlg := .link 1 1021 (ind 2) .edit p0 (Revs.ofList [out]) []
/-- How 4 is added. -/
def four : Dlg := .link 1 1041 (ind 4) .edit p0 (Revs.ofList [out]) []

theorem added {g : Group} {who : Agent} {can : Access} {signer : Id} {d : Dlg}
    (h : (g.addMember Sample.H noN sigs who can signer []).toOption.map (·.2) = some d) :
    g.addMember Sample.H noN sigs who can signer [] = .ok (okG ((g.addMember Sample.H noN sigs who can signer []).map (·.1)), d) := by
  cases hq : g.addMember Sample.H noN sigs who can signer [] with
  | error e => rw [hq] at h; cases h
  | ok p => rw [hq] at h; cases h; rfl

theorem a1_reach : Reach Sample.H a1 := .add (.new rfl) (added (d := bob) (by decide +kernel))
theorem a2_reach : Reach Sample.H a2 := .revoke a1_reach
theorem a3_reach : Reach Sample.H a3 := .add a2_reach (added (d := four) (by decide +kernel))

-- Alice adds Bob again at once: the new delegation names the revocation.
example : a2.addMember Sample.H noN sigs (ind 2) .edit 1 [] =
      .ok (okG ((a2.addMember Sample.H noN sigs (ind 2) .edit 1 []).map (·.1)), bob') ∧
    Below ((AMap.values a2.revHeads).map Op.rev) (.rev out) :=
  ⟨added (by decide +kernel), .rev out, by decide +kernel, .refl⟩

/-- C136 if every revocation that concerns the agent is still one of the revocation heads, that is, if nobody has been added since (and, as in C30, nothing
in the chain of the signer has been revoked): whoever is added again is a member again, with the access asked for.
Missing: revocations that are no heads any more. `C136_fails` shows that these can keep the agent out. -/
theorem C136_again_partial {g g' : Group} {who : Agent} {can : Access} {signer : Id} {content : Content} {d : Dlg} (hr : Reach H g)
    (hne : g.dlgHeads ≠ []) (h : g.addMember H N S who can signer content = .ok (g', d)) (hc : NoClash H (g.heads ++ [.dlg d]))
    (hs : NoClash Op.sig (g.heads ++ [.dlg d])) (hu : PayloadUnique (g.heads ++ [.dlg d])) (ha : Acyclic g'.heads)
    (hheads : ∀ r, g.Holds (.rev r) → Concerns r who → r ∈ AMap.values g.revHeads)
    (hclean : ∀ r, g.Holds (.rev r) → ∀ a ∈ d.lineage, r.revoke.sig ≠ a.sig) :
    ∃ e, g'.MemberBy who.id e ∧ e.delegate = who ∧ e.can = can := by
  obtain ⟨proof, s, h1, h2, h3, h4⟩ := addMember_ok h
  have hacc : Accepts H g (.dlg d) g' := .dlg N h4
  obtain ⟨hg, hb⟩ := reach_good hr
  obtain ⟨_, _, hh⟩ := holds_run hg hne hc hs hu (Run.one hacc)
  have hd : Below (g.heads ++ [.dlg d]) (.dlg d) := Below.head (by simp)
  have hwho : d.delegate = who := (Props.C30_entitled h).2.1
  -- what the group holds now and did not hold before is the new delegation
  have hheld : ∀ r, g'.Holds (.rev r) → g.Holds (.rev r) := by
    intro r hr'
    obtain ⟨o, ho, hp⟩ := (hh _).1 hr'
    rcases List.mem_append.1 ho with ho | ho
    · exact ⟨o, ho, hp⟩
    · rw [List.mem_singleton] at ho
      subst ho
      rcases ReflTransGen.cases_head hp with he | ⟨x, hx, hp⟩
      · cases he
      · rcases mem_after_dlg.1 hx with ⟨p, hp1, rfl⟩ | ⟨q, hq, rfl⟩
        · have e : d.proof = proof := by rw [h3]; cases proof <;> rfl
          rw [← e, hp1] at h1
          obtain ⟨m, hm⟩ := proofFor_mem h1
          exact (hb.held hm).trans hp
        · rw [after_eq h] at hq
          exact (Below.head (by simp [Group.heads, hq]) : Below g.heads (.rev q)).trans hp
  refine Props.C30_new_member_partial hr hne h hc hs hu ha ?_
  intro r hr' a ham hsig
  have hrg := hheld r hr'
  rcases List.mem_cons.1 ham with rfl | ham
  · have hrd : Below (g.heads ++ [.dlg a]) (.dlg r.revoke) := ((hh _).1 hr').dep (mem_after_rev.2 (Or.inl rfl))
    have heq : r.revoke = a := by
      have := hs (.dlg r.revoke) (.dlg a) hrd hd hsig
      cases this
      rfl
    have hin := hheads r hrg (by unfold Concerns; rw [heq, hwho])
    have n1 : Needs g'.heads (.dlg a) (.rev r) :=
      .dep ((hh _).2 hd) (mem_after_dlg.2 (.inr ⟨r, by rw [after_eq h]; exact hin, rfl⟩))
    have n2 : Needs g'.heads (.rev r) (.dlg a) := .dep hr' (mem_after_rev.2 (Or.inl (by rw [heq])))
    exact ha _ (.tail (.single n1) n2)
  · exact hclean r hrg a ham hsig

-- All hypotheses are met when Alice adds Bob again at once, and Bob is a member again.
example : let g' := okG ((a2.addMember Sample.H noN sigs (ind 2) .edit 1 []).map (·.1))
    Reach Sample.H a2 ∧ a2.dlgHeads ≠ [] ∧ a2.addMember Sample.H noN sigs (ind 2) .edit 1 [] = .ok (g', bob') ∧
    NoClash Op.sig (a2.heads ++ [.dlg bob']) ∧ PayloadUnique (a2.heads ++ [.dlg bob']) ∧ Acyclic g'.heads ∧
    (∀ r, a2.Holds (.rev r) → Concerns r (ind 2) → r ∈ AMap.values a2.revHeads) ∧
    (∀ r, a2.Holds (.rev r) → ∀ a ∈ bob'.lineage, r.revoke.sig ≠ a.sig) ∧ g'.MemberBy 2 bob' := by
  have hcl : Closed (a2.heads ++ [.dlg bob']) [.dlg p0, .dlg bob, .rev out, .dlg bob'] := by decide +kernel
  have hcl2 : Closed a2.heads [.dlg p0, .dlg bob, .rev out] := by decide +kernel
  have hcl' : Closed (okG ((a2.addMember Sample.H noN sigs (ind 2) .edit 1 []).map (·.1))).heads [.dlg p0, .dlg bob, .rev out, .dlg bob'] := by
    decide +kernel
  refine ⟨a2_reach, by decide +kernel, added (by decide +kernel), noClash_of _ hcl (by decide +kernel), payloadUnique_of _ hcl (by decide +kernel),
    acyclic_of_direct (noClash_of _ hcl' (by decide +kernel)) (direct_of _ hcl' (by decide +kernel)), ?_, ?_, ⟨[bob'], by decide +kernel, by simp⟩⟩
  · intro r hr _
    have := mem_revs (hcl2.below hr)
    have hall : ∀ r ∈ revs [.dlg p0, .dlg bob, .rev out], r ∈ AMap.values a2.revHeads := by decide +kernel
    exact hall r this
  · intro r hr
    have := mem_revs (hcl2.below hr)
    have hall : ∀ r ∈ revs [.dlg p0, .dlg bob, .rev out], ∀ a ∈ bob'.lineage, r.revoke.sig ≠ a.sig := by decide +kernel
    exact hall r this

/-- C136 fails: Alice adds Bob to a group, takes them out, adds somebody else, and adds Bob again. The last call succeeds and Bob is not a member: naming the
revocation when the other one was added has taken it out of the heads, so what adds Bob again does not come after it, is word for word the delegation that was
revoked, and stays revoked. -/
theorem C136_fails : ∃ (H : Op → Nat) (N : Nested) (S : Op → Option Nat) (g1 g2 g3 g4 : Group) (b f : Dlg) (r : Rev),
    Reach H g1 ∧ (∃ e, g1.MemberBy 2 e) ∧
    g1.revokeMember H N S 2 false 1 [] = (g2, .ok ([r], [])) ∧ (∀ e, ¬ g2.MemberBy 2 e) ∧
    g2.addMember H N S (ind 4) .edit 1 [] = .ok (g3, f) ∧
    g3.addMember H N S (ind 2) .edit 1 [] = .ok (g4, b) ∧
    NoClash H g4.heads ∧ (∀ e, ¬ g4.MemberBy 2 e) ∧ ¬ ComesAfter (.dlg b) (.rev r) ∧ r.revoke = b := by
  have none_of : ∀ {g : Group}, AMap.get g.members 2 = none → ∀ e, ¬ g.MemberBy 2 e := by
    rintro g h e ⟨ds, h1, -⟩
    rw [h] at h1
    cases h1
  have hrev : (a1.revokeMember Sample.H noN sigs 2 false 1 []).2 = .ok ([out], []) := by
    have : (a1.revokeMember Sample.H noN sigs 2 false 1 []).2.toOption = some ([out], []) := by decide +kernel
    cases hq : (a1.revokeMember Sample.H noN sigs 2 false 1 []).2 with
    | error e => rw [hq] at this; cases this
    | ok p => rw [hq] at this; cases this; rfl
  refine ⟨Sample.H, noN, sigs, a1, a2, a3, okG ((a3.addMember Sample.H noN sigs (ind 2) .edit 1 []).map (·.1)), bob, four, out, a1_reach,
    ⟨bob, [bob], by decide +kernel, by simp⟩, ?_, none_of (by decide +kernel), added (by decide +kernel), added (by decide +kernel),
    noClash_of [.dlg p0, .dlg bob, .dlg four, .rev out] (by decide +kernel) (by decide +kernel), none_of (by decide +kernel), ?_, rfl⟩
  · rw [← hrev]; rfl
  · intro h
    have hcl : ∀ x, ReflTransGen Dep (.dlg bob) x → x = .dlg bob ∨ x = .dlg p0 := by
      intro x hx
      induction hx with
      | refl => exact .inl rfl
      | tail _ hd ih =>
        rcases ih with rfl | rfl
        · have : ∀ y ∈ (Op.dlg bob).after, y = .dlg p0 := by decide +kernel
          exact .inr (this _ hd)
        · have : ∀ y ∈ (Op.dlg p0).after, False := by decide +kernel
          exact (this _ hd).elim
    rcases hcl _ h.to_reflTransGen with h | h <;> cases h

end Verif.Group.ReaddProps
