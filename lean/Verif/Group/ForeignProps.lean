import Verif.Group.Props

/-! # C140 — What happens in one group does not decide who is a member of another

Here for one group; the counterexample is in `Verif/Keyhive/ForeignProps.lean`. -/

namespace Verif.Group.ForeignProps

open Verif.Group.Sample

variable {H : Op → Nat} {N : Nested} {S : Op → Option Nat}

/-- What the operations of the group name is about the group as well: the revocations its delegations come after, and the proofs of its revocations. -/
def NamesOwn (g : Group) : Prop :=
  (∀ d, g.Holds (.dlg d) → ∀ r ∈ d.after, r.subject = g.id) ∧ ∀ r p, g.Holds (.rev r) → r.proof = some p → p.subject = g.id

theorem heads_own {g : Group} (h : Reach H g) : ∀ x ∈ g.heads, x.subject = g.id := by
  have : HeadsOk H g ∧ ∀ x ∈ g.heads, x.subject = g.id := by
    refine Reach.ind (P := fun g => HeadsOk H g ∧ ∀ x ∈ g.heads, x.subject = g.id) ?_ ?_ ?_ h
    · intro d hd
      refine ⟨(new_ok d).1, fun x hx => ?_⟩
      rw [(new_ok (H := H) d).2.1, List.mem_singleton] at hx
      subst hx
      exact View.Dlg.subject_root hd
    · intro S id parents content g _ hg
      refine ⟨(generate_good hg).1, fun x hx => ?_⟩
      obtain ⟨heads, rfl, _, _, h2⟩ := generate_ok hg
      simp only [Group.heads, Group.rebuild, AMap.values, List.map_nil, List.append_nil, List.mem_map] at hx
      obtain ⟨d, ⟨⟨k, d'⟩, hk, rfl⟩, rfl⟩ := hx
      obtain ⟨_, a, _, s, hd⟩ := h2 k d' (AMap.get_of_mem (by assumption) hk)
      subst hd
      rfl
    · intro g o g' hg ha
      have hs := accepts_step ha hg.1
      refine ⟨hs.1, fun x hx => ?_⟩
      rw [hs.2.2]
      rcases heads_sub hg.1 ha hx with hx | rfl
      · exact hg.2 x hx
      · exact Props.C23_accepted_subject ha
  exact this.2

/-- C140: a delegation made by adding a member names only revocations about this group. -/
theorem C140_add {g g' : Group} (h : Reach H g) {who : Agent} {can : Access} {signer : Id} {content : Content} {d : Dlg}
    (ha : g.addMember H N S who can signer content = .ok (g', d)) : d.subject = g.id ∧ ∀ r ∈ d.after, r.subject = g.id := by
  obtain ⟨proof, s, _, _, rfl, hr⟩ := addMember_ok ha
  refine ⟨(receiveDelegation_ok hr).1, fun r hm => ?_⟩
  have : r ∈ AMap.values g.revHeads := by
    cases proof <;> simpa [Dlg.mk, Dlg.after, Revs.toList_ofList] using hm
  exact heads_own h (.rev r) (by simp [Group.heads, this])

/-- C140 when the operations of the group name only operations about the group: everything the group holds is about the group, and so is every
delegation that makes somebody a member.
Missing: a delegation is accepted whatever revocations it names (`C140_fails`). -/
theorem C140_members_partial {g : Group} (h : Reach H g) (hn : NamesOwn g) :
    (∀ o, g.Holds o → o.subject = g.id) ∧ ∀ m d, g.MemberBy m d → d.subject = g.id := by
  have key : ∀ o, g.Holds o → o.subject = g.id := by
    rintro o ⟨x, hx, hr⟩
    have : g.Holds o ∧ o.subject = g.id := by
      induction hr with
      | refl => exact ⟨.head hx, heads_own h _ hx⟩
      | tail hr hd ih =>
        rename_i b c
        refine ⟨⟨x, hx, hr.tail hd⟩, ?_⟩
        cases b with
        | dlg d =>
          rcases mem_after_dlg.1 hd with ⟨p, hp, rfl⟩ | ⟨r, hr', rfl⟩
          · exact (View.Dlg.subject_proof hp).symm.trans ih.2
          · exact hn.1 d ih.1 r hr'
        | rev r =>
          rcases mem_after_rev.1 hd with rfl | ⟨p, hp, rfl⟩
          · exact ih.2
          · exact hn.2 r p ih.1 hp
    exact this.2
  exact ⟨key, fun m d hm => key _ ((reach_good h).2.held hm)⟩

/-- Alice gives Bob read access after having revoked them. -/
def again : Dlg := .link 1 15 (ind 2) .read p0 (.cons rBobByAlice .nil) []
/-- The group then. -/
def gAgain : Group := okG (deliver noN g0 [.dlg d1, .rev rBobByAlice, .dlg again])

/-- A group with a revocation and a delegation that comes after it. -/
example : Reach Sample.H gAgain ∧ NamesOwn gAgain ∧ gAgain.MemberBy 2 again ∧ again.after = [rBobByAlice] := by
  have hcl : Closed gAgain.heads [.dlg p0, .dlg d1, .rev rBobByAlice, .dlg again] := by decide +kernel
  refine ⟨deliver_reach rfl (by decide +kernel), ⟨fun d hd => ?_, fun r p hr => ?_⟩, ⟨[again], by decide +kernel, by simp⟩, rfl⟩
  · have := hcl.below hd
    simp only [List.mem_cons, Op.dlg.injEq, reduceCtorEq, List.not_mem_nil, or_false, false_or] at this
    rcases this with rfl | rfl | rfl <;> decide +kernel
  · have := hcl.below hr
    simp only [List.mem_cons, Op.rev.injEq, reduceCtorEq, List.not_mem_nil, or_false, false_or] at this
    subst this
    intro hp
    cases hp
    decide +kernel

end Verif.Group.ForeignProps
