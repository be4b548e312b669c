import Verif.Keyhive.Access
import Verif.Keyhive.BulkLemmas
import Verif.Keyhive.NewDocLemmas

/-! # Lemmas about questions of access -/

namespace Verif.Group

theorem View.wf_active (gid : Id) (l : List Op) :
    AMap.WF (View.replay gid l).active ∧ ∀ p ∈ (View.replay gid l).active, p.2.sig = p.1 := by
  induction l using List.reverseRecOn with
  | nil => exact ⟨AMap.wf_nil, by intro p hp; cases hp⟩
  | append_singleton l o ih =>
    rw [View.replay_append]
    cases o with
    | dlg d =>
      have : ((View.replay gid l).apply gid (.dlg d)).active = (View.replay gid l).active := by
        show ((View.replay gid l).delegation gid d).active = _
        unfold View.delegation View.play View.noteProof
        dsimp only
        split_ifs <;> first | rfl | (split <;> (try split_ifs) <;> rfl) | (split <;> split <;> rfl)
      rw [this]
      exact ih
    | rev r =>
      show AMap.WF ((View.replay gid l).revocation gid r).active ∧ _
      have he : ((View.replay gid l).apply gid (.rev r)).active = ((View.replay gid l).revocation gid r).active := rfl
      rw [he]
      unfold View.revocation
      split
      · exact ih
      · refine ⟨AMap.wf_insert ih.1 _ _, fun p hp => ?_⟩
        rcases List.mem_cons.1 hp with rfl | hp
        · rfl
        · exact ih.2 p (List.mem_filter.1 hp).1

/-- The revocations walked over are those in effect. -/
theorem mem_active {H : Op → Nat} {g : Group} (h : Rebuilt H g) {r : Rev} : r ∈ AMap.values g.active ↔ g.InEffect r := by
  have hw := View.wf_active g.id (g.history H)
  rw [← h.2] at hw
  unfold Group.InEffect
  constructor
  · intro hr
    obtain ⟨p, hp, rfl⟩ := List.mem_map.1 hr
    rw [hw.2 p hp]
    exact AMap.get_of_mem hw.1 hp
  · intro hr
    exact List.mem_map_of_mem (f := Prod.snd) (AMap.mem_of_get hr)

theorem Access.le_total' (a b : Access) : ¬ a < b → b ≤ a := fun h => Nat.le_of_not_lt h

theorem Access.le_of_lt' {a b : Access} (h : a < b) : a ≤ b := Nat.le_of_lt h

/-- What the loop of `revoked_members` has noted after some revocations. -/
structure Noted (g : Group) (rs : List Rev) (acc : AMap Id (Agent × Access)) : Prop where
  wf : AMap.WF acc
  entry : ∀ {i a x}, AMap.get acc i = some (a, x) → AMap.get g.members i = none ∧ a.id = i ∧ (∃ r ∈ rs, r.revoke.delegate = a) ∧
    (∃ r ∈ rs, r.revoke.delegate.id = i ∧ r.revoke.can = x) ∧ ∀ r ∈ rs, r.revoke.delegate.id = i → r.revoke.can ≤ x
  all : ∀ r ∈ rs, AMap.get g.members r.revoke.delegate.id = none → ∃ a x, AMap.get acc r.revoke.delegate.id = some (a, x)

theorem Group.noted (g : Group) : Noted g (AMap.values g.active) g.revokedMembers := by
  unfold Group.revokedMembers
  generalize AMap.values g.active = rs
  induction rs using List.reverseRecOn with
  | nil => exact ⟨AMap.wf_nil, (fun h => by cases h), (fun r hr => by cases hr)⟩
  | append_singleton rs r ih =>
    rw [List.foldl_append]
    generalize List.foldl _ _ rs = acc at ih ⊢
    simp only [List.foldl_cons, List.foldl_nil]
    split
    · rename_i hc
      refine ⟨ih.wf, fun {i a x} h => ?_, fun r' hr' hn => ?_⟩
      · obtain ⟨h1, h2, ⟨s, hs, h3⟩, ⟨s', hs', h4⟩, h5⟩ := ih.entry h
        refine ⟨h1, h2, ⟨s, List.mem_append_left _ hs, h3⟩, ⟨s', List.mem_append_left _ hs', h4⟩, fun r' hr' e => ?_⟩
        rcases List.mem_append.1 hr' with hr' | hr'
        · exact h5 r' hr' e
        · rw [List.mem_singleton.1 hr'] at e
          rw [e, AMap.contains, h1] at hc
          cases hc
      · rcases List.mem_append.1 hr' with hr' | hr'
        · exact ih.all r' hr' hn
        · rw [List.mem_singleton.1 hr'] at hn
          rw [AMap.contains, hn] at hc
          cases hc
    · rename_i hc
      have hm : AMap.get g.members r.revoke.delegate.id = none := by
        cases h : AMap.get g.members r.revoke.delegate.id with
        | none => rfl
        | some v => exact absurd (by rw [AMap.contains, h]; rfl) hc
      split
      · rename_i a existing hg
        obtain ⟨h1, h2, ⟨s, hs, h3⟩, ⟨s', hs', h4⟩, h5⟩ := ih.entry hg
        split
        · rename_i hlt
          refine ⟨AMap.wf_insert ih.wf _ _, fun {i b x} h => ?_, fun r' hr' hn => ?_⟩
          · rw [AMap.get_insert] at h
            split at h
            · rename_i e
              cases h
              subst e
              refine ⟨hm, h2, ⟨s, List.mem_append_left _ hs, h3⟩, ⟨r, List.mem_append_right _ (List.mem_singleton_self r), rfl, rfl⟩, fun r' hr' e => ?_⟩
              rcases List.mem_append.1 hr' with hr' | hr'
              · exact Nat.le_trans (h5 r' hr' e) (Access.le_of_lt' hlt)
              · rw [List.mem_singleton.1 hr']; exact Nat.le_refl _
            · rename_i e
              obtain ⟨h1, h2, ⟨s, hs, h3⟩, ⟨s', hs', h4⟩, h5⟩ := ih.entry h
              refine ⟨h1, h2, ⟨s, List.mem_append_left _ hs, h3⟩, ⟨s', List.mem_append_left _ hs', h4⟩, fun r' hr' e' => ?_⟩
              rcases List.mem_append.1 hr' with hr' | hr'
              · exact h5 r' hr' e'
              · rw [List.mem_singleton.1 hr'] at e'; exact absurd e'.symm e
          · rw [AMap.get_insert]
            split
            · exact ⟨_, _, rfl⟩
            · rename_i e
              rcases List.mem_append.1 hr' with hr' | hr'
              · exact ih.all r' hr' hn
              · rw [List.mem_singleton.1 hr'] at e; exact absurd rfl e
        · rename_i hlt
          refine ⟨ih.wf, fun {i b x} h => ?_, fun r' hr' hn => ?_⟩
          · obtain ⟨k1, k2, ⟨s, hs, k3⟩, ⟨s', hs', k4⟩, k5⟩ := ih.entry h
            refine ⟨k1, k2, ⟨s, List.mem_append_left _ hs, k3⟩, ⟨s', List.mem_append_left _ hs', k4⟩, fun r' hr' e' => ?_⟩
            rcases List.mem_append.1 hr' with hr' | hr'
            · exact k5 r' hr' e'
            · rw [List.mem_singleton.1 hr'] at e' ⊢
              rw [← e', hg] at h
              cases h
              exact Access.le_total' _ _ hlt
          · rcases List.mem_append.1 hr' with hr' | hr'
            · exact ih.all r' hr' hn
            · rw [List.mem_singleton.1 hr']; exact ⟨_, _, hg⟩
      · rename_i hg
        refine ⟨AMap.wf_insert ih.wf _ _, fun {i b x} h => ?_, fun r' hr' hn => ?_⟩
        · rw [AMap.get_insert] at h
          split at h
          · rename_i e
            cases h
            subst e
            have hr : r ∈ rs ++ [r] := List.mem_append_right _ (List.mem_singleton_self r)
            refine ⟨hm, rfl, ⟨r, hr, rfl⟩, ⟨r, hr, rfl, rfl⟩, fun r' hr' e => ?_⟩
            rcases List.mem_append.1 hr' with hr' | hr'
            · obtain ⟨a, x, h⟩ := ih.all r' hr' (by rw [e]; exact hm)
              rw [e, hg] at h
              cases h
            · rw [List.mem_singleton.1 hr']; exact Nat.le_refl _
          · rename_i e
            obtain ⟨h1, h2, ⟨s, hs, h3⟩, ⟨s', hs', h4⟩, h5⟩ := ih.entry h
            refine ⟨h1, h2, ⟨s, List.mem_append_left _ hs, h3⟩, ⟨s', List.mem_append_left _ hs', h4⟩, fun r' hr' e' => ?_⟩
            rcases List.mem_append.1 hr' with hr' | hr'
            · exact h5 r' hr' e'
            · rw [List.mem_singleton.1 hr'] at e'; exact absurd e'.symm e
        · rw [AMap.get_insert]
          split
          · exact ⟨_, _, rfl⟩
          · rename_i e
            rcases List.mem_append.1 hr' with hr' | hr'
            · exact ih.all r' hr' hn
            · rw [List.mem_singleton.1 hr'] at e; exact absurd rfl e

end Verif.Group

namespace Verif.Keyhive

open Verif.Group

theorem isPerson_iff {a : Agent} : isPerson a = true ↔ a.isMembered = false := by
  unfold isPerson Agent.isMembered
  cases a.kind <;> simp

theorem mem_people {did : Id} {m : AMap Id (Agent × Access)} (hw : AMap.WF m) {a : Agent} {x : Access} :
    (a, x) ∈ people did m ↔ a.isMembered = false ∧ ∃ i, i ≠ did ∧ AMap.get m i = some (a, x) := by
  unfold people
  simp only [List.mem_filterMap, List.mem_filter, decide_eq_true_eq]
  constructor
  · rintro ⟨⟨i, b, y⟩, ⟨hp, hi⟩, h⟩
    dsimp only at h hi
    split at h
    · rename_i hb
      cases h
      exact ⟨isPerson_iff.1 hb, i, hi, AMap.get_of_mem hw hp⟩
    · cases h
  · rintro ⟨ha, i, hi, hg⟩
    exact ⟨(i, a, x), ⟨AMap.mem_of_get hg, hi⟩, by dsimp only; rw [if_pos (isPerson_iff.2 ha)]⟩

theorem people_ids {did : Id} : ∀ {m : AMap Id (Agent × Access)}, (∀ p ∈ m, p.2.1.id = p.1) →
    ((people did m).map (fun p => p.1.id)).Sublist (AMap.keys m)
  | [], _ => List.Sublist.slnil
  | p :: m, h => by
    have ih := people_ids (did := did) (m := m) fun q hq => h q (List.mem_cons_of_mem _ hq)
    have hp := h p List.mem_cons_self
    unfold people at ih ⊢
    unfold AMap.keys at ih ⊢
    rw [List.map_cons, List.filter_cons]
    split
    · rw [List.filterMap_cons]
      split
      · exact ih.cons _
      · rename_i hq
        split at hq
        · cases hq
          rw [List.map_cons, hp]
          exact ih.cons_cons _
        · cases hq
    · exact ih.cons _

theorem Keyhive.listed_wf (k : Keyhive) (g : Group) : AMap.WF (k.listed g) := by
  obtain ⟨caps, h⟩ := transitive_ok k.world g
  have he : k.listed g = caps := by unfold Keyhive.listed; rw [h]
  rw [he]
  exact transitive_wf h

end Verif.Keyhive
