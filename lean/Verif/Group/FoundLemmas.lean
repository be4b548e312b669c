import Verif.Group.GroupFacts

/-! # The members of a new group -/

namespace Verif.Group

open Relation

variable {H : Op → Nat} {S : Op → Option Nat}

/-- The delegation that makes the agent a founder. -/
abbrev founding (id : Id) (content : Content) (a : Agent) (s : Nat) : Dlg := .mk id s a .admin none [] content

theorem gen_all {id : Id} {content : Content} : ∀ (ps : List Agent) {acc heads : CaMap Nat Dlg},
    (∀ x d, AMap.get acc x = some d → ∀ a ∈ ps, ∀ s, S (.dlg (founding id content a 0)) = some s →
      H (.dlg (founding id content a s)) = x → d = founding id content a s) →
    (∀ a ∈ ps, ∀ b ∈ ps, ∀ s s', S (.dlg (founding id content a 0)) = some s → S (.dlg (founding id content b 0)) = some s' →
      H (.dlg (founding id content a s)) = H (.dlg (founding id content b s')) → a = b) →
    List.foldlM (Group.genHead H S id content) acc ps = .ok heads →
    (∀ x d, AMap.get acc x = some d → AMap.get heads x = some d) ∧
    (∀ a ∈ ps, ∃ s, S (.dlg (founding id content a 0)) = some s ∧
      AMap.get heads (H (.dlg (founding id content a s))) = some (founding id content a s)) ∧
    ∀ x d, AMap.get heads x = some d → AMap.get acc x = some d ∨
      ∃ a ∈ ps, ∃ s, S (.dlg (founding id content a 0)) = some s ∧ d = founding id content a s
  | [], acc, heads, _, _, hf => by
    simp only [List.foldlM, pure, Except.pure, Except.ok.injEq] at hf
    subst hf
    exact ⟨fun _ _ h => h, by simp, fun _ _ h => .inl h⟩
  | p :: ps, acc, heads, ha, hi, hf => by
    rw [List.foldlM_cons] at hf
    cases hs : S (.dlg (founding id content p 0)) with
    | none => simp [Group.genHead, hs, bind, Except.bind] at hf
    | some s =>
      simp only [Group.genHead, hs, bind, Except.bind] at hf
      have hget : ∀ x, AMap.get (CaMap.insert (H ∘ Op.dlg) acc (founding id content p s)).1 x
          = if x = H (.dlg (founding id content p s)) then some (founding id content p s) else AMap.get acc x :=
        fun x => AMap.get_insert ..
      have hacc : ∀ x d, AMap.get (CaMap.insert (H ∘ Op.dlg) acc (founding id content p s)).1 x = some d → ∀ a ∈ ps, ∀ s,
          S (.dlg (founding id content a 0)) = some s → H (.dlg (founding id content a s)) = x → d = founding id content a s := by
        intro x d hx a hm s' hs' he
        rw [hget] at hx
        split at hx
        · rename_i hx'
          cases hx
          have := hi a (by simp [hm]) p (by simp) s' s hs' hs (by rw [he, hx'])
          subst this
          rw [hs] at hs'
          cases hs'
          rfl
        · exact ha x d hx a (by simp [hm]) s' hs' he
      obtain ⟨h1, h2, h3⟩ := gen_all ps hacc (fun a ha b hb => hi a (by simp [ha]) b (by simp [hb])) hf
      refine ⟨?_, ?_, ?_⟩
      · intro x d hx
        by_cases he : x = H (.dlg (founding id content p s))
        · have := ha x d hx p (by simp) s hs he.symm
          rw [this]
          exact h1 x _ (by rw [hget, if_pos he])
        · exact h1 x d (by rw [hget, if_neg he]; exact hx)
      · intro a hm
        rcases List.mem_cons.1 hm with rfl | hm
        · exact ⟨s, hs, h1 _ _ (by rw [hget, if_pos rfl])⟩
        · exact h2 a hm
      · intro x d hx
        rcases h3 x d hx with h | ⟨a, hm, s', h⟩
        · rw [hget] at h
          split at h
          · cases h; exact .inr ⟨p, by simp, s, hs, rfl⟩
          · exact .inl h
        · exact .inr ⟨a, by simp [hm], s', h⟩

theorem founding_leaf {id : Id} {content : Content} {a : Agent} {s : Nat} {o : Op} : ¬ Dep (.dlg (founding id content a s)) o := by
  intro h
  rcases mem_after_dlg.1 h with ⟨q, hq, -⟩ | ⟨r, hr, -⟩
  · cases hq
  · cases hr

/-- A group is only made if every founding delegation could be signed. -/
theorem generate_signed {id : Id} {parents : List Agent} {content : Content} {g : Group}
    (h : Group.generate H S id parents content = .ok g) : ∀ a ∈ parents, ∃ s, S (.dlg (founding id content a 0)) = some s := by
  have key : ∀ (ps : List Agent) (acc heads : CaMap Nat Dlg), List.foldlM (Group.genHead H S id content) acc ps = .ok heads →
      ∀ a ∈ ps, ∃ s, S (.dlg (founding id content a 0)) = some s := by
    intro ps
    induction ps with
    | nil => simp
    | cons p ps ih =>
      intro acc heads hf a ha
      rw [List.foldlM_cons] at hf
      cases hs : S (.dlg (founding id content p 0)) with
      | none => simp [Group.genHead, hs, bind, Except.bind] at hf
      | some s =>
        simp only [Group.genHead, hs, bind, Except.bind] at hf
        rcases List.mem_cons.1 ha with rfl | ha
        · exact ⟨s, hs⟩
        · exact ih _ _ hf a ha
  unfold Group.generate at h
  cases hf : List.foldlM (Group.genHead H S id content) [] parents with
  | error e => simp [hf, bind, Except.bind] at h
  | ok heads => exact key _ _ _ hf

/-- The members of a new group are the agents it is made for, each with admin access, if their delegations can be told apart. -/
theorem generate_members {id : Id} {parents : List Agent} {content : Content} {g : Group}
    (h : Group.generate H S id parents content = .ok g)
    (hi : ∀ a ∈ parents, ∀ b ∈ parents, ∀ s s', S (.dlg (founding id content a 0)) = some s → S (.dlg (founding id content b 0)) = some s' →
      H (.dlg (founding id content a s)) = H (.dlg (founding id content b s')) → a = b)
    (hs : ∀ a ∈ parents, ∀ b ∈ parents, ∀ s, S (.dlg (founding id content a 0)) = some s → S (.dlg (founding id content b 0)) = some s → a = b)
    {m : Id} {d : Dlg} :
    g.MemberBy m d ↔ ∃ a ∈ parents, ∃ s, S (.dlg (founding id content a 0)) = some s ∧ m = a.id ∧ d = founding id content a s := by
  have h0 := h
  unfold Group.generate at h
  cases hf : List.foldlM (Group.genHead H S id content) [] parents with
  | error e => simp [hf, bind, Except.bind] at h
  | ok heads =>
    simp only [hf, bind, Except.bind, pure, Except.pure, Except.ok.injEq] at h
    obtain ⟨-, hall, hform⟩ := gen_all parents (acc := []) (heads := heads) (by simp) hi hf
    obtain ⟨heads', e', hw, -, -⟩ := generate_ok h0
    have hdl : g.dlgHeads = heads := by rw [← h]; rfl
    have hdl' : g.dlgHeads = heads' := by rw [e']; rfl
    rw [← hdl', hdl] at hw
    have hrev : g.revHeads = [] := by rw [← h]; rfl
    have hid : g.id = id := by rw [← h]; rfl
    have hheads : ∀ o ∈ g.heads, ∃ a ∈ parents, ∃ s, S (.dlg (founding id content a 0)) = some s ∧ o = .dlg (founding id content a s) := by
      intro o ho
      simp only [Group.heads, hrev, AMap.values, List.map_nil, List.append_nil, List.mem_map, hdl] at ho
      obtain ⟨x, ⟨p, hp, rfl⟩, rfl⟩ := ho
      rcases hform _ _ (AMap.get_of_mem hw hp) with h | ⟨a, ham, s, h1, h2⟩
      · simp at h
      · exact ⟨a, ham, s, h1, by rw [h2]⟩
    have hbelow : ∀ o, Below g.heads o →
        ∃ a ∈ parents, ∃ s, S (.dlg (founding id content a 0)) = some s ∧ o = .dlg (founding id content a s) := by
      rintro o ⟨x, hx, hr⟩
      obtain ⟨a, ham, s, h1, rfl⟩ := hheads x hx
      rcases ReflTransGen.cases_head hr with rfl | ⟨c, hc, _⟩
      · exact ⟨a, ham, s, h1, rfl⟩
      · exact absurd hc founding_leaf
    have hc : NoClash H g.heads := by
      intro x y hx hy he
      obtain ⟨a, ham, s, h1, rfl⟩ := hbelow x hx
      obtain ⟨b, hbm, s', h2, rfl⟩ := hbelow y hy
      have := hi a ham b hbm s s' h1 h2 he
      subst this
      rw [h1] at h2
      cases h2
      rfl
    have hsig : NoClash Op.sig g.heads := by
      intro x y hx hy he
      obtain ⟨a, ham, s, h1, rfl⟩ := hbelow x hx
      obtain ⟨b, hbm, s', h2, rfl⟩ := hbelow y hy
      have he' : s = s' := he
      subst he'
      rw [hs a ham b hbm s h1 h2]
    have hac : Acyclic g.heads := by
      have hno : ∀ a b, ¬ Needs g.heads a b := by
        rintro a b (⟨h1, h2⟩ | ⟨h1, h2, h3, -⟩)
        · obtain ⟨a, _, s, _, rfl⟩ := hbelow _ h1
          exact founding_leaf h2
        · obtain ⟨a, _, s, _, e⟩ := hbelow _ h2
          cases e
      intro o ho
      obtain ⟨c, hc, _⟩ := TransGen.head'_iff.1 ho
      exact hno _ _ hc
    have hb := (generate_good h0).2
    constructor
    · intro hm
      obtain ⟨e1, e2, -, -⟩ := (history_view hc hsig).mem ((mem_view hb).1 hm)
      obtain ⟨a, ham, s, h1, h2⟩ := hbelow _ (history_below hc e2)
      cases h2
      exact ⟨a, ham, s, h1, e1.symm, rfl⟩
    · rintro ⟨a, ham, s, h1, rfl, rfl⟩
      have hin : g.Holds (.dlg (founding id content a s)) := by
        obtain ⟨s', h2, h3⟩ := hall a ham
        rw [h1] at h2
        cases h2
        refine ⟨_, ?_, .refl⟩
        simp only [Group.heads, hdl, List.mem_append]
        exact .inl (List.mem_map.2 ⟨_, List.mem_map.2 ⟨_, AMap.mem_of_get h3, rfl⟩, rfl⟩)
      refine (mem_view hb).2 (View.clean_mem (ctx_of hsig) _ (fun _ ho => history_below hc ho) (proof_first hc hac)
        ((history_complete hc hac).2 hin) hid.symm ?_)
      intro r hr
      obtain ⟨_, _, _, _, e⟩ := hbelow _ (history_below hc hr)
      cases e

end Verif.Group
