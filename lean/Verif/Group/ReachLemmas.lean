import Verif.Group.HoldsLemmas

/-! # Helper lemmas: local calls are sequences of accepted operations -/

namespace Verif.Group

variable {H : Op → Nat} {N : Nested} {S : Op → Option Nat}

theorem Run.append {g g' g'' : Group} {l l' : List Op} (h : Run H g l g') (h' : Run H g' l' g'') : Run H g (l ++ l') g'' := by
  induction h' with
  | nil => simpa using h
  | snoc _ ha ih =>
    rw [← List.append_assoc]
    exact .snoc ih ha

theorem Run.one {g g' : Group} {o : Op} (h : Accepts H g o g') : Run H g [o] g' := by
  have := Run.snoc (.nil (H := H) (g := g)) h
  simpa using this

theorem addMember_ok {g g' : Group} {who : Agent} {can : Access} {signer : Id} {content : Content} {d : Dlg}
    (h : g.addMember H N S who can signer content = .ok (g', d)) :
    ∃ proof s, g.proofFor N signer can = .ok proof ∧
      S (.dlg (.mk signer 0 who can proof (AMap.values g.revHeads) content)) = some s ∧
      d = .mk signer s who can proof (AMap.values g.revHeads) content ∧ g.receiveDelegation H N d = .ok g' := by
  unfold Group.addMember at h
  cases hp : g.proofFor N signer can with
  | error e => simp [hp, bind, Except.bind] at h
  | ok proof =>
    simp only [hp, bind, Except.bind] at h
    cases hs : S (.dlg (.mk signer 0 who can proof (AMap.values g.revHeads) content)) with
    | none => simp [hs, throw, throwThe, MonadExceptOf.throw] at h
    | some s =>
      simp only [hs] at h
      cases hr : g.receiveDelegation H N (.mk signer s who can proof (AMap.values g.revHeads) content) with
      | error e => simp [hr] at h
      | ok g2 =>
        simp only [hr, pure, Except.pure, Except.ok.injEq, Prod.mk.injEq] at h
        exact ⟨proof, s, rfl, hs, h.2.symm, by rw [← h.2, ← h.1]; exact hr⟩

theorem issueRevocation_ok {g g' : Group} {signer : Id} {revoke : Dlg} {proof : Option Dlg} {content : Content} {r : Rev}
    (h : g.issueRevocation H N S signer revoke proof content = .ok (g', r)) :
    ∃ s, S (.rev (.mk signer 0 revoke proof content)) = some s ∧ r = .mk signer s revoke proof content ∧
      g.receiveRevocation H N r = .ok g' := by
  unfold Group.issueRevocation at h
  cases hs : S (.rev (.mk signer 0 revoke proof content)) with
  | none => simp [hs, throw, throwThe, MonadExceptOf.throw] at h
  | some s =>
    simp only [hs, bind, Except.bind] at h
    cases hr : g.receiveRevocation H N (.mk signer s revoke proof content) with
    | error e => simp [hr] at h
    | ok g2 =>
      simp only [hr, pure, Except.pure, Except.ok.injEq, Prod.mk.injEq] at h
      exact ⟨s, rfl, h.2.symm, by rw [← h.2, ← h.1]; exact hr⟩

theorem issueAll_run (signer : Id) (revoke : Dlg) (content : Content) (ps : List (Option Dlg)) (g : Group) (done : List Rev) :
    ∃ l, Run H g l (Group.issueAll H N S signer revoke content g ps done).1 := by
  induction ps generalizing g done with
  | nil => exact ⟨[], .nil⟩
  | cons p ps ih =>
    unfold Group.issueAll
    cases h : g.issueRevocation H N S signer revoke p content with
    | error e => exact ⟨[], .nil⟩
    | ok gr =>
      obtain ⟨g2, r⟩ := gr
      obtain ⟨s, _, _, h3⟩ := issueRevocation_ok h
      obtain ⟨l, hl⟩ := ih g2 (done ++ [r])
      exact ⟨_, (Run.one (.rev N h3)).append hl⟩

theorem revokeOne_run (member signer : Id) (content : Content) (g : Group) (d : Dlg) (done : List Rev) :
    ∃ l, Run H g l (Group.revokeOne H N S member signer content g d done).1 := by
  unfold Group.revokeOne
  split
  · split
    · exact ⟨[], .nil⟩
    · exact ⟨[], .nil⟩
    · exact issueAll_run ..
  · exact issueAll_run ..

theorem revokeEach_run (member signer : Id) (content : Content) (ds : List Dlg) (g : Group) (done : List Rev) :
    ∃ l, Run H g l (Group.revokeEach H N S member signer content g ds done).1 := by
  induction ds generalizing g done with
  | nil => exact ⟨[], .nil⟩
  | cons d ds ih =>
    unfold Group.revokeEach
    have h1 : ∃ l, Run H g l (if signer = g.id then Group.issueAll H N S signer d content g [none] done
        else Group.revokeOne H N S member signer content g d done).1 := by
      split
      · exact issueAll_run ..
      · exact revokeOne_run ..
    simp only
    obtain ⟨l, hl⟩ := h1
    split
    · rename_i g2 e heq
      rw [heq] at hl
      exact ⟨l, hl⟩
    · rename_i g2 done' heq
      rw [heq] at hl
      obtain ⟨l', hl'⟩ := ih g2 done'
      exact ⟨_, hl.append hl'⟩

theorem redelegate_run (member signer : Id) (content : Content) (ds : List Dlg) (g : Group) (done : List Dlg) :
    ∃ l, Run H g l (Group.redelegate H N S member signer content g ds done).1 := by
  induction ds generalizing g done with
  | nil => exact ⟨[], .nil⟩
  | cons d ds ih =>
    unfold Group.redelegate
    split
    · exact ih ..
    · split
      · exact ih ..
      · split
        · split
          · exact ⟨[], .nil⟩
          · rename_i g2 d' heq
            obtain ⟨_, _, _, _, _, h3⟩ := addMember_ok heq
            obtain ⟨l, hl⟩ := ih g2 (done ++ [d'])
            exact ⟨_, (Run.one (.dlg N h3)).append hl⟩
        · exact ih ..

theorem revokeMember_run (g : Group) (member : Id) (retain : Bool) (signer : Id) (content : Content) :
    ∃ l, Run H g l (g.revokeMember H N S member retain signer content).1 := by
  unfold Group.revokeMember
  split
  · exact ⟨[], .nil⟩
  · rename_i toRevoke _
    obtain ⟨l, hl⟩ := revokeEach_run (H := H) (N := N) (S := S) member signer content toRevoke g []
    simp only
    split
    · rename_i g2 e heq
      rw [heq] at hl
      exact ⟨l, hl⟩
    · rename_i g2 revs heq
      rw [heq] at hl
      split
      · obtain ⟨l', hl'⟩ := redelegate_run (H := H) (N := N) (S := S) member signer content
          ((AMap.values g.members).flatten) g2 []
        split
        · rename_i g3 e heq2
          rw [heq2] at hl'
          exact ⟨_, hl.append hl'⟩
        · rename_i g3 dl heq2
          rw [heq2] at hl'
          exact ⟨_, hl.append hl'⟩
      · exact ⟨l, hl⟩

theorem reach_run {g g' : Group} {l : List Op} (h : Reach H g) (hr : Run H g l g') : Reach H g' := by
  induction hr with
  | nil => exact h
  | snoc _ ha ih => exact .accept ih ha

/-- Induction over reachable states, with local calls broken up into accepted operations. -/
theorem Reach.ind {P : Group → Prop} (hnew : ∀ d : Dlg, d.proof = none → P (Group.new H d))
    (hgen : ∀ S id parents content g, parents ≠ [] → Group.generate H S id parents content = .ok g → P g)
    (hacc : ∀ g o g', P g → Accepts H g o g' → P g') {g : Group} (h : Reach H g) : P g := by
  have hrun : ∀ {g g' l}, P g → Run H g l g' → P g' := by
    intro g g' l hg hr
    induction hr with
    | nil => exact hg
    | snoc _ ha ih => exact hacc _ _ _ ih ha
  induction h with
  | new hd => exact hnew _ hd
  | generate hp hg => exact hgen _ _ _ _ _ hp hg
  | accept _ ha ih => exact hacc _ _ _ ih ha
  | add _ ha ih =>
    obtain ⟨_, _, _, _, _, h3⟩ := addMember_ok ha
    exact hacc _ _ _ ih (.dlg _ h3)
  | revoke _ ih =>
    obtain ⟨l, hl⟩ := revokeMember_run (H := H) ..
    exact hrun ih hl

theorem generate_ok {id : Id} {parents : List Agent} {content : Content} {g : Group}
    (h : Group.generate H S id parents content = .ok g) :
    ∃ heads : CaMap Nat Dlg, g = Group.rebuild H ⟨id, [], [], heads, []⟩ ∧ AMap.WF heads ∧ (parents ≠ [] → heads ≠ []) ∧
      (∀ k d, AMap.get heads k = some d → k = H (.dlg d) ∧ ∃ a ∈ parents, ∃ s, d = .mk id s a .admin none [] content) := by
  unfold Group.generate at h
  have key : ∀ (ps : List Agent) (acc heads : CaMap Nat Dlg), AMap.WF acc → List.foldlM (Group.genHead H S id content) acc ps = .ok heads →
      AMap.WF heads ∧ (acc ≠ [] ∨ ps ≠ [] → heads ≠ []) ∧
        (∀ k d, AMap.get heads k = some d →
          AMap.get acc k = some d ∨ (k = H (.dlg d) ∧ ∃ a ∈ ps, ∃ s, d = .mk id s a .admin none [] content)) := by
    intro ps
    induction ps with
    | nil =>
      intro acc heads hw hf
      simp only [List.foldlM, pure, Except.pure, Except.ok.injEq] at hf
      subst hf
      exact ⟨hw, by simp, fun k d hk => Or.inl hk⟩
    | cons a ps ih =>
      intro acc heads hw hf
      rw [List.foldlM_cons] at hf
      cases hs : S (.dlg (.mk id 0 a .admin none [] content)) with
      | none => simp [Group.genHead, hs, bind, Except.bind] at hf
      | some s =>
        simp only [Group.genHead, hs, bind, Except.bind] at hf
        obtain ⟨i1, i2, i3⟩ := ih _ heads (AMap.wf_insert hw _ _) hf
        refine ⟨i1, fun _ => i2 (Or.inl ?_), ?_⟩
        · intro he
          have := congrArg (fun m => AMap.get m (H (.dlg (.mk id s a .admin none [] content)))) he
          simp at this
        · intro k d hk
          rcases i3 k d hk with h1 | ⟨h1, b, h2, h3⟩
          · have h1' : AMap.get (AMap.insert acc (H (.dlg (.mk id s a .admin none [] content)))
                (.mk id s a .admin none [] content)) k = some d := h1
            rw [AMap.get_insert] at h1'
            split at h1'
            · rename_i he
              cases h1'
              exact Or.inr ⟨he, a, by simp, s, rfl⟩
            · exact Or.inl h1'
          · exact Or.inr ⟨h1, b, by simp [h2], h3⟩
  cases hf : List.foldlM (Group.genHead H S id content) [] parents with
  | error e =>
    simp [hf, bind, Except.bind] at h
  | ok heads =>
    obtain ⟨h1, h2, h3⟩ := key parents [] heads AMap.wf_nil hf
    simp only [hf, bind, Except.bind, pure, Except.pure, Except.ok.injEq] at h
    refine ⟨heads, h.symm, h1, fun hp => h2 (Or.inr hp), ?_⟩
    intro k d hk
    rcases h3 k d hk with h4 | h4
    · simp at h4
    · exact h4

theorem new_ok (d : Dlg) : HeadsOk H (Group.new H d) ∧ (Group.new H d).heads = [.dlg d] ∧ (Group.new H d).dlgHeads ≠ [] := by
  refine ⟨⟨?_, AMap.wf_nil, ?_, ?_⟩, rfl, ?_⟩
  · exact AMap.wf_insert AMap.wf_nil _ _
  · intro k x hk
    have hk' : AMap.get (AMap.insert ([] : AMap Nat Dlg) (H (.dlg d)) d) k = some x := hk
    rw [AMap.get_insert] at hk'
    split at hk'
    · rename_i he
      cases hk'
      exact he
    · simp at hk'
  · intro k r hk
    have hk' : AMap.get ([] : AMap Nat Rev) k = some r := hk
    simp at hk'
  · simp [Group.new, Group.rebuild, CaMap.insert, AMap.insert]

theorem generate_good {id : Id} {parents : List Agent} {content : Content} {g : Group}
    (h : Group.generate H S id parents content = .ok g) : HeadsOk H g ∧ Rebuilt H g := by
  obtain ⟨heads, rfl, h1, _, h2⟩ := generate_ok h
  refine ⟨⟨h1, AMap.wf_nil, fun hk => (h2 _ _ hk).1, ?_⟩, rebuilt_rebuild _⟩
  intro k r hk
  have hk' : AMap.get ([] : AMap Nat Rev) k = some r := hk
  simp at hk'

theorem reach_good {g : Group} (h : Reach H g) : HeadsOk H g ∧ Rebuilt H g := by
  refine Reach.ind (P := fun g => HeadsOk H g ∧ Rebuilt H g) ?_ ?_ ?_ h
  · intro d _
    exact ⟨(new_ok d).1, rebuilt_rebuild _⟩
  · intro S id parents content g _ hg
    exact generate_good hg
  · intro g o g' hg ha
    have := accepts_step ha hg.1
    exact ⟨this.1, this.2.1⟩

end Verif.Group
