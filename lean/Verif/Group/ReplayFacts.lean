import Verif.Group.ReplayInv

/-! # Helper lemmas: consequences of the replay invariant -/

namespace Verif.Group
namespace View

variable {gid : Id} {Held : Op → Prop} {l : List Op}

/-- A signature counted as revoked belongs to a delegation that is revoked by a revocation in effect, or that has such a
delegation above it. -/
theorem revoked_above (hx : Ctx Held) (hl : ∀ o ∈ l, Held o) {v : View} (h : RInv gid Held l v) :
    ∀ {d : Dlg}, Held (.dlg d) → d.sig ∈ v.revoked →
      ∃ a ∈ d :: d.lineage, ∃ r, AMap.get v.active r.sig = some r ∧ r.revoke.sig = a.sig
  | .root i s g c af ct, hd, hs => by
    rcases h.rev hs with ⟨r, h1, h2⟩ | ⟨d', p, h1, h2, h3, h4⟩
    · exact ⟨_, by simp, r, h1, h2⟩
    · have he := hx.dlg (hl _ h1) hd h2
      rw [he] at h3
      simp [Dlg.proof] at h3
  | .link i s g c p af ct, hd, hs => by
    rcases h.rev hs with ⟨r, h1, h2⟩ | ⟨d', p', h1, h2, h3, h4⟩
    · exact ⟨_, by simp, r, h1, h2⟩
    · have he := hx.dlg (hl _ h1) hd h2
      rw [he] at h3
      simp only [Dlg.proof, Option.some.injEq] at h3
      subst h3
      obtain ⟨a, h5, h6⟩ := revoked_above hx hl h (hx.proof hd rfl) h4
      exact ⟨a, by simp only [Dlg.lineage]; exact List.mem_cons_of_mem _ h5, h6⟩

/-- A member delegation whose own revocation is in effect has a revoked delegation above it. -/
theorem member_revoked (hx : Ctx Held) (hl : ∀ o ∈ l, Held o) {v : View} (h : RInv gid Held l v) {m : Id} {d : Dlg}
    (hm : v.Mem m d) {r : Rev} (hr : AMap.get v.active r.sig = some r) (hs : r.revoke.sig = d.sig) :
    ∃ a ∈ d.lineage, ∃ r', AMap.get v.active r'.sig = some r' ∧ r'.revoke.sig = a.sig := by
  obtain ⟨_, h1, _, h2⟩ := h.mem hm
  have hrev : d.sig ∈ v.revoked := by rw [← hs]; exact (h.act hr).2.2
  rcases h2 with h2 | ⟨_, p, h3, h4⟩
  · exact absurd hrev (h.play h2).2.2.1
  · obtain ⟨a, h5, h6⟩ := revoked_above hx hl h (hx.proof (hl _ h1) h3) h4
    rw [Dlg.lineage_proof h3]
    exact ⟨a, h5, h6⟩

/-! ## Histories in which no delegation precedes a revocation of its proof -/

/-- Every revocation comes before the delegations that name the revoked one as proof. -/
def RevFirst (l : List Op) : Prop :=
  ∀ l1 r l2, l = l1 ++ .rev r :: l2 → ∀ d p, .dlg d ∈ l1 → d.proof = some p → p.sig ≠ r.revoke.sig

theorem RevFirst.init {o : Op} (h : RevFirst (l ++ [o])) : RevFirst l := by
  intro l1 r l2 he d p hd hp
  exact h l1 r (l2 ++ [o]) (by rw [he]; simp) d p hd hp

/-- Extra invariant for such histories. -/
structure SInv (gid : Id) (l : List Op) (v : View) : Prop where
  inPlay : ∀ {m d}, v.Mem m d → AMap.get v.inPlay d.sig = some d
  why : ∀ {s}, s ∈ v.revoked → ∃ r, AMap.get v.active r.sig = some r ∧ r.revoke.sig = s
  other : ∀ {m d p}, v.Mem m d → d.proof = some p → p.sig ∈ v.revoked →
    ∃ l1 l2, l = l1 ++ .dlg d :: l2 ∧ Other gid (replay gid l1) p

theorem sinv (hx : Ctx Held) (l : List Op) (hl : ∀ o ∈ l, Held o) (hf : RevFirst l) : SInv gid l (replay gid l) := by
  induction l using List.reverseRecOn with
  | nil =>
    refine ⟨?_, ?_, ?_⟩
    · rintro m d ⟨ds, h, _⟩; simp [replay, empty] at h
    · intro s h; simp [replay, empty] at h
    · rintro m d p ⟨ds, h, _⟩; simp [replay, empty] at h
  | append_singleton l o ih =>
    have hl' : ∀ o ∈ l, Held o := fun x hxl => hl x (List.mem_append_left _ hxl)
    have hR := replay_inv (gid := gid) hx l hl'
    have h := ih hl' hf.init
    have hgrow : ∀ {m d p}, (replay gid l).Mem m d → d.proof = some p → p.sig ∈ (replay gid l).revoked →
        ∃ l1 l2, l ++ [o] = l1 ++ .dlg d :: l2 ∧ Other gid (replay gid l1) p := by
      intro m d p h1 h2 h3
      obtain ⟨l1, l2, h4, h5⟩ := h.other h1 h2 h3
      exact ⟨l1, l2 ++ [o], by rw [h4]; simp, h5⟩
    rw [replay_append]
    have ho : Held o := hl o (by simp)
    cases o with
    | dlg d =>
      show SInv gid _ ((replay gid l).delegation gid d)
      obtain ⟨e1, e2, e3, e4⟩ := noteProof_same (replay gid l) d
      have hm : ∀ {m x}, ((replay gid l).noteProof d).Mem m x ↔ (replay gid l).Mem m x := by intro m x; unfold Mem; rw [e1]
      have hadm : ((replay gid l).noteProof d).admits gid d = (replay gid l).admits gid d := by
        unfold admits lost; rw [e1, e3, e4]
      have hskip : SInv gid (l ++ [.dlg d]) ((replay gid l).noteProof d) := by
        refine ⟨?_, ?_, ?_⟩
        · intro m x hx'; rw [e3]; exact h.inPlay (hm.1 hx')
        · intro s hs; rw [e4] at hs; rw [e2]; exact h.why hs
        · intro m x p h1 h2 h3
          rw [e4] at h3
          exact hgrow (hm.1 h1) h2 h3
      unfold delegation
      simp only
      split
      · exact hskip
      · rename_i ha
        split
        · exact hskip
        · rename_i hr
          refine ⟨?_, ?_, ?_⟩
          · intro m x hmx
            have hg : AMap.get (((replay gid l).noteProof d).play d).inPlay x.sig
                = AMap.get (AMap.insert ((replay gid l).noteProof d).inPlay d.sig d) x.sig := rfl
            rw [hg, AMap.get_insert]
            rcases play_mem.1 hmx with h1 | ⟨_, rfl⟩
            · split
              · rename_i he
                have h2 := (hR.mem (hm.1 h1)).2.1
                rw [hx.dlg (hl' _ h2) ho he]
              · exact hskip.inPlay h1
            · rw [if_pos rfl]
          · exact hskip.why
          · intro m x p hmx hp hrv
            rcases play_mem.1 hmx with h1 | ⟨_, rfl⟩
            · exact hskip.other h1 hp hrv
            · refine ⟨l, [], by simp, ?_⟩
              refine admits_lost (d := x) ?_ hp ?_
              · rw [← hadm]; simpa using ha
              · unfold lost
                have : p.sig ∈ (replay gid l).revoked := by rw [← e4]; exact hrv
                simp [this]
    | rev r =>
      show SInv gid _ ((replay gid l).revocation gid r)
      rw [revocation_eq]
      split
      · have hno : ∀ x, x ∉ (AMap.get (replay gid l).rdeps r.revoke.sig).getD [] := by
          intro x hxm
          obtain ⟨d, p, h1, h2, h3, h4⟩ := hR.rd.1 hxm
          exact hf l r [] (by simp) d p h1 h3 h4
        have hrv : ((replay gid l).honoured r).revoked = sinsert (replay gid l).revoked r.revoke.sig :=
          casc_leaf hno _
        have hc := casc_spec (rdeps := (replay gid l).rdeps) (s0 := r.revoke.sig) (fun hs => (hR.play hs).2.2.1)
          (replay gid l).inPlay.length
        refine ⟨?_, ?_, ?_⟩
        · intro m d hmd
          obtain ⟨h1, h2⟩ := (honoured_mem hR r).1 hmd
          have h3 := h.inPlay h1
          refine hc.keep h3 ?_
          intro h4
          have h5 : d.sig ∈ ((replay gid l).honoured r).revoked := h4
          rw [hrv, mem_sinsert] at h5
          rcases h5 with h5 | h5
          · exact h2 ⟨d, by rw [← h5]; exact h3, (hR.mem h1).1.symm, h5⟩
          · exact (hR.play h3).2.2.1 h5
        · intro s hs
          rw [hrv, mem_sinsert] at hs
          rcases hs with hs | hs
          · exact ⟨r, AMap.get_insert_self _ _ _, hs.symm⟩
          · obtain ⟨r', h1, h2⟩ := h.why hs
            refine ⟨r', ?_, h2⟩
            show AMap.get (AMap.insert (replay gid l).active r.sig r) r'.sig = some r'
            rw [AMap.get_insert]
            split
            · rename_i he
              rw [hx.rev (hl' _ (hR.act h1).2.1) ho he]
            · exact h1
        · intro m d p hmd hp hs
          obtain ⟨h1, _⟩ := (honoured_mem hR r).1 hmd
          rw [hrv, mem_sinsert] at hs
          rcases hs with hs | hs
          · exact absurd hs (hf l r [] (by simp) d p (hR.mem h1).2.1 hp)
          · exact hgrow h1 hp hs
      · exact ⟨h.inPlay, h.why, hgrow⟩

/-! ## Delegations that nothing revokes -/

/-- Proofs come first. -/
def ProofFirst (l : List Op) : Prop := ∀ l1 d l2, l = l1 ++ .dlg d :: l2 → ∀ p, d.proof = some p → .dlg p ∈ l1

theorem ProofFirst.init {o : Op} (h : ProofFirst (l ++ [o])) : ProofFirst l := by
  intro l1 d l2 he p hp
  exact h l1 d (l2 ++ [o]) (by rw [he]; simp) p hp

theorem Dlg.subject_proof {d p : Dlg} (h : d.proof = some p) : d.subject = p.subject := by
  cases d with
  | root => simp [Dlg.proof] at h
  | link i s a c p' af ct =>
    simp only [Dlg.proof, Option.some.injEq] at h
    subst h
    rfl

theorem Dlg.subject_root {d : Dlg} (h : d.proof = none) : d.subject = d.issuer := by
  cases d with
  | root => rfl
  | link => simp [Dlg.proof] at h

theorem Dlg.lineage_trans : ∀ {d a b : Dlg}, a ∈ d.lineage → b ∈ a.lineage → b ∈ d.lineage
  | .root .., _, _, h, _ => by simp [Dlg.lineage] at h
  | .link i s g c p af ct, a, b, h, hb => by
    simp only [Dlg.lineage, List.mem_cons] at h ⊢
    rcases h with rfl | h
    · exact Or.inr hb
    · exact Or.inr (Dlg.lineage_trans h hb)

theorem clean_inPlay (hx : Ctx Held) (l : List Op) (hl : ∀ o ∈ l, Held o) (hf : ProofFirst l) {d : Dlg} (hd : .dlg d ∈ l)
    (hsub : d.subject = gid) (hc : ∀ a ∈ d :: d.lineage, a.sig ∉ (replay gid l).revoked) :
    AMap.get (replay gid l).inPlay d.sig = some d := by
  induction l using List.reverseRecOn generalizing d with
  | nil => simp at hd
  | append_singleton l o ih =>
    have hl' : ∀ o ∈ l, Held o := fun x hxl => hl x (List.mem_append_left _ hxl)
    have hR := replay_inv (gid := gid) hx l hl'
    have ho : Held o := hl o (by simp)
    rw [replay_append] at hc ⊢
    cases o with
    | rev r =>
      have hd' : .dlg d ∈ l := by simpa using hd
      have hcs := casc_spec (rdeps := (replay gid l).rdeps) (s0 := r.revoke.sig) (fun hs => (hR.play hs).2.2.1)
          (replay gid l).inPlay.length
      have he : (replay gid l).apply gid (.rev r) = (replay gid l).revocation gid r := rfl
      rw [he, revocation_eq] at hc ⊢
      split at hc
      · rename_i hh
        rw [if_pos hh]
        have h1 := ih hl' hf.init hd' hsub (fun a ha hr => hc a ha (hcs.mono hr))
        exact hcs.keep h1 (hc d (by simp))
      · rename_i hh
        rw [if_neg hh]
        exact ih hl' hf.init hd' hsub hc
    | dlg x =>
      obtain ⟨e1, e2, e3, e4⟩ := noteProof_same (replay gid l) x
      have he : (replay gid l).apply gid (.dlg x) = (replay gid l).delegation gid x := rfl
      have hrv : ((replay gid l).delegation gid x).revoked = (replay gid l).revoked := by
        unfold delegation
        simp only
        split
        · exact e4
        · split
          · exact e4
          · exact e4
      have hadm : ((replay gid l).noteProof x).admits gid x = (replay gid l).admits gid x := by
        unfold admits lost; rw [e1, e3, e4]
      rw [he] at hc ⊢
      rw [hrv] at hc
      rcases List.mem_append.1 hd with hd' | hd'
      · have h1 := ih hl' hf.init hd' hsub hc
        unfold delegation
        simp only
        split
        · rw [e3]; exact h1
        · split
          · rw [e3]; exact h1
          · show AMap.get (AMap.insert ((replay gid l).noteProof x).inPlay x.sig x) d.sig = some d
            rw [AMap.get_insert]
            split
            · rename_i h2
              rw [hx.dlg (hl' _ hd') ho h2]
            · rw [e3]; exact h1
      · simp only [List.mem_cons, List.not_mem_nil, or_false, Op.dlg.injEq] at hd'
        subst hd'
        have ha : (replay gid l).admits gid d = true := by
          unfold admits
          cases hp : d.proof with
          | none =>
            simp only [decide_eq_true_eq]
            rw [← hsub, Dlg.subject_root hp]
          | some p =>
            have hpl : .dlg p ∈ l := hf l d [] (by simp) p hp
            have h1 := ih hl' hf.init hpl (by rw [← hsub, Dlg.subject_proof hp])
              (fun a ha => hc a (by rw [Dlg.lineage_proof hp]; exact List.mem_cons_of_mem _ ha))
            have h2 : (replay gid l).lost p = false := by
              unfold lost AMap.contains
              rw [h1]
              simp [(hR.play h1).2.2.1]
            simp [h2]
        have hns : d.sig ∉ ((replay gid l).noteProof d).revoked := by rw [e4]; exact hc d (by simp)
        unfold delegation
        simp only [hadm, ha, Bool.not_true, Bool.false_eq_true, if_false, hns]
        exact AMap.get_insert_self _ _ _

/-- A rooted delegation is in force when no revocation in the history is for it or for a delegation above it. -/
theorem clean_mem (hx : Ctx Held) (l : List Op) (hl : ∀ o ∈ l, Held o) (hf : ProofFirst l) {d : Dlg} (hd : .dlg d ∈ l)
    (hsub : d.subject = gid) (hc : ∀ r, .rev r ∈ l → ∀ a ∈ d :: d.lineage, r.revoke.sig ≠ a.sig) :
    (replay gid l).Mem d.delegate.id d := by
  have hR := replay_inv (gid := gid) hx l hl
  refine (hR.play (clean_inPlay hx l hl hf hd hsub ?_)).2.2.2
  intro a ha hrev
  have hHa : Held (.dlg a) := by
    rcases List.mem_cons.1 ha with rfl | ha'
    · exact hl _ hd
    · exact hx.lineage (hl _ hd) ha'
  obtain ⟨b, h1, r, h2, h3⟩ := revoked_above hx hl hR hHa hrev
  refine hc r (hR.act h2).2.1 b ?_ h3
  rcases List.mem_cons.1 ha with rfl | ha'
  · exact h1
  · refine List.mem_cons_of_mem _ ?_
    rcases List.mem_cons.1 h1 with rfl | h1
    · exact ha'
    · exact Dlg.lineage_trans ha' h1

/-! ## Revocations that are their own proof -/

/-- Out of play and already replayed: stays out of play. -/
theorem stays_out (hx : Ctx Held) (l1 l2 : List Op) (hl : ∀ o ∈ l1 ++ l2, Held o) (hnd : (l1 ++ l2).Nodup) {d : Dlg}
    (hd : .dlg d ∈ l1) (hout : AMap.get (replay gid l1).inPlay d.sig = none) :
    AMap.get (replay gid (l1 ++ l2)).inPlay d.sig = none := by
  induction l2 using List.reverseRecOn with
  | nil => simpa using hout
  | append_singleton l2 o ih =>
    rw [← List.append_assoc] at hl hnd ⊢
    have hl' : ∀ o ∈ l1 ++ l2, Held o := fun x hxl => hl x (List.mem_append_left _ hxl)
    have h := ih hl' (List.nodup_append.1 hnd).1
    have hR := replay_inv (gid := gid) hx (l1 ++ l2) hl'
    rw [replay_append]
    cases o with
    | rev r =>
      show AMap.get ((replay gid (l1 ++ l2)).revocation gid r).inPlay d.sig = none
      rw [revocation_eq]
      split
      · have hcs := casc_spec (rdeps := (replay gid (l1 ++ l2)).rdeps) (s0 := r.revoke.sig) (fun hs => (hR.play hs).2.2.1)
          (replay gid (l1 ++ l2)).inPlay.length
        cases hg : AMap.get ((replay gid (l1 ++ l2)).honoured r).inPlay d.sig with
        | none => rfl
        | some x =>
          have := hcs.sub hg
          rw [h] at this
          cases this
      · exact h
    | dlg x =>
      obtain ⟨e1, e2, e3, e4⟩ := noteProof_same (replay gid (l1 ++ l2)) x
      show AMap.get ((replay gid (l1 ++ l2)).delegation gid x).inPlay d.sig = none
      unfold delegation
      simp only
      split
      · rw [e3]; exact h
      · split
        · rw [e3]; exact h
        · show AMap.get (AMap.insert ((replay gid (l1 ++ l2)).noteProof x).inPlay x.sig x) d.sig = none
          rw [AMap.get_insert, if_neg]
          · rw [e3]; exact h
          · intro he
            have h1 : d = x := hx.dlg (hl _ (by simp [hd])) (hl _ (by simp)) he
            subst h1
            exact (List.nodup_append.1 hnd).2.2 (.dlg d) (List.mem_append_left _ hd) _ (by simp) rfl

/-- Once replayed, a revocation by the group key, or one whose proof is the delegation it revokes, leaves that delegation
out of play. -/
theorem self_revoked (hx : Ctx Held) (l1 l2 : List Op) {r : Rev} (hl : ∀ o ∈ l1 ++ .rev r :: l2, Held o)
    (hnd : (l1 ++ .rev r :: l2).Nodup)
    (hself : (r.proof = none ∧ r.issuer = gid) ∨ r.proof = some r.revoke) (hd : .dlg r.revoke ∈ l1) :
    AMap.get (replay gid (l1 ++ .rev r :: l2)).inPlay r.revoke.sig = none := by
  have hl' : ∀ o ∈ l1, Held o := fun x hxl => hl x (by simp [hxl])
  have hR := replay_inv (gid := gid) hx l1 hl'
  have he : l1 ++ .rev r :: l2 = (l1 ++ [.rev r]) ++ l2 := by simp
  rw [he] at hl hnd ⊢
  refine stays_out hx _ l2 hl hnd (List.mem_append_left _ hd) ?_
  rw [replay_append]
  show AMap.get ((replay gid l1).revocation gid r).inPlay r.revoke.sig = none
  rw [revocation_eq]
  split
  · have hcs := casc_spec (rdeps := (replay gid l1).rdeps) (s0 := r.revoke.sig) (fun hs => (hR.play hs).2.2.1)
      (replay gid l1).inPlay.length
    cases hg : AMap.get ((replay gid l1).honoured r).inPlay r.revoke.sig with
    | none => rfl
    | some x => exact absurd hcs.first (hcs.excl hg)
  · rename_i hh
    cases hg : AMap.get (replay gid l1).inPlay r.revoke.sig with
    | none => rfl
    | some x =>
      exfalso
      apply hh
      unfold honours
      rcases hself with ⟨h1, h2⟩ | h1
      · simp [h1, h2]
      · have h3 : (replay gid l1).lost r.revoke = false := by
          unfold lost AMap.contains
          rw [hg]
          simp [(hR.play hg).2.2.1]
        simp [h1, h3]

end View
end Verif.Group
