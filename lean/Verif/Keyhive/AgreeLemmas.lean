import Verif.Keyhive.AgreeSpec
import Verif.Keyhive.TakeInLemmas
import Verif.Group.Recast

/-! # Devices that hold the same operations -/

namespace Verif.Keyhive

open Verif.Group Verif.Cgka Verif.BeeKem Relation

variable {E : Env}

/-! ## Operations without the kinds of agents -/

/-- The agent as an individual. -/
def plainAgent (a : Agent) : Agent := ⟨.individual, a.id⟩

mutual
theorem dlgDigest_recast (E : Env) : ∀ d : Dlg, E.dlgDigest (d.recast plainAgent) = E.dlgDigest d
  | .root i s a c rs x => by simp [Dlg.recast, Env.dlgDigest, revDigests_recast E rs, plainAgent]
  | .link i s a c p rs x => by simp [Dlg.recast, Env.dlgDigest, revDigests_recast E rs, dlgDigest_recast E p, plainAgent]
theorem revDigest_recast (E : Env) : ∀ r : Rev, E.revDigest (r.recast plainAgent) = E.revDigest r
  | .root i s d x => by simp [Rev.recast, Env.revDigest, dlgDigest_recast E d]
  | .via i s d p x => by simp [Rev.recast, Env.revDigest, dlgDigest_recast E d, dlgDigest_recast E p]
theorem revDigests_recast (E : Env) : ∀ rs : Revs, E.revDigests (rs.recast plainAgent) = E.revDigests rs
  | .nil => rfl
  | .cons r rs => by simp [Revs.recast, Env.revDigests, revDigest_recast E r, revDigests_recast E rs]
end

theorem opDigest_recast (o : Op) : E.opDigest (o.recast plainAgent) = E.opDigest o := by
  cases o with
  | dlg d => exact dlgDigest_recast E d
  | rev r => exact revDigest_recast E r

theorem sdlg_recast (d : Dlg) : E.sdlg (d.recast plainAgent) = E.sdlg d := by
  unfold Env.sdlg
  simp only [Dlg.recast_issuer, Dlg.recast_sig, Dlg.recast_delegate, Dlg.recast_can, Dlg.recast_proof, Dlg.recast_after,
    Dlg.recast_content, List.map_map, Option.map_map, Function.comp_def, dlgDigest_recast, revDigest_recast]
  rfl

mutual
theorem dlg_same (hE : E.NoClash) : ∀ a b : Dlg, E.dlgDigest a = E.dlgDigest b → a.recast plainAgent = b.recast plainAgent
  | .root i s a c rs x, .root i' s' a' c' rs' x', h => by
    simp only [Env.dlgDigest] at h
    have h := hE.dlg h
    simp only [SDlg.mk.injEq] at h
    obtain ⟨h1, h2, h3, h4, _, h5, h6⟩ := h
    simp only [Dlg.recast, plainAgent, h1, h2, h3, h4, h6, revs_same hE rs rs' h5]
  | .link i s a c p rs x, .link i' s' a' c' p' rs' x', h => by
    simp only [Env.dlgDigest] at h
    have h := hE.dlg h
    simp only [SDlg.mk.injEq, Option.some.injEq] at h
    obtain ⟨h1, h2, h3, h4, h7, h5, h6⟩ := h
    simp only [Dlg.recast, plainAgent, h1, h2, h3, h4, h6, revs_same hE rs rs' h5, dlg_same hE p p' h7]
  | .root .., .link .., h => by
    simp only [Env.dlgDigest] at h
    have h := hE.dlg h
    simp at h
  | .link .., .root .., h => by
    simp only [Env.dlgDigest] at h
    have h := hE.dlg h
    simp at h
theorem rev_same (hE : E.NoClash) : ∀ a b : Rev, E.revDigest a = E.revDigest b → a.recast plainAgent = b.recast plainAgent
  | .root i s d x, .root i' s' d' x', h => by
    simp only [Env.revDigest] at h
    have h := hE.rev h
    simp only [SRev.mk.injEq] at h
    obtain ⟨h1, h2, h3, _, h4⟩ := h
    simp only [Rev.recast, h1, h2, h4, dlg_same hE d d' h3]
  | .via i s d p x, .via i' s' d' p' x', h => by
    simp only [Env.revDigest] at h
    have h := hE.rev h
    simp only [SRev.mk.injEq, Option.some.injEq] at h
    obtain ⟨h1, h2, h3, h5, h4⟩ := h
    simp only [Rev.recast, h1, h2, h4, dlg_same hE d d' h3, dlg_same hE p p' h5]
  | .root .., .via .., h => by
    simp only [Env.revDigest] at h
    have h := hE.rev h
    simp at h
  | .via .., .root .., h => by
    simp only [Env.revDigest] at h
    have h := hE.rev h
    simp at h
theorem revs_same (hE : E.NoClash) : ∀ a b : Revs, E.revDigests a = E.revDigests b → a.recast plainAgent = b.recast plainAgent
  | .nil, .nil, _ => rfl
  | .cons r rs, .cons r' rs', h => by
    simp only [Env.revDigests, List.cons.injEq] at h
    simp only [Revs.recast, rev_same hE r r' h.1, revs_same hE rs rs' h.2]
  | .nil, .cons .., h => by simp [Env.revDigests] at h
  | .cons .., .nil, h => by simp [Env.revDigests] at h
end

theorem op_same (hE : E.NoClash) (hx : ∀ s r, E.hashDlg s ≠ E.hashRev r) {a b : Op} (h : E.opDigest a = E.opDigest b) :
    a.recast plainAgent = b.recast plainAgent := by
  cases a with
  | dlg a =>
    cases b with
    | dlg b => exact congrArg Op.dlg (dlg_same hE a b h)
    | rev b => exact absurd (by rw [← dlgDigest_eq, ← revDigest_eq]; exact h) (hx (E.sdlg a) (E.srev b))
  | rev a =>
    cases b with
    | dlg b => exact absurd (by rw [← dlgDigest_eq, ← revDigest_eq]; exact h.symm) (hx (E.sdlg b) (E.srev a))
    | rev b => exact congrArg Op.rev (rev_same hE a b h)

/-! ## The same operations, the same members -/

theorem has_of_store {k : Keyhive} (hs : StoreOk E k) {o : Op} (h : k.InStore o) : k.HasOp E (E.smem o) := by
  cases o with
  | dlg d =>
    obtain ⟨x, hx⟩ := h
    have := (hs.dlg _ _ hx).1
    simp only [Env.smem, Keyhive.HasOp, ← dlgDigest_eq]
    rw [this, hx]; simp
  | rev r =>
    obtain ⟨x, hx⟩ := h
    have := (hs.rev _ _ hx).1
    simp only [Env.smem, Keyhive.HasOp, ← revDigest_eq]
    rw [this, hx]; simp

theorem store_of_has {k : Keyhive} (hs : StoreOk E k) {o : Op} (h : k.HasOp E (E.smem o)) : ∃ o', k.InStore o' ∧ E.opDigest o' = E.opDigest o := by
  cases o with
  | dlg d =>
    simp only [Env.smem, Keyhive.HasOp, ← dlgDigest_eq] at h
    obtain ⟨x, hx⟩ := Option.ne_none_iff_exists'.1 h
    exact ⟨.dlg x, ⟨_, hx⟩, (hs.dlg _ _ hx).1⟩
  | rev r =>
    simp only [Env.smem, Keyhive.HasOp, ← revDigest_eq] at h
    obtain ⟨x, hx⟩ := Option.ne_none_iff_exists'.1 h
    exact ⟨.rev x, ⟨_, hx⟩, (hs.rev _ _ hx).1⟩

/-- What a group holds on one device, the group with the same id holds on the other. -/
theorem agree_holds {k1 k2 : Keyhive} (hE : E.NoClash) (hx : ∀ s r, E.hashDlg s ≠ E.hashRev r) (s1 : StoreOk E k1) (s2 : StoreOk E k2)
    (hsame : ∀ m, k1.HasOp E m → k2.HasOp E m) (h1 : Settled k1) (h2 : Settled k2) {i : Id} {g1 : Group}
    (hg1 : AMap.get k1.world i = some g1) : ∃ g2, AMap.get k2.world i = some g2 ∧
      ∀ o, g1.Holds o → ∃ o', g2.Holds o' ∧ o'.recast plainAgent = o.recast plainAgent := by
  have step : ∀ x ∈ g1.heads, ∃ g2 y, AMap.get k2.world i = some g2 ∧ g2.Holds y ∧ y.recast plainAgent = x.recast plainAgent := by
    intro x hx1
    obtain ⟨y, hy, hd⟩ := store_of_has s2 (hsame _ (has_of_store s1 (h1.stored i g1 x hg1 ⟨x, hx1, .refl⟩)))
    have hr := op_same hE hx hd
    obtain ⟨g2, hg2, hh⟩ := h2.held y hy
    have : y.subject = i := by
      rw [← (h1.about i g1 hg1).2 x hx1, ← Op.recast_subject (f := plainAgent) y, hr, Op.recast_subject]
    rw [this] at hg2
    exact ⟨g2, y, hg2, hh, hr⟩
  have hne : ∃ x, x ∈ g1.heads := by
    cases hd : g1.dlgHeads with
    | nil => exact absurd hd (h1.about i g1 hg1).1
    | cons p l => exact ⟨.dlg p.2, by simp [Group.heads, hd, AMap.values]⟩
  obtain ⟨x, hx1⟩ := hne
  obtain ⟨g2, _, hg2, _, _⟩ := step x hx1
  refine ⟨g2, hg2, ?_⟩
  rintro o ⟨z, hz, hzo⟩
  obtain ⟨g2', y, hg2', hh, hr⟩ := step z hz
  rw [hg2] at hg2'
  cases hg2'
  have := recast_past (f := plainAgent) hzo
  rw [← hr] at this
  obtain ⟨o', ho', hyo⟩ := past_of_recast this
  obtain ⟨w, hw, hwy⟩ := hh
  exact ⟨o', ⟨w, hw, hwy.trans hyo⟩, ho'⟩

theorem maxByCan_recast {f : Agent → Agent} (l : List Dlg) : maxByCan (l.map (Dlg.recast f)) = (maxByCan l).map (Dlg.recast f) := by
  cases l with
  | nil => rfl
  | cons d l =>
    simp only [List.map_cons, maxByCan, Option.map_some, Option.some.injEq]
    induction l generalizing d with
    | nil => rfl
    | cons x l ih =>
      simp only [List.map_cons, List.foldl_cons, Dlg.recast_can]
      rw [← ih]
      congr 1
      split <;> rfl

/-- Devices that hold the same operations agree about members. -/
theorem agree {k1 k2 : Keyhive} (hE : E.NoClash) (hx : ∀ s r, E.hashDlg s ≠ E.hashRev r) (s1 : StoreOk E k1) (s2 : StoreOk E k2)
    (q1 : Kept E k1) (q2 : Kept E k2) (hsame : ∀ m, k1.HasOp E m ↔ k2.HasOp E m) (h1 : Settled k1) (h2 : Settled k2)
    (hsole : ∀ i g, AMap.get k1.world i = some g → Sole g.heads) (i : Id) :
    k1.membership E i = k2.membership E i ∧ k1.accessIn i = k2.accessIn i := by
  unfold Keyhive.membership Keyhive.accessIn
  cases hg1 : AMap.get k1.world i with
  | none =>
    cases hg2 : AMap.get k2.world i with
    | none => exact ⟨rfl, rfl⟩
    | some g2 =>
      obtain ⟨g, hg, _⟩ := agree_holds hE hx s2 s1 (fun m => (hsame m).2) h2 h1 hg2
      rw [hg1] at hg
      cases hg
  | some g1 =>
    obtain ⟨g2, hg2, a1⟩ := agree_holds hE hx s1 s2 (fun m => (hsame m).1) h1 h2 hg1
    obtain ⟨g1', hg1', a2⟩ := agree_holds hE hx s2 s1 (fun m => (hsame m).2) h2 h1 hg2
    rw [hg1] at hg1'
    cases hg1'
    rw [hg2]
    have hm := same_view_recast (f := plainAgent) (H := E.opDigest) opDigest_recast (fun _ => rfl) (q1.good hg1).2.2 (q2.good hg2).2.2
      ((q1.good hg1).1.trans (q2.good hg2).1.symm) (fun a b _ _ h => op_same hE hx h) (hsole i g1 hg1) (by
        intro op
        constructor
        · rintro ⟨o, ho, rfl⟩; exact a1 o ho
        · rintro ⟨o, ho, rfl⟩; exact a2 o ho)
    have hget : ∀ m, (AMap.get g1.members m).map (List.map (Dlg.recast plainAgent))
        = (AMap.get g2.members m).map (List.map (Dlg.recast plainAgent)) := by
      intro m
      rw [← get_mapVals, ← get_mapVals, hm]
    have hs : ∀ l : List Dlg, l.map E.sdlg = (l.map (Dlg.recast plainAgent)).map E.sdlg := by
      intro l
      simp only [List.map_map, Function.comp_def, sdlg_recast]
    refine ⟨?_, ?_⟩
    · simp only [Option.map_some, Option.some.injEq]
      funext m
      have := congrArg (Option.map (List.map E.sdlg)) (hget m)
      simp only [Option.map_map, Function.comp_def, ← hs] at this
      exact this
    · simp only [Option.map_some, Option.some.injEq]
      funext m
      unfold Group.getCapability
      have hc : ∀ g : Group, ((AMap.get g.members m).bind maxByCan).map Dlg.can
          = (((AMap.get g.members m).map (List.map (Dlg.recast plainAgent))).bind maxByCan).map Dlg.can := by
        intro g
        cases AMap.get g.members m with
        | none => rfl
        | some l =>
          simp only [Option.map_some, Option.bind_some, maxByCan_recast, Option.map_map, Function.comp_def, Dlg.recast_can]
      rw [hc g1, hc g2, hget m]

end Verif.Keyhive
