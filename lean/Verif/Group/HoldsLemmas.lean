import Verif.Group.HeadsLemmas
import Mathlib.Tactic.ByContra

/-! # Helper lemmas: what a group holds after accepting operations -/

namespace Verif.Group

open Relation

variable {H : Op → Nat}

theorem Below.of_heads {A B : List Op} (h : ∀ x ∈ A, Below B x) {op : Op} (ho : Below A op) : Below B op := by
  obtain ⟨x, hx, hr⟩ := ho
  exact (h x hx).trans hr

theorem Below.mono {A B : List Op} (h : ∀ x ∈ A, x ∈ B) {op : Op} (ho : Below A op) : Below B op :=
  ho.of_heads (fun x hx => Below.head (h x hx))

theorem NoClash.mono {f : Op → Nat} {A B : List Op} (hc : NoClash f B) (h : ∀ x ∈ A, Below B x) : NoClash f A :=
  fun a b ha hb he => hc a b (ha.of_heads h) (hb.of_heads h) he

theorem PayloadUnique.mono {A B : List Op} (hc : PayloadUnique B) (h : ∀ x ∈ A, Below B x) : PayloadUnique A :=
  fun a b ha hb he => hc a b (ha.of_heads h) (hb.of_heads h) he

theorem sameRevs_refl (l : List Rev) : sameRevs l l = true := by
  induction l with
  | nil => rfl
  | cons r l ih => simp [sameRevs, Rev.same, ih]

theorem sameRevs_iff (l m : List Rev) :
    sameRevs l m = true ↔ l.map (fun r => (r.issuer, r.sig)) = m.map (fun r => (r.issuer, r.sig)) := by
  induction l generalizing m with
  | nil => cases m <;> simp [sameRevs]
  | cons r l ih => cases m <;> simp [sameRevs, Rev.same, ih]

theorem samePayload_iff (a b : Dlg) : a.samePayload b = true ↔ EqualPayload a b := by
  have h1 : sameProof a.proof b.proof = true ↔
      a.proof.map (fun p => (p.issuer, p.sig)) = b.proof.map (fun p => (p.issuer, p.sig)) := by
    cases a.proof <;> cases b.proof <;> simp [sameProof, Dlg.same]
  simp only [Dlg.samePayload, EqualPayload, Bool.and_eq_true, decide_eq_true_eq, h1, sameRevs_iff, and_assoc]

theorem samePayload_refl (d : Dlg) : d.samePayload d = true := by
  unfold Dlg.samePayload
  have h1 : sameProof d.proof d.proof = true := by
    cases d.proof with
    | none => rfl
    | some p => simp [sameProof, Dlg.same]
  simp [h1, sameRevs_refl]

theorem below_lineage {heads : List Op} : ∀ {d a : Dlg}, Below heads (.dlg d) → a ∈ d.lineage → Below heads (.dlg a)
  | .root .., a, _, h => by simp [Dlg.lineage] at h
  | .link i s g c p af ct, a, hd, h => by
    have hp : Below heads (.dlg p) := hd.dep (mem_after_dlg.2 (Or.inl ⟨p, rfl, rfl⟩))
    simp only [Dlg.lineage, List.mem_cons] at h
    rcases h with rfl | h
    · exact hp
    · exact below_lineage hp h

theorem isAncestorOf_iff {heads : List Op} (hu : PayloadUnique heads) {a d : Dlg} (ha : Below heads (.dlg a))
    (hd : Below heads (.dlg d)) : a.isAncestorOf d = true ↔ a ∈ d.lineage := by
  unfold Dlg.isAncestorOf
  rw [List.any_eq_true]
  constructor
  · rintro ⟨x, h1, h2⟩
    rw [← hu x a (below_lineage hd h1) ha ((samePayload_iff x a).1 h2)]
    exact h1
  · intro h
    exact ⟨a, h, samePayload_refl a⟩

/-! ## Head maps stay keyed by digest -/

theorem headsFold_key {d : Dlg} (l : List (Nat × Dlg)) {acc : CaMap Nat Dlg}
    (h : ∀ {k x}, AMap.get acc k = some x → k = H (.dlg x)) :
    ∀ {k x}, AMap.get (l.foldl (headStep H d) acc) k = some x → k = H (.dlg x) := by
  induction l generalizing acc with
  | nil => exact h
  | cons p l ih =>
    apply ih
    intro k x hx
    rw [headStep_get] at hx
    split at hx
    · cases hx
    · split at hx
      · rename_i h2
        cases hx
        exact h2.2
      · exact h hx

theorem headsOk_dlg {g : Group} (h : HeadsOk H g) (d : Dlg) :
    HeadsOk H { g with dlgHeads := g.headsAfter H d, revHeads := g.revHeadsAfter d } := by
  refine ⟨headsFold_wf _ h.dwf, revHeadsFold_wf _ h.rwf, headsFold_key _ h.dkey, ?_⟩
  intro k r hk
  have hk' : AMap.get (g.revHeadsAfter d) k = some r := hk
  unfold Group.revHeadsAfter at hk'
  rw [revHeadsFold_get] at hk'
  split at hk'
  · cases hk'
  · exact h.rkey hk'

theorem headsOk_rev {g : Group} (h : HeadsOk H g) (r : Rev) :
    HeadsOk H { g with revHeads := (CaMap.insert (H ∘ Op.rev) g.revHeads r).1 } := by
  refine ⟨h.dwf, AMap.wf_insert h.rwf _ _, h.dkey, ?_⟩
  intro k x hk
  have hk' : AMap.get (AMap.insert g.revHeads (H (.rev r)) r) k = some x := hk
  rw [AMap.get_insert] at hk'
  split at hk'
  · rename_i he
    cases hk'
    exact he
  · exact h.rkey hk'

theorem headsOk_rebuild {g : Group} (h : HeadsOk H g) : HeadsOk H (g.rebuild H) := ⟨h.dwf, h.rwf, h.dkey, h.rkey⟩

theorem heads_rebuild (g : Group) : (g.rebuild H).heads = g.heads := rfl

/-! ## What is held afterwards -/

theorem holds_dlg {g : Group} (h : HeadsOk H g) (hne : g.dlgHeads ≠ []) {d : Dlg}
    (hc : NoClash H (g.heads ++ [.dlg d])) (hs : NoClash Op.sig (g.heads ++ [.dlg d]))
    (hu : PayloadUnique (g.heads ++ [.dlg d])) :
    (∃ x, .dlg x ∈ { g with dlgHeads := g.headsAfter H d, revHeads := g.revHeadsAfter d : Group }.heads) ∧
    ∀ op, Below { g with dlgHeads := g.headsAfter H d, revHeads := g.revHeadsAfter d : Group }.heads op ↔
      Below (g.heads ++ [.dlg d]) op := by
  have h' := headsOk_dlg h d
  generalize hg' : { g with dlgHeads := g.headsAfter H d, revHeads := g.revHeadsAfter d : Group } = g' at *
  have hbd : Below (g.heads ++ [.dlg d]) (.dlg d) := Below.head (by simp)
  have hbh : ∀ {x}, x ∈ g.heads → Below (g.heads ++ [.dlg d]) x := fun hx => Below.head (by simp [hx])
  have hin : ∀ {p : Nat × Dlg}, p ∈ g.dlgHeads → p.1 = H (.dlg p.2) ∧ .dlg p.2 ∈ g.heads := by
    intro p hp
    have h1 := AMap.get_of_mem h.dwf hp
    have h2 := h.dkey h1
    exact ⟨h2, h.mem_dlg.2 (by rw [← h2]; exact h1)⟩
  have hirr : ∀ x : Dlg, x ∉ x.lineage := fun x hx => Nat.lt_irrefl _ (Dlg.depth_lineage hx)
  have hself : ∀ p ∈ g.dlgHeads, p.2.isAncestorOf d = true → p.1 ≠ H (.dlg d) := by
    intro p hp ha he
    obtain ⟨h1, h2⟩ := hin hp
    have h3 := hc (.dlg p.2) (.dlg d) (hbh h2) hbd (by rw [← h1, he])
    injection h3 with h3
    rw [isAncestorOf_iff hu (hbh h2) hbd, h3] at ha
    exact hirr d ha
  have hget : ∀ k, AMap.get g'.dlgHeads k =
      if k = H (.dlg d) then (if ∃ p ∈ g.dlgHeads, d.isAncestorOf p.2 = false then some d else AMap.get g.dlgHeads k)
      else if ∃ p ∈ g.dlgHeads, p.2.isAncestorOf d = true ∧ k = p.1 then none else AMap.get g.dlgHeads k := by
    intro k
    rw [← hg']
    exact headsFold_get g.dlgHeads k hself
  have hrget : ∀ k, AMap.get g'.revHeads k =
      if ∃ p ∈ g.revHeads, d.after.any (·.same p.2) = true ∧ k = p.1 then none else AMap.get g.revHeads k := by
    intro k
    rw [← hg']
    exact revHeadsFold_get g.revHeads k
  -- a head that is not above `d` stays
  have hstay : ∀ {x : Dlg}, .dlg x ∈ g.heads → x ∉ d.lineage → .dlg x ∈ g'.heads := by
    intro x hx hnl
    rw [h'.mem_dlg, hget]
    have hxg := h.mem_dlg.1 hx
    by_cases hk : H (.dlg x) = H (.dlg d)
    · have h3 := hc (.dlg x) (.dlg d) (hbh hx) hbd hk
      injection h3 with h3
      subst h3
      rw [if_pos rfl]
      split
      · rfl
      · exact hxg
    · rw [if_neg hk, if_neg]
      · exact hxg
      · rintro ⟨p, h1, h2, h3⟩
        obtain ⟨h4, h5⟩ := hin h1
        have h6 := hc (.dlg x) (.dlg p.2) (hbh hx) (hbh h5) (by rw [h3, h4])
        injection h6 with h6
        rw [← h6, isAncestorOf_iff hu (hbh hx) hbd] at h2
        exact hnl h2
  have hdB' : (∃ x, .dlg x ∈ g'.heads) ∧ Below g'.heads (.dlg d) := by
    by_cases hex : ∃ p ∈ g.dlgHeads, d.isAncestorOf p.2 = false
    · have h0 : .dlg d ∈ g'.heads := by rw [h'.mem_dlg, hget, if_pos rfl, if_pos hex]
      exact ⟨⟨d, h0⟩, Below.head h0⟩
    · obtain ⟨p, hp⟩ := List.exists_mem_of_ne_nil _ hne
      have ha : d.isAncestorOf p.2 = true := by
        cases hb : d.isAncestorOf p.2 with
        | true => rfl
        | false => exact absurd ⟨p, hp, hb⟩ hex
      obtain ⟨h1, h2⟩ := hin hp
      rw [isAncestorOf_iff hu hbd (hbh h2)] at ha
      have h3 : p.2 ∉ d.lineage := by
        intro h3
        have := Dlg.depth_lineage h3
        have := Dlg.depth_lineage ha
        omega
      exact ⟨⟨p.2, hstay h2 h3⟩, below_lineage (Below.head (hstay h2 h3)) ha⟩
  have hdB := hdB'.2
  refine ⟨hdB'.1, fun op => ?_⟩
  constructor
  · apply Below.of_heads
    intro x hx
    cases x with
    | dlg x =>
      have h1 := h'.mem_dlg.1 hx
      rw [hget] at h1
      split at h1
      · split at h1
        · cases h1; exact hbd
        · exact hbh (h.mem_dlg.2 h1)
      · split at h1
        · cases h1
        · exact hbh (h.mem_dlg.2 h1)
    | rev r =>
      have h1 := h'.mem_rev.1 hx
      rw [hrget] at h1
      split at h1
      · cases h1
      · exact hbh (h.mem_rev.2 h1)
  · apply Below.of_heads
    intro x hx
    rcases List.mem_append.1 hx with hx | hx
    · cases x with
      | dlg x =>
        by_cases hl : x ∈ d.lineage
        · exact below_lineage hdB hl
        · exact Below.head (hstay hx hl)
      | rev r =>
        have h1 := h.mem_rev.1 hx
        by_cases hex : ∃ p ∈ g.revHeads, d.after.any (·.same p.2) = true ∧ H (.rev r) = p.1
        · obtain ⟨p, h2, h3, h4⟩ := hex
          have h5 := AMap.get_of_mem h.rwf h2
          rw [← h4] at h5
          rw [h1] at h5
          have h6 : r = p.2 := by injection h5
          rw [← h6, List.any_eq_true] at h3
          obtain ⟨r', h7, h8⟩ := h3
          have h9 : r'.sig = r.sig := by
            unfold Rev.same at h8
            exact (of_decide_eq_true h8).2
          have h10 : Below (g.heads ++ [.dlg d]) (.rev r') := hbd.dep (mem_after_dlg.2 (Or.inr ⟨r', h7, rfl⟩))
          have h11 := hs (.rev r') (.rev r) h10 (hbh hx) h9
          injection h11 with h11
          subst h11
          exact hdB.dep (mem_after_dlg.2 (Or.inr ⟨r', h7, rfl⟩))
        · apply Below.head
          rw [h'.mem_rev, hrget, if_neg hex]
          exact h1
    · simp only [List.mem_cons, List.not_mem_nil, or_false] at hx
      rw [hx]
      exact hdB

/-- Accepting an operation adds it, and what is below it, to what is held; nothing is lost. -/
theorem holds_accept {g g' : Group} {o : Op} (h : HeadsOk H g) (hne : g.dlgHeads ≠ [])
    (hc : NoClash H (g.heads ++ [o])) (hs : NoClash Op.sig (g.heads ++ [o])) (hu : PayloadUnique (g.heads ++ [o]))
    (ha : Accepts H g o g') :
    HeadsOk H g' ∧ g'.dlgHeads ≠ [] ∧ ∀ op, Below g'.heads op ↔ Below (g.heads ++ [o]) op := by
  cases ha with
  | dlg N hok =>
    rename_i d
    obtain ⟨_, _, _, rfl⟩ := receiveDelegation_ok hok
    have h1 := holds_dlg h hne hc hs hu
    refine ⟨headsOk_rebuild (headsOk_dlg h d), ?_, h1.2⟩
    obtain ⟨x, hx⟩ := h1.1
    have h2 := (headsOk_dlg h d).mem_dlg.1 hx
    intro he
    have h3 : g.headsAfter H d = [] := he
    simp [h3] at h2
  | rev N hok =>
    rename_i r
    obtain ⟨_, _, rfl⟩ := receiveRevocation_ok hok
    have h' := headsOk_rev h r
    refine ⟨headsOk_rebuild h', hne, ?_⟩
    intro op
    rw [heads_rebuild]
    have hget : ∀ k, AMap.get { g with revHeads := (CaMap.insert (H ∘ Op.rev) g.revHeads r).1 : Group }.revHeads k =
        if k = H (.rev r) then some r else AMap.get g.revHeads k := by
      intro k
      exact AMap.get_insert _ _ _ _
    constructor
    · apply Below.of_heads
      intro x hx
      cases x with
      | dlg d => exact Below.head (List.mem_append_left _ (h.mem_dlg.2 (h'.mem_dlg.1 hx)))
      | rev x =>
        have h1 := h'.mem_rev.1 hx
        rw [hget] at h1
        split at h1
        · cases h1; exact Below.head (by simp)
        · exact Below.head (List.mem_append_left _ (h.mem_rev.2 h1))
    · apply Below.of_heads
      intro x hx
      rcases List.mem_append.1 hx with hx | hx
      · cases x with
        | dlg d => exact Below.head (h'.mem_dlg.2 (h.mem_dlg.1 hx))
        | rev x =>
          apply Below.head
          rw [h'.mem_rev, hget]
          split
          · rename_i he
            have h3 := hc (.rev x) (.rev r) (Below.head (by simp [hx])) (Below.head (by simp)) he
            injection h3 with h3
            rw [h3]
          · exact h.mem_rev.1 hx
      · simp only [List.mem_cons, List.not_mem_nil, or_false] at hx
        subst hx
        apply Below.head
        rw [h'.mem_rev, hget, if_pos rfl]

theorem holds_run {g g' : Group} {l : List Op} (h : HeadsOk H g) (hne : g.dlgHeads ≠ [])
    (hc : NoClash H (g.heads ++ l)) (hs : NoClash Op.sig (g.heads ++ l)) (hu : PayloadUnique (g.heads ++ l))
    (hr : Run H g l g') :
    HeadsOk H g' ∧ g'.dlgHeads ≠ [] ∧ ∀ op, Below g'.heads op ↔ Below (g.heads ++ l) op := by
  induction hr with
  | nil => exact ⟨h, hne, fun op => by simp⟩
  | snoc hrun hacc ih =>
    rename_i l g2 o g3
    have hsub : ∀ x ∈ g.heads ++ l, Below (g.heads ++ (l ++ [o])) x := by
      intro x hx
      refine Below.head ?_
      rw [← List.append_assoc]
      exact List.mem_append_left _ hx
    obtain ⟨i1, i2, i3⟩ := ih (hc.mono hsub) (hs.mono hsub) (hu.mono hsub)
    have hsub2 : ∀ x ∈ g2.heads ++ [o], Below (g.heads ++ (l ++ [o])) x := by
      intro x hx
      rcases List.mem_append.1 hx with hx | hx
      · exact ((i3 x).1 (Below.head hx)).of_heads hsub
      · simp only [List.mem_cons, List.not_mem_nil, or_false] at hx
        subst hx
        exact Below.head (by simp)
    obtain ⟨j1, j2, j3⟩ := holds_accept i1 i2 (hc.mono hsub2) (hs.mono hsub2) (hu.mono hsub2) hacc
    refine ⟨j1, j2, fun op => ?_⟩
    rw [j3]
    constructor
    · exact Below.of_heads hsub2
    · apply Below.of_heads
      intro x hx
      rw [← List.append_assoc] at hx
      rcases List.mem_append.1 hx with hx | hx
      · exact ((i3 x).2 (Below.head hx)).mono (fun y hy => List.mem_append_left _ hy)
      · exact Below.head (List.mem_append_right _ hx)

/-! ## Reachable states -/

/-- The membership view is the replay of the history. -/
def Rebuilt (H : Op → Nat) (g : Group) : Prop :=
  g.members = (View.replay g.id (g.history H)).members ∧ g.active = (View.replay g.id (g.history H)).active

theorem rebuilt_rebuild (g : Group) : Rebuilt H (g.rebuild H) := ⟨rfl, rfl⟩

theorem accepts_step {g g' : Group} {o : Op} (ha : Accepts H g o g') (h : HeadsOk H g) :
    HeadsOk H g' ∧ Rebuilt H g' ∧ g'.id = g.id := by
  cases ha with
  | dlg N hok =>
    obtain ⟨_, _, _, rfl⟩ := receiveDelegation_ok hok
    exact ⟨headsOk_rebuild (headsOk_dlg h _), rebuilt_rebuild _, rfl⟩
  | rev N hok =>
    obtain ⟨_, _, rfl⟩ := receiveRevocation_ok hok
    exact ⟨headsOk_rebuild (headsOk_rev h _), rebuilt_rebuild _, rfl⟩

end Verif.Group
