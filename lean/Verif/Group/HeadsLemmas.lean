import Verif.Group.HistoryLemmas

/-! # Helper lemmas: the heads of a group, and states reached by accepted operations -/

namespace Verif.Group

open Relation

variable {H : Op → Nat}

/-! ## Acceptance is a step of `receive_*` -/

theorem receiveDelegation_ok {N : Nested} {g g' : Group} {d : Dlg} (h : g.receiveDelegation H N d = .ok g') :
    d.subject = g.id ∧ (d.proof = none → d.issuer = g.id) ∧ checkChain N d.can d d.lineage = .ok () ∧
      g' = Group.rebuild H { g with dlgHeads := g.headsAfter H d, revHeads := g.revHeadsAfter d } := by
  unfold Group.receiveDelegation Group.addDelegation at h
  by_cases h1 : d.subject ≠ g.id
  · simp [h1, bind, Except.bind, throw, throwThe, MonadExceptOf.throw] at h
  · by_cases h2 : d.proof.isNone ∧ d.issuer ≠ g.id
    · simp [h1, h2, bind, Except.bind, throw, throwThe, MonadExceptOf.throw] at h
    · cases h3 : checkChain N d.can d d.lineage with
      | error e => simp only [h1, h2, h3, bind, Except.bind, if_false] at h; cases h
      | ok u =>
        simp only [h1, h2, h3, bind, Except.bind, pure, Except.pure, if_false] at h
        injection h with h
        refine ⟨by simpa using h1, ?_, rfl, h.symm⟩
        intro hp
        by_contra hne
        exact h2 ⟨by simp [hp], hne⟩

/-- Why a revocation is accepted. -/
def RevGrounds (N : Nested) (g : Group) (r : Rev) : Prop :=
  (r.proof = none ∧ r.issuer = g.id) ∨
  ∃ p, r.proof = some p ∧ checkChain N p.can p p.lineage = .ok () ∧
    (r.revoke.same p = true ∨ r.revoke.isDescendantOf p = true ∨
      isTransitiveMemberOf N p.delegate r.issuer r.revoke.can = .ok true)

theorem receiveRevocation_ok {N : Nested} {g g' : Group} {r : Rev} (h : g.receiveRevocation H N r = .ok g') :
    r.subject = g.id ∧ RevGrounds N g r ∧
      g' = Group.rebuild H { g with revHeads := (CaMap.insert (H ∘ Op.rev) g.revHeads r).1 } := by
  unfold Group.receiveRevocation Group.addRevocation at h
  by_cases h1 : r.subject ≠ g.id
  · simp [h1, bind, Except.bind, throw, throwThe, MonadExceptOf.throw] at h
  · cases hp : r.proof with
    | none =>
      by_cases h2 : r.issuer ≠ g.id
      · simp [h1, hp, h2, bind, Except.bind, throw, throwThe, MonadExceptOf.throw] at h
      · simp only [h1, hp, h2, bind, Except.bind, pure, Except.pure, if_false] at h
        injection h with h
        exact ⟨by simpa using h1, Or.inl ⟨hp, by simpa using h2⟩, h.symm⟩
    | some p =>
      simp only [h1, hp, bind, Except.bind, pure, Except.pure, if_false] at h
      by_cases h2 : (!r.revoke.same p && !r.revoke.isDescendantOf p) = true
      · simp only [h2, if_true] at h
        cases h3 : isTransitiveMemberOf N p.delegate r.issuer r.revoke.can with
        | error e => simp [h3] at h
        | ok b =>
          cases b with
          | false => simp [h3, throw, throwThe, MonadExceptOf.throw] at h
          | true =>
            cases h4 : checkChain N p.can p p.lineage with
            | error e => simp [h3, h4] at h
            | ok u =>
              simp [h3, h4] at h
              exact ⟨by simpa using h1, Or.inr ⟨p, hp, h4, Or.inr (Or.inr h3)⟩, h.symm⟩
      · simp only [h2] at h
        cases h4 : checkChain N p.can p p.lineage with
        | error e => simp [h4] at h
        | ok u =>
          simp [h4] at h
          refine ⟨by simpa using h1, Or.inr ⟨p, hp, h4, ?_⟩, h.symm⟩
          simp only [Bool.and_eq_true, Bool.not_eq_true', not_and, Bool.not_eq_false] at h2
          cases hs : r.revoke.same p with
          | true => exact Or.inl rfl
          | false => exact Or.inr (Or.inl (h2 hs))

/-! ## Well-formed heads -/

/-- The head maps are keyed by digest. -/
structure HeadsOk (H : Op → Nat) (g : Group) : Prop where
  dwf : AMap.WF g.dlgHeads
  rwf : AMap.WF g.revHeads
  dkey : ∀ {k d}, AMap.get g.dlgHeads k = some d → k = H (.dlg d)
  rkey : ∀ {k r}, AMap.get g.revHeads k = some r → k = H (.rev r)

theorem mem_values {V : Type} {m : AMap Nat V} (hw : AMap.WF m) {x : V} :
    x ∈ AMap.values m ↔ ∃ k, AMap.get m k = some x := by
  unfold AMap.values
  rw [List.mem_map]
  constructor
  · rintro ⟨⟨k, y⟩, h1, rfl⟩
    exact ⟨k, AMap.get_of_mem hw h1⟩
  · rintro ⟨k, h1⟩
    exact ⟨(k, x), AMap.mem_of_get h1, rfl⟩

theorem HeadsOk.mem_dlg {g : Group} (h : HeadsOk H g) {d : Dlg} :
    .dlg d ∈ g.heads ↔ AMap.get g.dlgHeads (H (.dlg d)) = some d := by
  unfold Group.heads
  rw [List.mem_append, List.mem_map, List.mem_map]
  constructor
  · rintro (⟨x, h1, h2⟩ | ⟨x, h1, h2⟩)
    · cases h2
      obtain ⟨k, h3⟩ := (mem_values h.dwf).1 h1
      rw [← h.dkey h3]; exact h3
    · cases h2
  · intro h1
    exact Or.inl ⟨d, (mem_values h.dwf).2 ⟨_, h1⟩, rfl⟩

theorem HeadsOk.mem_rev {g : Group} (h : HeadsOk H g) {r : Rev} :
    .rev r ∈ g.heads ↔ AMap.get g.revHeads (H (.rev r)) = some r := by
  unfold Group.heads
  rw [List.mem_append, List.mem_map, List.mem_map]
  constructor
  · rintro (⟨x, h1, h2⟩ | ⟨x, h1, h2⟩)
    · cases h2
    · cases h2
      obtain ⟨k, h3⟩ := (mem_values h.rwf).1 h1
      rw [← h.rkey h3]; exact h3
  · intro h1
    exact Or.inr ⟨r, (mem_values h.rwf).2 ⟨_, h1⟩, rfl⟩

/-! ## `headsAfter` -/

/-- One turn of the loop over the delegation heads. -/
def headStep (H : Op → Nat) (d : Dlg) (heads : CaMap Nat Dlg) (p : Nat × Dlg) : CaMap Nat Dlg :=
  let heads := if d.isAncestorOf p.2 then heads else (CaMap.insert (H ∘ Op.dlg) heads d).1
  if p.2.isAncestorOf d then AMap.erase heads p.1 else heads

theorem headStep_wf {d : Dlg} {heads : CaMap Nat Dlg} (h : AMap.WF heads) (p : Nat × Dlg) : AMap.WF (headStep H d heads p) := by
  unfold headStep
  simp only
  split
  · split
    · exact AMap.wf_erase h _
    · exact AMap.wf_erase (AMap.wf_insert h _ _) _
  · split
    · exact h
    · exact AMap.wf_insert h _ _

theorem headStep_get {d : Dlg} {heads : CaMap Nat Dlg} (p : Nat × Dlg) (k : Nat) :
    AMap.get (headStep H d heads p) k =
      if p.2.isAncestorOf d = true ∧ k = p.1 then none
      else if ¬ d.isAncestorOf p.2 = true ∧ k = H (.dlg d) then some d else AMap.get heads k := by
  unfold headStep CaMap.insert
  simp only [Function.comp]
  by_cases h1 : d.isAncestorOf p.2 = true <;> by_cases h2 : p.2.isAncestorOf d = true <;>
    simp [h1, h2, AMap.get_erase, AMap.get_insert]

theorem headsFold_wf {d : Dlg} (l : List (Nat × Dlg)) {acc : CaMap Nat Dlg} (h : AMap.WF acc) :
    AMap.WF (l.foldl (headStep H d) acc) := by
  induction l generalizing acc with
  | nil => exact h
  | cons p l ih => exact ih (headStep_wf h p)

/-- What the loop does to one key, when no key of the list that is removed equals the new delegation's. -/
theorem headsFold_get {d : Dlg} (l : List (Nat × Dlg)) {acc : CaMap Nat Dlg} (k : Nat)
    (hself : ∀ p ∈ l, p.2.isAncestorOf d = true → p.1 ≠ H (.dlg d)) :
    AMap.get (l.foldl (headStep H d) acc) k =
      if k = H (.dlg d) then (if ∃ p ∈ l, d.isAncestorOf p.2 = false then some d else AMap.get acc k)
      else if ∃ p ∈ l, p.2.isAncestorOf d = true ∧ k = p.1 then none else AMap.get acc k := by
  classical
  induction l generalizing acc with
  | nil => simp
  | cons p l ih =>
    rw [List.foldl_cons, ih (fun q hq => hself q (by simp [hq]))]
    have hp := hself p (by simp)
    rw [headStep_get]
    by_cases hk : k = H (.dlg d)
    · simp only [hk, if_true]
      have hne : ¬ (p.2.isAncestorOf d = true ∧ H (.dlg d) = p.1) := fun h => hp h.1 h.2.symm
      rw [if_neg hne]
      cases hd : d.isAncestorOf p.2 with
      | true => simp [hd]
      | false => simp [hd]
    · simp only [hk, if_false, and_false]
      by_cases h1 : ∃ q ∈ l, q.2.isAncestorOf d = true ∧ k = q.1
      · have h2 : ∃ q ∈ p :: l, q.2.isAncestorOf d = true ∧ k = q.1 := by
          obtain ⟨q, h3, h4⟩ := h1
          exact ⟨q, by simp [h3], h4⟩
        rw [if_pos h1, if_pos h2]
      · rw [if_neg h1]
        by_cases h2 : p.2.isAncestorOf d = true ∧ k = p.1
        · rw [if_pos h2, if_pos ⟨p, by simp, h2⟩]
        · rw [if_neg h2, if_neg]
          rintro ⟨q, h3, h4⟩
          rcases List.mem_cons.1 h3 with rfl | h3
          · exact h2 h4
          · exact h1 ⟨q, h3, h4⟩

theorem revHeadsFold_get {d : Dlg} (l : List (Nat × Rev)) {acc : CaMap Nat Rev} (k : Nat) :
    AMap.get (l.foldl (fun heads p => if d.after.any (·.same p.2) then AMap.erase heads p.1 else heads) acc) k =
      if ∃ p ∈ l, d.after.any (·.same p.2) = true ∧ k = p.1 then none else AMap.get acc k := by
  classical
  induction l generalizing acc with
  | nil => simp
  | cons p l ih =>
    rw [List.foldl_cons, ih]
    by_cases h1 : ∃ q ∈ l, d.after.any (·.same q.2) = true ∧ k = q.1
    · have h2 : ∃ q ∈ p :: l, d.after.any (·.same q.2) = true ∧ k = q.1 := by
        obtain ⟨q, h3, h4⟩ := h1
        exact ⟨q, by simp [h3], h4⟩
      rw [if_pos h1, if_pos h2]
    · rw [if_neg h1]
      by_cases h2 : d.after.any (·.same p.2) = true
      · rw [if_pos h2, AMap.get_erase]
        by_cases h3 : k = p.1
        · rw [if_pos h3, if_pos ⟨p, by simp, h2, h3⟩]
        · rw [if_neg h3, if_neg]
          rintro ⟨q, h4, h5⟩
          rcases List.mem_cons.1 h4 with rfl | h4
          · exact h3 h5.2
          · exact h1 ⟨q, h4, h5⟩
      · rw [if_neg h2, if_neg]
        rintro ⟨q, h4, h5⟩
        rcases List.mem_cons.1 h4 with rfl | h4
        · exact h2 h5.1
        · exact h1 ⟨q, h4, h5⟩

theorem revHeadsFold_wf {d : Dlg} (l : List (Nat × Rev)) {acc : CaMap Nat Rev} (h : AMap.WF acc) :
    AMap.WF (l.foldl (fun heads p => if d.after.any (·.same p.2) then AMap.erase heads p.1 else heads) acc) := by
  induction l generalizing acc with
  | nil => exact h
  | cons p l ih =>
    rw [List.foldl_cons]
    apply ih
    split
    · exact AMap.wf_erase h _
    · exact h

end Verif.Group
