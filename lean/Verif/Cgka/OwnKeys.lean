import Verif.Cgka.StepInv

/-! # Taking in an operation does not touch the secrets one has -/

namespace Verif.BeeKem

/-- The secret is there, and there is no other entry for the key. -/
def Only (m : ShareKeyMap) (pk : Pk) (sk : Sk) : Prop := AMap.get m pk = some sk ∧ ∀ x, (pk, x) ∈ m → x = sk

theorem Only.insert_self (m : ShareKeyMap) (pk : Pk) (sk : Sk) : Only (AMap.insert m pk sk) pk sk := by
  refine ⟨AMap.get_insert_self _ _ _, fun x hx => ?_⟩
  rcases List.mem_cons.1 hx with h | h
  · cases h; rfl
  · have := (List.mem_filter.1 h).2
    simp at this

theorem Only.insert_other {m : ShareKeyMap} {pk q : Pk} {sk s : Sk} (h : Only m pk sk) (hq : AMap.get m q = none) :
    Only (AMap.insert m q s) pk sk := by
  have hne : pk ≠ q := by rintro rfl; rw [h.1] at hq; cases hq
  refine ⟨by rw [AMap.get_insert, if_neg hne]; exact h.1, fun x hx => ?_⟩
  rcases List.mem_cons.1 hx with e | e
  · cases e; exact absurd rfl hne
  · exact h.2 x (List.mem_filter.1 e).1

theorem Only.extend {m o : ShareKeyMap} {pk : Pk} {sk : Sk} (h : Only m pk sk) (ho : Only o pk sk) : Only (ShareKeyMap.extend m o) pk sk := by
  have : ∀ (l : List (Pk × Sk)), (∀ x, (pk, x) ∈ l → x = sk) → ∀ m : ShareKeyMap, Only m pk sk →
      Only (l.foldl (fun acc p => AMap.insert acc p.1 p.2) m) pk sk := by
    intro l
    induction l with
    | nil => intro _ m h; exact h
    | cons p l ih =>
      intro hl m h
      refine ih (fun x hx => hl x (List.mem_cons_of_mem _ hx)) _ ?_
      obtain ⟨q, s⟩ := p
      by_cases hq : q = pk
      · subst hq
        rw [hl s List.mem_cons_self]
        exact Only.insert_self _ _ _
      · refine ⟨by rw [AMap.get_insert, if_neg (Ne.symm hq)]; exact h.1, fun x hx => ?_⟩
        rcases List.mem_cons.1 hx with e | e
        · cases e; exact absurd rfl hq
        · exact h.2 x (List.mem_filter.1 e).1
  exact this o ho.2 m h

namespace BeeKem

theorem maybeDecrypt_only {t : BeeKem} {i : TreeMath.TreeNodeIndex} {key : NodeKey} {seen : List TreeMath.TreeNodeIndex} {sks sks' : ShareKeyMap} {r : Option Sk}
    {pk : Pk} {sk : Sk} (h0 : Only sks pk sk) (h : t.maybeDecryptParentKey i key seen sks = .ok (sks', r)) : Only sks' pk sk := by
  unfold maybeDecryptParentKey at h
  simp only [bind, Except.bind, pure, Except.pure] at h
  split at h
  · cases h
  · split at h
    · cases h; exact h0
    · split at h
      · cases h
      · split at h
        · cases h; exact h0
        · split at h
          · cases h; exact h0
          · rename_i hn
            split at h
            · cases h
            · cases h; exact h0.insert_other hn

theorem decryptLoop_only {t : BeeKem} {pk : Pk} {sk : Sk} : ∀ {fuel : Nat} {s s' : DecState}, Only s.sks pk sk →
    t.decryptLoop fuel s = .ok s' → Only s'.sks pk sk := by
  intro fuel
  induction fuel with
  | zero => intro s s' _ h; cases h
  | succ n ih =>
    intro s s' h0 h
    unfold decryptLoop at h
    split at h
    · cases h; exact h0
    · simp only [bind, Except.bind] at h
      split at h
      · cases h
      · rename_i s1 h1
        refine ih ?_ h
        unfold decryptStep at h1
        simp only [bind, Except.bind, pure, Except.pure] at h1
        split at h1
        · cases h1
        · split at h1
          · cases h1
          · rename_i p hp
            obtain ⟨sks, r⟩ := p
            have := maybeDecrypt_only h0 hp
            dsimp only at h1
            split at h1
            · cases h1
            · split at h1
              · cases h1
              · cases h1; exact this

theorem decryptTreeSecret_only {t : BeeKem} {id : MemberId} {sks sks' : ShareKeyMap} {r : Sk} {pk : Pk} {sk : Sk} (h0 : Only sks pk sk)
    (h : t.decryptTreeSecret id sks = .ok (sks', r)) : Only sks' pk sk := by
  unfold decryptTreeSecret at h
  simp only [bind, Except.bind, pure, Except.pure] at h
  repeat' (first | (cases h; done) | split at h)
  all_goals
    rename_i hs _ _ _
    cases h
    exact decryptLoop_only (s := { sks, childIdx := _, childKey := _, seen := _, last := none }) h0 hs

end BeeKem

end Verif.BeeKem

namespace Verif.Cgka

open Verif.BeeKem

variable {H : SOp → Nat} {c c' : Cgka} {pk : Pk} {sk : Sk}

theorem treeRoot_only {k : Sk} (h0 : Only c.ownerSks pk sk) (h : c.pcsKeyFromTreeRoot = .ok (c', k)) : Only c'.ownerSks pk sk := by
  unfold Cgka.pcsKeyFromTreeRoot at h
  split at h
  · rename_i hd; cases h; exact BeeKem.decryptTreeSecret_only h0 hd
  · split at h
    · cases h
    · split at h
      · cases hd : c.tree.decryptTreeSecret MemberId.pub c.ownerSks with
        | error e => rw [hd] at h; simp [bind, Except.bind] at h
        | ok p =>
          rw [hd] at h
          simp only [bind, Except.bind, pure, Except.pure, Except.ok.injEq] at h
          cases h
          exact BeeKem.decryptTreeSecret_only h0 hd
      · cases h

theorem rebuild_only {es : List (List SOp)} (h0 : Only c.ownerSks pk sk) (h : c.rebuildCgka H es = .ok c') : Only c'.ownerSks pk sk := by
  unfold Cgka.rebuildCgka at h
  simp only [bind, Except.bind, pure, Except.pure] at h
  split at h
  · cases h
  · rename_i r0 hr0
    split at h
    · cases h
    · rename_i r hr
      have h1 : Only r.ownerSks pk sk := by
        rw [(applyEpochs_frame hr).2.2.2.2.2.2, (rebuildStart_frame hr0).2.2.2.2.1]; exact h0
      split at h
      · cases h
      · split at h
        · split at h
          · cases h
          · rename_i p hp
            obtain ⟨r', k⟩ := p
            have h2 := treeRoot_only h1 hp
            dsimp only at h
            split at h
            · cases h
            · cases h; exact h2
        · cases h; exact h1

theorem replay_only (h0 : Only c.ownerSks pk sk) (h : c.replayIfNeeded H = .ok c') : Only c'.ownerSks pk sk := by
  unfold Cgka.replayIfNeeded at h
  split at h
  · unfold Cgka.replayOpsGraph at h
    simp only [bind, Except.bind] at h
    split at h
    · cases h
    · split at h
      · cases h
      · rename_i r hr
        cases h
        exact h0.extend (rebuild_only h0 hr)
  · cases h; exact h0

/-- Taking in an operation leaves the secrets of the device as they are. -/
theorem receive_only (h0 : Only c.ownerSks pk sk) (op : SOp) : Only (c.mergeConcurrentOperation H op).1.ownerSks pk sk := by
  unfold Cgka.mergeConcurrentOperation
  split
  · exact h0
  · split
    · exact h0
    · split
      · split
        · exact h0
        · split
          · exact h0
          · split
            · exact h0
            · rename_i ha
              rw [(applyOperation_frame ha).2.2.2.2.2.2]; exact h0
      · split
        · exact h0
        · rename_i hr
          have h1 := replay_only h0 hr
          split
          · exact h1
          · rename_i ha
            rw [(applyOperation_frame ha).2.2.2.2.2.2]; exact h1

end Verif.Cgka
