import Verif.Cgka.OwnKeys
import Verif.Cgka.TogetherProps

/-! # Reading as the public member: lemmas -/

namespace Verif.BeeKem

theorem Only.insert_true {m : ShareKeyMap} {s : Sk} (h : Only m ⟨s⟩ s) (x : Sk) : Only (AMap.insert m (shareKey x) x) ⟨s⟩ s := by
  by_cases hx : x = s
  · subst hx; exact Only.insert_self _ _ _
  · have hne : (⟨s⟩ : Pk) ≠ shareKey x := by intro h; simp only [shareKey, Pk.mk.injEq] at h; exact hx h.symm
    refine ⟨by rw [AMap.get_insert, if_neg hne]; exact h.1, fun y hy => ?_⟩
    rcases List.mem_cons.1 hy with e | e
    · cases e; exact absurd rfl hne
    · exact h.2 y (List.mem_filter.1 e).1

theorem Only.insert_held {m : ShareKeyMap} {pk q : Pk} {s x : Sk} (h : Only m pk s) (hq : AMap.get m q = some x) : Only (AMap.insert m q x) pk s := by
  by_cases hx : pk = q
  · subst hx
    have : x = s := by have := h.1; rw [hq] at this; exact Option.some.inj this
    subst this
    exact Only.insert_self _ _ _
  · refine ⟨by rw [AMap.get_insert, if_neg hx]; exact h.1, fun y hy => ?_⟩
    rcases List.mem_cons.1 hy with e | e
    · cases e; exact absurd rfl hx
    · exact h.2 y (List.mem_filter.1 e).1

end Verif.BeeKem

namespace Verif.BeeKem.BeeKem

theorem encryptLoop_only {g : Gen} {s : Sk} : ∀ {fuel : Nat} {a a' : EncState}, Only a.sks ⟨s⟩ s → encryptLoop g fuel a = .ok a' →
    Only a'.sks ⟨s⟩ s := by
  intro fuel
  induction fuel with
  | zero => intro a a' _ h; simp [encryptLoop] at h
  | succ n ih =>
    intro a a' h0 h
    unfold encryptLoop at h
    split at h
    · cases h; exact h0
    · simp only [bind, Except.bind] at h
      split at h
      · cases h
      · rename_i a1 h1
        refine ih ?_ h
        unfold encryptStep at h1
        simp only [bind, Except.bind, pure, Except.pure] at h1
        repeat' split at h1
        all_goals cases h1
        exact h0.insert_true _

theorem encryptPath_only {t t' : BeeKem} {g : Gen} {n n' : Nat} {id : MemberId} {pk : Pk} {sks sks' : ShareKeyMap} {r : Sk} {pc : PathChange} {s : Sk}
    (h0 : Only sks ⟨s⟩ s) (h : t.encryptPath g n id pk sks = .ok (t', sks', n', r, pc)) : Only sks' ⟨s⟩ s := by
  unfold encryptPath at h
  simp only [bind, Except.bind, pure, Except.pure] at h
  split at h
  · cases h
  · split at h
    · cases h
    · split at h
      · cases h
      · split at h
        · cases h
        · split at h
          · cases h
          · rename_i s' hl
            simp only [Except.ok.injEq, Prod.mk.injEq] at h
            obtain ⟨_, rfl, _⟩ := h
            exact encryptLoop_only (a := _) h0 hl

end Verif.BeeKem.BeeKem

namespace Verif.Cgka

open Verif.BeeKem

variable {H : SOp → Nat} {c c' : Cgka} {s : Sk}

theorem add_only {pk : Pk} {sk : Sk} (h0 : Only c.ownerSks pk sk) (sign : Payload → Res SOp) (id : MemberId) (p : Pk) :
    Only (c.add H sign id p).1.ownerSks pk sk := by
  unfold Cgka.add
  split
  · exact h0
  · split
    · exact h0
    · rename_i c1 h1
      have := replay_only h0 h1
      split
      · exact this
      · dsimp only
        split <;> exact this

theorem remove_only {pk : Pk} {sk : Sk} (h0 : Only c.ownerSks pk sk) (sign : Payload → Res SOp) (id : MemberId) :
    Only (c.remove H sign id).1.ownerSks pk sk := by
  unfold Cgka.remove
  split
  · exact h0
  · split
    · exact h0
    · rename_i c1 h1
      have := replay_only h0 h1
      split
      · exact this
      · split
        · exact this
        · dsimp only
          split <;> exact this

theorem update_only (h0 : Only c.ownerSks ⟨s⟩ s) (sign : Payload → Res SOp) (g : BeeKem.Gen) (n : Nat) (sk : Sk) :
    Only (c.update H sign g n sk).1.ownerSks ⟨s⟩ s := by
  unfold Cgka.update
  split
  · exact h0
  · rename_i c1 h1
    have h2 := replay_only h0 h1
    split
    · exact h2
    · rename_i uid upk usk ht
      have h3 : Only (AMap.insert c1.ownerSks upk usk) ⟨s⟩ s := by
        unfold Cgka.updateTarget at ht
        split at ht
        · simp only [Except.ok.injEq, Prod.mk.injEq] at ht
          obtain ⟨_, rfl, rfl⟩ := ht
          exact h2.insert_true _
        · split at ht
          · split at ht <;> cases ht
          · cases ht
          · split at ht
            · cases ht
            · rename_i hq
              simp only [Except.ok.injEq, Prod.mk.injEq] at ht
              obtain ⟨_, rfl, rfl⟩ := ht
              exact h2.insert_held hq
      dsimp only
      split
      · exact h3
      · rename_i he
        have h4 := BeeKem.encryptPath_only h3 he
        split <;> exact h4

theorem encrypt_only (h0 : Only c.ownerSks ⟨s⟩ s) (sign : Payload → Res SOp) (g : BeeKem.Gen) (n r ps : Nat) :
    Only (c.newAppSecretFor H sign g n r ps).1.ownerSks ⟨s⟩ s := by
  have hfin : ∀ (d : Cgka) k o, Only d.ownerSks ⟨s⟩ s → Only (d.finishAppSecret k o r ps).1.ownerSks ⟨s⟩ s := by
    intro d k o hd
    unfold Cgka.finishAppSecret
    split <;> exact hd
  unfold Cgka.newAppSecretFor
  split
  · exact h0
  · have h1 := update_only (H := H) h0 sign g (n + 1) (g n)
    split
    · rename_i hq; rw [hq] at h1; exact h1
    · rename_i hq; rw [hq] at h1; exact hfin _ _ _ h1
  · split
    · exact h0
    · rename_i c1 k hr
      have h1 := treeRoot_only h0 hr
      split
      · exact hfin _ _ _ h1
      · split
        · exact hfin _ _ _ h1
        · exact hfin _ _ _ h1

theorem decrypt_only {pk : Pk} {sk : Sk} (h0 : Only c.ownerSks pk sk) (e : EncContent) : Only (c.decryptionKeyFor H e).1.ownerSks pk sk := by
  have h1 : Only (c.currentRootFor e.pcsKeyHash).1.ownerSks pk sk := by
    unfold Cgka.currentRootFor
    split
    · exact h0
    · exact h0
    · split
      · split <;> exact h0
      · rename_i hr; exact treeRoot_only h0 hr
  have h2 : Only (c.pcsKeyFromHashes H e.pcsKeyHash e.pcsUpdateOpHash).1.ownerSks pk sk := by
    unfold Cgka.pcsKeyFromHashes
    split
    · exact h0
    · split
      · rename_i hq; rw [hq] at h1; exact h1
      · rename_i hq; rw [hq] at h1; exact h1
      · rename_i c1 hq
        rw [hq] at h1
        split
        · exact h1
        · rename_i c2 k hd
          unfold Cgka.derivePcsKeyForOp Cgka.rebuildPcsKey at hd
          split at hd
          · cases hd
          · simp only [bind, Except.bind, pure, Except.pure] at hd
            repeat' split at hd
            all_goals cases hd
            exact h1
  unfold Cgka.decryptionKeyFor
  split
  · rename_i hq; rw [hq] at h2; exact h2
  · rename_i hq
    rw [hq] at h2
    dsimp only
    split <;> exact h2

/-- Whoever holds the key of the public member's leaf gets at the root. -/
theorem open_public {t : BeeKem} (hst : Strong t) (hT : t.Truthful) {sks : ShareKeyMap} (hp : Pure sks)
    (hl : HoldsLeaf t MemberId.pub sks) {k : Sk} (hr : t.hasRootKey = .ok true)
    (hk : t.nodeKeyForIndex (TreeMath.root t.treeSize) = .ok (.share ⟨k⟩)) {c : Cgka} (ht : c.tree = t) (hs : c.ownerSks = sks) :
    ∃ c', c.pcsKeyFromTreeRoot = .ok (c', k) := by
  obtain ⟨sks', k', h1, h2⟩ := strong_decrypt hst hr hp hl
  have := root_unique h2 hk
  subst this
  unfold Cgka.pcsKeyFromTreeRoot
  rw [ht, hs]
  cases hd : t.decryptTreeSecret c.ownerId sks with
  | ok p =>
    obtain ⟨sks2, k2⟩ := p
    have h3 := (BeeKem.decryptTreeSecret_true hT hp hd).2.1
    rw [hk] at h3
    simp only [Except.ok.injEq, NodeKey.share.injEq, Pk.mk.injEq] at h3
    rw [h3]
    exact ⟨_, rfl⟩
  | error e =>
    dsimp only
    obtain ⟨h, w, _⟩ := hst
    rw [if_neg (by simp [decryptTreeSecret_calm w.toWInv c.ownerId sks e hd]), if_pos]
    · rw [h1]; exact ⟨_, rfl⟩
    · constructor
      · intro ho; rw [ho, h1] at hd; cases hd
      · obtain ⟨pk, _, h3, _⟩ := hl
        unfold BeeKem.nodeKeyForId at h3
        cases hi : t.leafIndexForId MemberId.pub with
        | error e => rw [hi] at h3; simp [bind, Except.bind] at h3
        | ok i =>
          unfold BeeKem.leafIndexForId at hi
          unfold BeeKem.containsId
          cases hg : AMap.get t.idToLeafIdx MemberId.pub with
          | none => rw [hg] at hi; cases hi
          | some j => exact (AMap.contains_iff _ _).2 ((AMap.mem_keys_iff _ _).2 (by rw [hg]; simp))

end Verif.Cgka
