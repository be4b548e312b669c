import Verif.Cgka.Model
import Verif.BeeKem.Decrypt

/-! # Helper lemmas: trying to open a well kept tree fails at most with an error, never with a panic -/

namespace Verif.Cgka

open Verif.BeeKem Verif.TreeMath

/-- If it fails, then with an error a caller can handle. -/
def Calm {α : Type} (r : Res α) : Prop := ∀ e, r = .error e → fatal e = false

theorem Calm.ok {α : Type} (a : α) : Calm (.ok a : Res α) := by intro e h; simp at h

theorem Calm.err {α : Type} {e : CgkaError} (h : fatal e = false) : Calm (.error e : Res α) := by
  intro e' he
  cases he; exact h

theorem tryDecrypt_calm (k : SymKey) (e : EncryptedSecret) : Calm (tryDecrypt k e) := by
  unfold tryDecrypt
  split
  · exact .ok _
  · exact .err rfl

theorem version_calm (v : SecretStoreVersion) (ck : NodeKey) (sks : ShareKeyMap) (seen : List TreeNodeIndex) :
    Calm (v.decryptSecret ck sks seen) := by
  unfold SecretStoreVersion.decryptSecret
  split
  · exact .err rfl
  · split
    · exact .err rfl
    · split
      · split
        · exact .err rfl
        · exact tryDecrypt_calm _ _
      · unfold tryDecryptEncryption
        split
        · exact .err rfl
        · exact tryDecrypt_calm _ _

theorem decryptStep_calm {t : BeeKem} {h i k : Nat} (w : BeeKem.WInv t h) (hi : i < 2 ^ h) (hroot : t.skipD h 0 = false)
    (hk : k < h) {s : BeeKem.DecState} (hidx : s.childIdx = BeeKem.nd k (i / 2 ^ k)) :
    Calm (t.decryptStep s) ∧ ∀ s', t.decryptStep s = .ok s' →
      ∃ p, k ≤ p ∧ p < h ∧ s'.childIdx = BeeKem.nd (p + 1) (i / 2 ^ (p + 1)) ∧ s'.last ≠ none := by
  obtain ⟨p, hkp, hph, hloop, hskp, _⟩ :=
    BeeKem.skipLoop_ok w.shape hi hroot (t.treeSize + 1) k hk (by have := BeeKem.size_gt w.shape; omega)
  have hpar : parent (BeeKem.nd p (i / 2 ^ p)) = nodeInner p (i / 2 ^ (p + 1)) := by
    rw [BeeKem.parent_nd, ← BeeKem.div_pow_succ]
  have hpin := BeeKem.inR_inner.1 (BeeKem.inR_anc hi hph)
  obtain ⟨st, hst, v, hv⟩ : ∃ st, t.innerD (nodeInner p (i / 2 ^ (p + 1))) = some st ∧ ∃ v, st.versions = [v] := by
    cases hx : t.innerD (nodeInner p (i / 2 ^ (p + 1))) with
    | none => simp [BeeKem.skipD, hx] at hskp
    | some st =>
      refine ⟨st, rfl, ?_⟩
      simp only [BeeKem.skipD, hx, SecretStore.hasConflict, decide_eq_false_iff_not] at hskp
      have := w.vers _ _ hx
      cases hv : st.versions with
      | nil => exact absurd hv this
      | cons v l =>
        cases l with
        | nil => exact ⟨v, rfl⟩
        | cons a l => rw [hv] at hskp; simp at hskp
  have hnk : st.nodeKey = .ok (.share v.pk) := by simp [SecretStore.nodeKey, NodeKey.ofSlice, hv]
  have hnki : t.nodeKeyForIndex (.inner (nodeInner p (i / 2 ^ (p + 1)))) = .ok (.share v.pk) := by
    simp [BeeKem.nodeKeyForIndex, BeeKem.innerNode_ok w.shape hpin, hst, bind, Except.bind, hnk]
  have hm : (∃ m sk, t.maybeDecryptParentKey (BeeKem.nd p (i / 2 ^ p)) s.childKey s.seen s.sks = .ok (m, some sk)) ∨
      ∃ e, t.maybeDecryptParentKey (BeeKem.nd p (i / 2 ^ p)) s.childKey s.seen s.sks = .error e ∧ fatal e = false := by
    unfold BeeKem.maybeDecryptParentKey
    rw [hpar, BeeKem.innerNode_ok w.shape hpin, hst]
    simp only [bind, Except.bind, hnk]
    cases hgs : AMap.get s.sks v.pk with
    | some x => exact .inl ⟨_, _, rfl⟩
    | none =>
      have hd : Calm (st.decryptSecret s.childKey s.sks s.seen) := by
        unfold SecretStore.decryptSecret
        rw [if_neg (by simp [SecretStore.hasConflict, hv]), hv]
        exact version_calm _ _ _ _
      cases hq : st.decryptSecret s.childKey s.sks s.seen with
      | ok q => exact .inl ⟨_, _, rfl⟩
      | error e => exact .inr ⟨e, rfl, hd e hq⟩
  unfold BeeKem.decryptStep
  rw [hidx, hloop]
  simp only [bind, Except.bind]
  rcases hm with ⟨m, sk, hm⟩ | ⟨e, hm, he⟩
  · rw [hm]
    simp only [hpar, hnki]
    refine ⟨.ok _, ?_⟩
    intro s' hs'
    cases hs'
    exact ⟨p, hkp, hph, rfl, by simp⟩
  · rw [hm]
    exact ⟨.err he, by intro s' hs'; simp at hs'⟩

theorem decryptLoop_calm {t : BeeKem} {h i : Nat} (w : BeeKem.WInv t h) (hi : i < 2 ^ h) (hroot : t.skipD h 0 = false)
    (fuel : Nat) : ∀ k (s : BeeKem.DecState), k ≤ h → s.childIdx = BeeKem.nd k (i / 2 ^ k) → h - k < fuel →
    Calm (t.decryptLoop fuel s) := by
  induction fuel with
  | zero => intro k s hk hidx hf; omega
  | succ fuel ih =>
    intro k s hk hidx hf
    unfold BeeKem.decryptLoop
    split
    · exact .ok _
    · rename_i hnr
      have hkh : k < h := by
        rcases Nat.lt_or_ge k h with h1 | h1
        · exact h1
        · have : k = h := by omega
          subst this
          refine absurd ?_ hnr
          rw [hidx, Nat.div_eq_of_lt hi]
          obtain ⟨k', rfl⟩ : ∃ k', k = k' + 1 := ⟨k - 1, by have := w.shape.pos; omega⟩
          change t.isRoot (.inner (nodeInner k' 0)) = true
          rw [BeeKem.isRoot_inner w.shape]
          simp
      obtain ⟨h1, h2⟩ := decryptStep_calm w hi hroot hkh hidx
      cases hs : t.decryptStep s with
      | error e => simp only [bind, Except.bind]; exact .err (h1 e hs)
      | ok s' =>
        obtain ⟨p, p1, p2, p3, _⟩ := h2 s' hs
        simp only [bind, Except.bind]
        exact ih (p + 1) s' (by omega) p3 (by omega)

/-- With any keys and on anybody's behalf, opening a well kept tree does not panic. -/
theorem decryptTreeSecret_calm {t : BeeKem} {h : Nat} (w : BeeKem.WInv t h) (id : MemberId) (sks : ShareKeyMap) :
    Calm (t.decryptTreeSecret id sks) := by
  have rest : ∀ i, (∃ x, AMap.get t.idToLeafIdx x = some i) → Calm (do
      if !(← t.hasRootKey) then .error .noRootKey
      else
        match ← t.leaf i with
        | none => .error (.panic "Leaf should not be blank")
        | some l => do
          let s ← t.decryptLoop (t.treeSize + 1)
            { sks, childIdx := .leaf i, childKey := l.pk, seen := [.leaf i], last := none }
          match s.last with
          | none => .error .noRootKey
          | some sk => pure (s.sks, sk) : Res (ShareKeyMap × Sk)) := by
    rintro i ⟨x, hx⟩
    obtain ⟨l, hl, _⟩ := w.ids x i hx
    have hi := w.lt hx
    simp only [bind, Except.bind, BeeKem.hasRootKey_ok w.shape, BeeKem.leaf_ok w.shape hi, hl]
    cases hroot : t.skipD h 0 with
    | true => exact .err rfl
    | false =>
      simp only [Bool.not_false, Bool.not_true, Bool.false_eq_true, if_false]
      have := decryptLoop_calm w hi hroot (t.treeSize + 1) 0
        { sks, childIdx := .leaf i, childKey := l.pk, seen := [.leaf i], last := none } (Nat.zero_le _)
        (by simp [BeeKem.nd]) (by have := BeeKem.size_gt w.shape; omega)
      cases hq : t.decryptLoop (t.treeSize + 1)
        { sks, childIdx := .leaf i, childKey := l.pk, seen := [.leaf i], last := none } with
      | error e => exact .err (this e hq)
      | ok s =>
        dsimp only
        split
        · exact .err rfl
        · exact .ok _
  unfold BeeKem.decryptTreeSecret
  cases hid : AMap.get t.idToLeafIdx id with
  | some i =>
    have := rest i ⟨id, hid⟩
    simp only [BeeKem.leafIndexForId, hid]
    exact this
  | none =>
    cases hp : AMap.get t.idToLeafIdx MemberId.pub with
    | some i =>
      have := rest i ⟨_, hp⟩
      simp only [BeeKem.leafIndexForId, hid, hp]
      exact this
    | none =>
      simp only [BeeKem.leafIndexForId, hid, hp, bind, Except.bind]
      exact .err rfl

theorem treeRoot_calm {c : Cgka} {h : Nat} (w : BeeKem.WInv c.tree h) : Calm c.pcsKeyFromTreeRoot := by
  unfold Cgka.pcsKeyFromTreeRoot
  have h1 := decryptTreeSecret_calm w c.ownerId c.ownerSks
  have h2 := decryptTreeSecret_calm w MemberId.pub c.ownerSks
  split
  · exact .ok _
  · rename_i e he
    rw [if_neg (by simp [h1 e he])]
    split
    · cases hq : c.tree.decryptTreeSecret MemberId.pub c.ownerSks with
      | error e' => simp only [bind, Except.bind]; exact .err (h2 e' hq)
      | ok q => simp only [bind, Except.bind, pure, Except.pure]; exact .ok _
    · exact .err (h1 e he)

end Verif.Cgka
