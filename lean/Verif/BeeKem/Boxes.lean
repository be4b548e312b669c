import Verif.BeeKem.Keyed
import Verif.BeeKem.Fit

/-! # Helper lemmas: which ciphertexts a tree holds, and which secrets they open -/

set_option linter.dupNamespace false

namespace Verif.BeeKem

open Verif.TreeMath

/-- Every value in the map satisfies `D`. -/
def Secrets {α : Type} (D : Sk → Prop) (m : AMap α Sk) : Prop := ∀ p ∈ m, D p.2

theorem Secrets.get {α : Type} [DecidableEq α] {D : Sk → Prop} {m : AMap α Sk} (h : Secrets D m) {pk : α} {s : Sk}
    (hs : AMap.get m pk = some s) : D s := h _ (AMap.mem_of_get hs)

theorem Secrets.mono {α : Type} {D D' : Sk → Prop} {m : AMap α Sk} (h : Secrets D m) (hd : ∀ s, D s → D' s) : Secrets D' m :=
  fun p hp => hd _ (h p hp)

theorem Secrets.insert {α : Type} [DecidableEq α] {D : Sk → Prop} {m : AMap α Sk} (h : Secrets D m) {pk : α} {s : Sk} (hs : D s) :
    Secrets D (AMap.insert m pk s) := by
  intro q hq
  rcases List.mem_cons.1 hq with rfl | hq
  · exact hs
  · exact h q (List.mem_filter.1 hq).1

theorem Secrets.foldl {α : Type} [DecidableEq α] {D : Sk → Prop} (l : List (α × Sk)) {m : AMap α Sk} (hm : Secrets D m)
    (hl : ∀ p ∈ l, D p.2) : Secrets D (l.foldl (fun acc p => AMap.insert acc p.1 p.2) m) := by
  induction l generalizing m with
  | nil => exact hm
  | cons p l ih => exact ih (hm.insert (hl p List.mem_cons_self)) (fun q hq => hl q (List.mem_cons_of_mem _ hq))

/-- Whoever has one side of the key of a ciphertext in `P` has what is in it. -/
def Opens (P : EncryptedSecret → Prop) (D : Sk → Prop) : Prop :=
  ∀ e, P e → ∀ a b, D a → e.key = deriveSymmetricKey a b → D e.plain

namespace BeeKem

/-- Every ciphertext in the tree satisfies `P`. -/
def Boxes (P : EncryptedSecret → Prop) (t : BeeKem) : Prop :=
  ∀ s, some s ∈ t.innerNodes → ∀ v ∈ s.versions, ∀ p ∈ v.sk, P p.2

theorem Boxes.fewer {P : EncryptedSecret → Prop} {t t' : BeeKem} (h : Boxes P t) (hf : Fewer t t') : Boxes P t' :=
  fun s hs => h s (hf s hs)

theorem Boxes.mono {P P' : EncryptedSecret → Prop} {t : BeeKem} (h : Boxes P t) (hp : ∀ s, P s → P' s) : Boxes P' t :=
  fun s hs v hv p hq => hp _ (h s hs v hv p hq)

theorem insertInner_boxes {P : EncryptedSecret → Prop} {t t' : BeeKem} {i : Nat} {s : SecretStore} (ht : Boxes P t)
    (hs : ∀ v ∈ s.versions, ∀ p ∈ v.sk, P p.2) (h : t.insertInnerNodeAt i s = .ok t') : Boxes P t' := by
  unfold insertInnerNodeAt at h
  split at h
  · cases h
    intro s' hs'
    rcases List.mem_or_eq_of_mem_set hs' with h1 | h1
    · exact ht s' h1
    · simp only [Option.some.injEq] at h1
      rw [h1]; exact hs
  · simp at h

theorem applyPathLoop_boxes {P : EncryptedSecret → Prop} {removed : List Pk} {ps : List (Nat × SecretStore)} {t t' : BeeKem}
    (ht : Boxes P t) (hp : ∀ q ∈ ps, ∀ v ∈ q.2.versions, ∀ p ∈ v.sk, P p.2)
    (h : applyPathLoop removed t ps = .ok t') : Boxes P t' := by
  induction ps generalizing t with
  | nil => cases h; exact ht
  | cons p ps ih =>
    obtain ⟨i, nd⟩ := p
    unfold applyPathLoop at h
    simp only [bind, Except.bind] at h
    split at h
    · simp at h
    · rename_i t1 h1
      have hnd : ∀ v ∈ nd.versions, ∀ p ∈ v.sk, P p.2 := hp (i, nd) List.mem_cons_self
      split at h1
      · simp at h1
      · rename_i o ho
        unfold innerNode at ho
        split at ho
        · simp at ho
        · rename_i n hn
          cases ho
          split at h1
          · rename_i cur
            refine ih (insertInner_boxes ht ?_ h1) (fun q hq => hp q (List.mem_cons_of_mem _ hq)) h
            intro v hv
            simp only [SecretStore.merge, SecretStore.removeKeysFrom, List.mem_append, List.mem_filter] at hv
            rcases hv with hv | hv
            · exact ht cur (List.mem_of_getElem? hn) v hv.1
            · exact hnd v hv
          · exact ih (insertInner_boxes ht hnd h1) (fun q hq => hp q (List.mem_cons_of_mem _ hq)) h

theorem applyPath_boxes {P : EncryptedSecret → Prop} {t t' : BeeKem} {pc : PathChange} (ht : Boxes P t)
    (hp : ∀ e ∈ Spec.PathChange.ciphers pc, P e) (h : t.applyPath pc = .ok t') : Boxes P t' := by
  have hp : ∀ q ∈ pc.path, ∀ v ∈ q.2.versions, ∀ p ∈ v.sk, P p.2 := by
    intro q hq v hv p hpv
    refine hp _ ?_
    unfold Spec.PathChange.ciphers
    exact List.mem_flatMap.2 ⟨q, hq, List.mem_flatMap.2 ⟨v, hv, List.mem_map.2 ⟨p, hpv, rfl⟩⟩⟩
  unfold applyPath at h
  split at h
  · simp only [bind, Except.bind] at h
    split at h
    · simp at h
    · split at h
      · simp at h
      · split at h
        · simp at h
        · split at h
          · simp at h
          · split at h
            · simp at h
            · split at h
              · simp at h
              · rename_i t1 h1
                have ht1 := ht.fewer (insertLeafAt_fewer h1)
                split at h
                · exact applyPathLoop_boxes ht1 hp h
                · exact ht1.fewer (blankPath_fewer h)
  · cases h; exact ht

/-! ## Key updates -/

theorem newStore_plain {t : BeeKem} {g : Gen} {c c' : Nat} {ci : TreeNodeIndex} {cpk ppk : Pk} {cs ps : Sk} {s : SecretStore}
    (h : t.encryptNewSecretStoreForParent g c ci cpk cs ppk ps = .ok (s, c')) :
    c ≤ c' ∧ ∀ v ∈ s.versions, ∀ q ∈ v.sk, q.2.plain = ps := by
  unfold encryptNewSecretStoreForParent at h
  simp only [bind, Except.bind] at h
  split at h
  · simp at h
  · split at h
    · cases h
      refine ⟨Nat.le_succ _, ?_⟩
      intro v hv q hq
      simp only [SecretStore.new, List.mem_singleton] at hv
      subst hv
      simp only [AMap.insert, AMap.erase, List.filter_nil, List.mem_singleton] at hq
      subst hq
      rfl
    · split at h
      · simp at h
      · rename_i m hm
        cases h
        refine ⟨Nat.le_refl _, ?_⟩
        intro v hv q hq
        simp only [SecretStore.new, List.mem_singleton] at hv
        subst hv
        exact encryptForResolution_true _ _ _ _ (by simp) hm q hq

theorem encryptLoop_gains {D : Sk → Prop} {g : Gen} {fuel : Nat} {s s' : EncState} (hg : ∀ m, s.rng ≤ m → D (g m))
    (hk : Secrets D s.sks) (hc : D s.childSk)
    (h : encryptLoop g fuel s = .ok s') : Secrets D s'.sks ∧ D s'.childSk := by
  induction fuel generalizing s with
  | zero => simp [encryptLoop] at h
  | succ fuel ih =>
    unfold encryptLoop at h
    split at h
    · cases h; exact ⟨hk, hc⟩
    · simp only [bind, Except.bind] at h
      split at h
      · simp at h
      · rename_i s1 h1
        unfold encryptStep at h1
        simp only [bind, Except.bind] at h1
        split at h1
        · simp at h1
        · split at h1
          · simp at h1
          · rename_i p hst
            obtain ⟨st, rng⟩ := p
            split at h1
            · simp at h1
            · cases h1
              obtain ⟨e1, e2⟩ := newStore_plain hst
              have hnew : D (g s.rng) := hg _ (Nat.le_refl _)
              refine ih ?_ (hk.insert hnew) hnew h
              intro m hm
              exact hg m (Nat.le_trans (Nat.le_trans (Nat.le_succ _) e1) hm)

theorem encryptPath_gains {D : Sk → Prop} {t t' : BeeKem} {g : Gen} {c n : Nat} {id : MemberId} {pk : Pk} {sks sks' : ShareKeyMap}
    {k : Sk} {pc : PathChange} (hg : ∀ m, c ≤ m → D (g m)) (hk : Secrets D sks)
    (h : t.encryptPath g c id pk sks = .ok (t', sks', n, k, pc)) :
    Secrets D sks' ∧ D k := by
  unfold encryptPath at h
  simp only [bind, Except.bind] at h
  split at h
  · simp at h
  · split at h
    · simp at h
    · split at h
      · simp at h
      · split at h
        · simp at h
        · rename_i sk hsk
          split at h
          · simp at h
          · rename_i s hs
            cases h
            exact encryptLoop_gains (D := D) hg hk (hk.get hsk) hs

theorem encryptLoop_plain {D : Sk → Prop} {g : Gen} {fuel : Nat} {s s' : EncState} (hg : ∀ m, s.rng ≤ m → D (g m))
    (hp : ∀ q ∈ s.path, ∀ v ∈ q.2.versions, ∀ p ∈ v.sk, D p.2.plain)
    (h : encryptLoop g fuel s = .ok s') : ∀ q ∈ s'.path, ∀ v ∈ q.2.versions, ∀ p ∈ v.sk, D p.2.plain := by
  induction fuel generalizing s with
  | zero => simp [encryptLoop] at h
  | succ fuel ih =>
    unfold encryptLoop at h
    split at h
    · cases h; exact hp
    · simp only [bind, Except.bind] at h
      split at h
      · simp at h
      · rename_i s1 h1
        unfold encryptStep at h1
        simp only [bind, Except.bind] at h1
        split at h1
        · simp at h1
        · split at h1
          · simp at h1
          · rename_i p hst
            obtain ⟨st, rng⟩ := p
            split at h1
            · simp at h1
            · cases h1
              obtain ⟨e1, e2⟩ := newStore_plain hst
              refine ih ?_ ?_ h
              · intro m hm
                exact hg m (Nat.le_trans (Nat.le_trans (Nat.le_succ _) e1) hm)
              · intro q hq v hv p hpv
                rcases List.mem_append.1 hq with hq | hq
                · exact hp q hq v hv p hpv
                · simp only [List.mem_singleton] at hq
                  subst hq
                  rw [e2 v hv p hpv]
                  exact hg _ (Nat.le_refl _)

theorem encryptPath_plain {D : Sk → Prop} {t t' : BeeKem} {g : Gen} {c n : Nat} {id : MemberId} {pk : Pk} {sks sks' : ShareKeyMap}
    {k : Sk} {pc : PathChange} (hg : ∀ m, c ≤ m → D (g m))
    (h : t.encryptPath g c id pk sks = .ok (t', sks', n, k, pc)) : ∀ e ∈ Spec.PathChange.ciphers pc, D e.plain := by
  unfold encryptPath at h
  simp only [bind, Except.bind] at h
  split at h
  · simp at h
  · split at h
    · simp at h
    · split at h
      · simp at h
      · split at h
        · simp at h
        · rename_i sk hsk
          split at h
          · simp at h
          · rename_i s hs
            cases h
            have e := encryptLoop_plain (D := D) hg (by simp) hs
            intro x hx
            unfold Spec.PathChange.ciphers at hx
            simp only [List.mem_flatMap, List.mem_map] at hx
            obtain ⟨q, hq, v, hv, p, hp, rfl⟩ := hx
            exact e q hq v hv p hp

/-! ## Decryption -/

theorem decrypt_gains {D : Sk → Prop} {P : EncryptedSecret → Prop} (hop : Opens P D) {s : SecretStore} {ck : NodeKey} {sks : ShareKeyMap}
    {seen : List TreeNodeIndex} {x : Sk} (hs : ∀ v ∈ s.versions, ∀ p ∈ v.sk, P p.2) (hk : Secrets D sks)
    (h : s.decryptSecret ck sks seen = .ok x) : D x := by
  unfold SecretStore.decryptSecret at h
  split at h
  · simp at h
  · split at h
    · simp at h
    · rename_i v vs hv
      have hv' := hs v (by rw [hv]; exact List.mem_cons_self)
      have td : ∀ a b e, P e → D a → tryDecrypt (deriveSymmetricKey a b) e = .ok x → D x := by
        intro a b e he ha h
        unfold tryDecrypt at h
        split at h
        · rename_i hke
          cases h
          exact hop e he a b ha hke
        · simp at h
      unfold SecretStoreVersion.decryptSecret at h
      split at h
      · simp at h
      · split at h
        · simp at h
        · rename_i e he
          have hP : P e := hv' (_, e) (AMap.mem_of_get he)
          split at h
          · split at h
            · simp at h
            · rename_i sk hsk
              exact td _ _ _ hP (hk.get hsk) h
          · unfold tryDecryptEncryption at h
            split at h
            · simp at h
            · rename_i sk hsk
              exact td _ _ _ hP (hk.get hsk) h

theorem maybeDecrypt_gains {D : Sk → Prop} {P : EncryptedSecret → Prop} (hop : Opens P D) {t : BeeKem} {ci : TreeNodeIndex} {ck : NodeKey}
    {seen : List TreeNodeIndex} {sks sks' : ShareKeyMap} {r : Option Sk} (ht : Boxes P t) (hk : Secrets D sks)
    (h : t.maybeDecryptParentKey ci ck seen sks = .ok (sks', r)) : Secrets D sks' ∧ ∀ x, r = some x → D x := by
  unfold maybeDecryptParentKey at h
  simp only [bind, Except.bind] at h
  split at h
  · simp at h
  · rename_i o ho
    split at h
    · cases h; exact ⟨hk, by simp⟩
    · rename_i p
      have hin : some p ∈ t.innerNodes := by
        unfold innerNode at ho
        split at ho
        · simp at ho
        · rename_i n hn
          cases ho
          exact List.mem_of_getElem? hn
      split at h
      · simp at h
      · split at h
        · cases h; exact ⟨hk, by simp⟩
        · split at h
          · rename_i sk hsk
            cases h
            refine ⟨hk, ?_⟩
            intro x hx
            cases hx
            exact hk.get hsk
          · split at h
            · simp at h
            · rename_i sec hsec
              cases h
              have hx := decrypt_gains hop (ht p hin) hk hsec
              refine ⟨hk.insert hx, ?_⟩
              intro x hx'
              cases hx'
              exact hx

theorem decryptLoop_gains {D : Sk → Prop} {P : EncryptedSecret → Prop} (hop : Opens P D) {t : BeeKem} (ht : Boxes P t) {fuel : Nat}
    {s s' : DecState} (hk : Secrets D s.sks) (hl : ∀ x, s.last = some x → D x)
    (h : t.decryptLoop fuel s = .ok s') : Secrets D s'.sks ∧ ∀ x, s'.last = some x → D x := by
  induction fuel generalizing s with
  | zero => simp [decryptLoop] at h
  | succ fuel ih =>
    unfold decryptLoop at h
    split at h
    · cases h; exact ⟨hk, hl⟩
    · simp only [bind, Except.bind] at h
      split at h
      · simp at h
      · rename_i s1 h1
        unfold decryptStep at h1
        simp only [bind, Except.bind] at h1
        split at h1
        · simp at h1
        · split at h1
          · simp at h1
          · rename_i p hm
            obtain ⟨sks', r⟩ := p
            obtain ⟨m1, m2⟩ := maybeDecrypt_gains hop ht hk hm
            split at h1
            · simp at h1
            · split at h1
              · simp at h1
              · cases h1
                exact ih (s := { sks := sks', childIdx := _, childKey := _, seen := _, last := r }) m1 (fun x hx => m2 x hx) h

theorem decryptTreeSecret_gains {D : Sk → Prop} {P : EncryptedSecret → Prop} (hop : Opens P D) {t : BeeKem} (ht : Boxes P t)
    {id : MemberId} {sks sks' : ShareKeyMap} {r : Sk} (hk : Secrets D sks) (h : t.decryptTreeSecret id sks = .ok (sks', r)) :
    Secrets D sks' ∧ D r := by
  have fin : ∀ i l, (do
      let s ← t.decryptLoop (t.treeSize + 1) { sks, childIdx := .leaf i, childKey := l, seen := [.leaf i], last := none }
      match s.last with
      | none => .error .noRootKey
      | some sk => pure (s.sks, sk)) = (Except.ok (sks', r) : Res (ShareKeyMap × Sk)) → Secrets D sks' ∧ D r := by
    intro i l h
    simp only [bind, Except.bind] at h
    split at h
    · simp at h
    · rename_i s' hs'
      obtain ⟨a, b⟩ := decryptLoop_gains hop ht (s := { sks, childIdx := .leaf i, childKey := l, seen := [.leaf i], last := none }) hk
        (by simp) hs'
      split at h
      · simp at h
      · rename_i sk hlast
        cases h
        exact ⟨a, b _ hlast⟩
  unfold decryptTreeSecret at h
  simp only [bind, Except.bind, pure, Except.pure] at h fin
  split at h
  · split at h
    · simp at h
    · split at h
      · simp at h
      · split at h
        · simp at h
        · split at h
          · simp at h
          · exact fin _ _ h
  · split at h
    · simp at h
    · split at h
      · simp at h
      · split at h
        · simp at h
        · split at h
          · simp at h
          · split at h
            · simp at h
            · exact fin _ _ h
  · simp at h

end BeeKem

end Verif.BeeKem
