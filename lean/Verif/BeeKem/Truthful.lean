import Verif.BeeKem.Fit

/-! # Helper lemmas: the ciphertexts of a tree hold the secrets of the keys they stand beside -/

set_option linter.dupNamespace false

namespace Verif.BeeKem

open Verif.TreeMath

/-- Every ciphertext of the store holds the secret of the version's key. -/
def SecretStore.True (s : SecretStore) : Prop := ∀ v ∈ s.versions, ∀ q ∈ v.sk, v.pk = ⟨q.2.plain⟩

/-- The same for every store of a path change. -/
def PathChange.True (pc : PathChange) : Prop := ∀ q ∈ pc.path, q.2.True

/-- Each public key stands beside its own secret. -/
def Pure (m : ShareKeyMap) : Prop := ∀ p ∈ m, p.1 = ⟨p.2⟩

theorem Pure.get {m : ShareKeyMap} (h : Pure m) (pk : Pk) (sk : Sk) (hg : AMap.get m pk = some sk) : pk = ⟨sk⟩ :=
  h (pk, sk) (AMap.mem_of_get hg)

theorem Pure.insert {m : ShareKeyMap} (h : Pure m) (sk : Sk) : Pure (AMap.insert m ⟨sk⟩ sk) := by
  intro p hp
  rcases List.mem_cons.1 hp with rfl | hp
  · rfl
  · exact h p (List.mem_filter.1 hp).1

theorem Pure.extend {m other : ShareKeyMap} (hm : Pure m) (ho : Pure other) : Pure (ShareKeyMap.extend m other) := by
  unfold ShareKeyMap.extend
  induction other generalizing m with
  | nil => exact hm
  | cons p l ih =>
    refine ih ?_ (fun q hq => ho q (List.mem_cons_of_mem _ hq))
    obtain ⟨pk, sk⟩ := p
    have := ho (pk, sk) List.mem_cons_self
    simp only at this
    subst this
    exact hm.insert sk

theorem extend_get {m other : ShareKeyMap} {pk : Pk} (h : AMap.get m pk ≠ none) :
    AMap.get (ShareKeyMap.extend m other) pk ≠ none := by
  unfold ShareKeyMap.extend
  induction other generalizing m with
  | nil => exact h
  | cons p l ih =>
    refine ih ?_
    rw [AMap.get_insert]
    split <;> simp_all

namespace BeeKem

/-- The same for every inner node of a tree. -/
def Truthful (t : BeeKem) : Prop := ∀ s, some s ∈ t.innerNodes → s.True

/-- No new inner nodes. -/
def Fewer (t t' : BeeKem) : Prop := ∀ s, some s ∈ t'.innerNodes → some s ∈ t.innerNodes

theorem Fewer.refl (t : BeeKem) : Fewer t t := fun _ h => h

theorem Fewer.trans {a b c : BeeKem} (h : Fewer a b) (h' : Fewer b c) : Fewer a c := fun s hs => h s (h' s hs)

theorem Truthful.fewer {t t' : BeeKem} (h : Truthful t) (hf : Fewer t t') : Truthful t' := fun s hs => h s (hf s hs)

theorem blankInnerNode_fewer {t t' : BeeKem} {i : Nat} (h : t.blankInnerNode i = .ok t') : Fewer t t' := by
  unfold blankInnerNode at h
  split at h
  · cases h
    intro s hs
    rcases List.mem_or_eq_of_mem_set hs with h1 | h1
    · exact h1
    · simp at h1
  · simp at h

theorem blankPathLoop_fewer {fuel : Nat} {t t' : BeeKem} {i : Nat} (h : blankPathLoop fuel t i = .ok t') :
    Fewer t t' := by
  induction fuel generalizing t i with
  | zero => simp [blankPathLoop] at h
  | succ fuel ih =>
    unfold blankPathLoop at h
    split at h
    · exact blankInnerNode_fewer h
    · simp only [bind, Except.bind] at h
      split at h
      · simp at h
      · rename_i t1 h1
        exact (blankInnerNode_fewer h1).trans (ih h)

theorem blankPath_fewer {t t' : BeeKem} {i : Nat} (h : t.blankPath i = .ok t') : Fewer t t' := blankPathLoop_fewer h

theorem blankLeafAndPath_fewer {t t' : BeeKem} {i : Nat} (h : t.blankLeafAndPath i = .ok t') : Fewer t t' := by
  unfold blankLeafAndPath at h
  simp only [bind, Except.bind] at h
  split at h
  · simp at h
  · rename_i t1 h1
    unfold blankLeaf at h1
    split at h1
    · cases h1
      exact fun s hs => blankPath_fewer h s hs
    · simp at h1

theorem dropTombstones_fewer {fuel : Nat} {t t' : BeeKem} (h : dropTombstones fuel t = .ok t') : Fewer t t' := by
  induction fuel generalizing t with
  | zero => simp [dropTombstones] at h
  | succ fuel ih =>
    unfold dropTombstones at h
    split at h
    · simp at h
    · simp only [bind, Except.bind] at h
      split at h
      · simp at h
      · split at h
        · cases h; exact Fewer.refl _
        · split at h
          · simp at h
          · rename_i t1 h1
            exact fun s hs => blankPath_fewer h1 s (ih h s hs)

theorem removeId_fewer {t t' : BeeKem} {id : MemberId} {x : Nat × List Pk} (h : t.removeId id = .ok (t', x)) :
    Fewer t t' := by
  unfold removeId at h
  split at h
  · simp at h
  · simp only [bind, Except.bind] at h
    split at h
    · simp at h
    · split at h
      · simp at h
      · split at h
        · simp at h
        · split at h
          · simp at h
          · rename_i t1 h1
            split at h
            · simp at h
            · rename_i t3 h3
              cases h
              exact fun s hs => blankLeafAndPath_fewer h1 s (dropTombstones_fewer h3 s hs)

theorem maybeGrow_fewer (t : BeeKem) (n : Nat) : Fewer t (t.maybeGrowTree n) := by
  unfold maybeGrowTree
  split
  · exact Fewer.refl _
  · intro s hs
    simp only [growTreeToSize, resizeNone, List.mem_append, List.mem_replicate] at hs
    rcases hs with h1 | h1
    · exact List.mem_of_mem_take h1
    · simp at h1

theorem insertLeafAt_fewer {t t' : BeeKem} {i : Nat} {id : MemberId} {k : NodeKey}
    (h : t.insertLeafAt i id k = .ok t') : Fewer t t' := by
  unfold insertLeafAt at h
  split at h
  · cases h; exact fun _ h => h
  · simp at h

theorem pushLeaf_fewer {t t' : BeeKem} {id : MemberId} {pk : NodeKey} {i : Nat}
    (h : t.pushLeaf id pk = .ok (t', i)) : Fewer t t' := by
  unfold pushLeaf at h
  simp only [bind, Except.bind] at h
  split at h
  · simp at h
  · rename_i t3 h3
    split at h
    · simp at h
    · rename_i t5 h5
      cases h
      have a1 := maybeGrow_fewer t t.nextLeafIdx
      have a2 := insertLeafAt_fewer h3
      have a3 := blankPath_fewer h5
      exact fun s hs => a1 s (a2 s (a3 s hs))

theorem new_fewer {id : MemberId} {pk : Pk} {t : BeeKem} (h : BeeKem.new id pk = .ok t) (s : SecretStore) :
    some s ∉ t.innerNodes := by
  unfold BeeKem.new at h
  simp only [bind, Except.bind] at h
  split at h
  · simp at h
  · rename_i p h1
    obtain ⟨t1, i⟩ := p
    cases h
    intro hs
    have := pushLeaf_fewer h1 s hs
    simp [growTreeToSize, resizeNone, List.mem_replicate] at this

theorem new_truthful {id : MemberId} {pk : Pk} {t : BeeKem} (h : BeeKem.new id pk = .ok t) : Truthful t :=
  fun s hs => absurd hs (new_fewer h s)

theorem blankRemoved_fewer {l : List (MemberId × Nat)} {t t' : BeeKem} (h : t.blankRemoved l = .ok t') : Fewer t t' := by
  induction l generalizing t with
  | nil => cases h; exact Fewer.refl _
  | cons p l ih =>
    obtain ⟨id, i⟩ := p
    unfold blankRemoved at h
    simp only [bind, Except.bind] at h
    split at h
    · simp at h
    · rename_i t1 h1
      exact (blankLeafAndPath_fewer h1).trans (ih h)

theorem popLeaves_fewer {fuel : Nat} {t t' : BeeKem} {a : List MemberId} {acc ls : List LeafNode}
    (h : popLeaves fuel t a acc = .ok (t', ls)) : Fewer t t' := by
  induction fuel generalizing t a acc with
  | zero => cases h; exact Fewer.refl _
  | succ fuel ih =>
    unfold popLeaves at h
    split at h
    · cases h; exact Fewer.refl _
    · simp only [bind, Except.bind] at h
      split at h
      · simp at h
      · split at h
        · simp at h
        · rename_i t1 h1
          exact fun s hs => blankLeafAndPath_fewer h1 s (ih h s hs)

theorem pushAll_fewer {ls : List LeafNode} {t t' : BeeKem} (h : pushAll t ls = .ok t') : Fewer t t' := by
  induction ls generalizing t with
  | nil => cases h; exact Fewer.refl _
  | cons l ls ih =>
    unfold pushAll at h
    simp only [bind, Except.bind] at h
    split at h
    · simp at h
    · rename_i p h1
      obtain ⟨t1, i⟩ := p
      exact (pushLeaf_fewer h1).trans (ih h)

theorem sortLeaves_fewer {t t' : BeeKem} {a : List MemberId} {r : List (MemberId × Nat)}
    (h : t.sortLeavesAndBlankPaths a r = .ok t') : Fewer t t' := by
  unfold sortLeavesAndBlankPaths at h
  simp only [bind, Except.bind] at h
  split at h
  · simp at h
  · rename_i t1 h1
    split at h
    · simp at h
    · rename_i p h2
      obtain ⟨t2, ls⟩ := p
      exact ((blankRemoved_fewer h1).trans (popLeaves_fewer h2)).trans (pushAll_fewer h)

/-! ## Key updates -/

theorem insertInner_truthful {t t' : BeeKem} {i : Nat} {s : SecretStore} (ht : Truthful t) (hs : s.True)
    (h : t.insertInnerNodeAt i s = .ok t') : Truthful t' := by
  unfold insertInnerNodeAt at h
  split at h
  · cases h
    intro s' hs'
    rcases List.mem_or_eq_of_mem_set hs' with h1 | h1
    · exact ht s' h1
    · simp only [Option.some.injEq] at h1
      rw [h1]; exact hs
  · simp at h

theorem merge_true {a b : SecretStore} {r : List Pk} (ha : a.True) (hb : b.True) : (a.merge b r).True := by
  intro v hv
  simp only [SecretStore.merge, SecretStore.removeKeysFrom, List.mem_append, List.mem_filter] at hv
  rcases hv with hv | hv
  · exact ha v hv.1
  · exact hb v hv

theorem applyPathLoop_truthful {removed : List Pk} {ps : List (Nat × SecretStore)} {t t' : BeeKem}
    (ht : Truthful t) (hp : ∀ q ∈ ps, q.2.True) (h : applyPathLoop removed t ps = .ok t') : Truthful t' := by
  induction ps generalizing t with
  | nil => cases h; exact ht
  | cons p ps ih =>
    obtain ⟨i, nd⟩ := p
    unfold applyPathLoop at h
    simp only [bind, Except.bind] at h
    split at h
    · simp at h
    · rename_i t1 h1
      refine ih ?_ (fun q hq => hp q (List.mem_cons_of_mem _ hq)) h
      have hnd : nd.True := hp (i, nd) List.mem_cons_self
      split at h1
      · simp at h1
      · rename_i o ho
        unfold innerNode at ho
        split at ho
        · simp at ho
        · rename_i n hn
          cases ho
          split at h1
          · exact insertInner_truthful ht (merge_true (ht _ (List.mem_of_getElem? hn)) hnd) h1
          · exact insertInner_truthful ht hnd h1

theorem applyPath_truthful {t t' : BeeKem} {pc : PathChange} (ht : Truthful t) (hp : pc.True)
    (h : t.applyPath pc = .ok t') : Truthful t' := by
  unfold applyPath at h
  split at h
  · simp only [bind, Except.bind] at h
    split at h
    · simp at h
    · split at h
      · simp at h
      · split at h
        · simp at h
        · split at h
          · simp at h
          · split at h
            · simp at h
            · split at h
              · simp at h
              · rename_i t1 h1
                have ht1 := ht.fewer (insertLeafAt_fewer h1)
                split at h
                · exact applyPathLoop_truthful ht1 hp h
                · exact ht1.fewer (blankPath_fewer h)
  · cases h; exact ht

theorem encryptForResolution_true {t : BeeKem} {ci : TreeNodeIndex} {cs ps : Sk} (l : List TreeNodeIndex) :
    ∀ (used : Bool) (m m' : AMap TreeNodeIndex EncryptedSecret), (∀ q ∈ m, q.2.plain = ps) →
      t.encryptForResolution ci cs ps l used m = .ok m' → ∀ q ∈ m', q.2.plain = ps := by
  induction l with
  | nil => intro used m m' hm h; cases h; exact hm
  | cons i l ih =>
    intro used m m' hm h
    unfold encryptForResolution at h
    simp only [bind, Except.bind] at h
    split at h
    · simp at h
    · split at h
      · simp at h
      · have hins : ∀ (m : AMap TreeNodeIndex EncryptedSecret) (i : TreeNodeIndex) (pk : Pk),
            (∀ q ∈ m, q.2.plain = ps) → ∀ q ∈ AMap.insert m i (encryptSecret ps cs pk), q.2.plain = ps := by
          intro m i pk hm q hq
          rcases List.mem_cons.1 hq with rfl | hq
          · rfl
          · exact hm q (List.mem_filter.1 hq).1
        refine ih _ _ _ ?_ h
        apply hins
        split
        · exact hm
        · exact hins _ _ _ hm

theorem newStore_true {t : BeeKem} {g : Gen} {c c' : Nat} {ci : TreeNodeIndex} {cpk : Pk} {cs ps : Sk} {s : SecretStore}
    (h : t.encryptNewSecretStoreForParent g c ci cpk cs (shareKey ps) ps = .ok (s, c')) : s.True := by
  unfold encryptNewSecretStoreForParent at h
  simp only [bind, Except.bind] at h
  split at h
  · simp at h
  · split at h
    · cases h
      intro v hv q hq
      simp only [SecretStore.new, List.mem_singleton] at hv
      subst hv
      simp only [AMap.insert, AMap.erase, List.filter_nil, List.mem_singleton] at hq
      subst hq
      rfl
    · split at h
      · simp at h
      · rename_i m hm
        cases h
        intro v hv q hq
        simp only [SecretStore.new, List.mem_singleton] at hv
        subst hv
        rw [encryptForResolution_true _ _ _ _ (by simp) hm q hq]
        rfl

theorem encryptLoop_true {g : Gen} {fuel : Nat} {s s' : EncState} (hp : ∀ q ∈ s.path, q.2.True)
    (hk : Pure s.sks) (h : encryptLoop g fuel s = .ok s') :
    (∀ q ∈ s'.path, q.2.True) ∧ Pure s'.sks := by
  induction fuel generalizing s with
  | zero => simp [encryptLoop] at h
  | succ fuel ih =>
    unfold encryptLoop at h
    split at h
    · cases h; exact ⟨hp, hk⟩
    · simp only [bind, Except.bind] at h
      split at h
      · simp at h
      · rename_i s1 h1
        unfold encryptStep at h1
        simp only [bind, Except.bind] at h1
        split at h1
        · simp at h1
        · split at h1
          · simp at h1
          · rename_i p hst
            obtain ⟨st, rng⟩ := p
            split at h1
            · simp at h1
            · cases h1
              refine ih ?_ (hk.insert _) h
              intro q hq
              rcases List.mem_append.1 hq with hq | hq
              · exact hp q hq
              · simp only [List.mem_singleton] at hq
                subst hq
                exact newStore_true hst

theorem encryptPath_true {t t' : BeeKem} {g : Gen} {c n : Nat} {id : MemberId} {pk : Pk} {sks sks' : ShareKeyMap}
    {k : Sk} {pc : PathChange} (hk : Pure sks) (h : t.encryptPath g c id pk sks = .ok (t', sks', n, k, pc)) :
    pc.True ∧ Pure sks' := by
  unfold encryptPath at h
  simp only [bind, Except.bind] at h
  split at h
  · simp at h
  · split at h
    · simp at h
    · split at h
      · simp at h
      · split at h
        · simp at h
        · split at h
          · simp at h
          · rename_i s hs
            cases h
            exact encryptLoop_true (by simp) hk hs

/-! ## Decryption -/

theorem decrypt_true {s : SecretStore} {ck : NodeKey} {sks : ShareKeyMap} {seen : List TreeNodeIndex} {x : Sk}
    (hs : s.True) (h : s.decryptSecret ck sks seen = .ok x) : s.nodeKey = .ok (.share ⟨x⟩) := by
  unfold SecretStore.decryptSecret at h
  split at h
  · simp at h
  · rename_i hc
    split at h
    · simp at h
    · rename_i v vs hv
      have hvs : vs = [] := by
        simp only [SecretStore.hasConflict, hv, List.length_cons, decide_eq_true_eq] at hc
        cases vs with
        | nil => rfl
        | cons a b => simp at hc
      subst hvs
      have key : ∃ i e, AMap.get v.sk i = some e ∧ x = e.plain := by
        unfold SecretStoreVersion.decryptSecret at h
        have td : ∀ k e, tryDecrypt k e = .ok x → x = e.plain := by
          intro k e he
          unfold tryDecrypt at he
          split at he
          · cases he; rfl
          · simp at he
        split at h
        · simp at h
        · rename_i i _
          split at h
          · simp at h
          · rename_i e he
            refine ⟨i, e, he, ?_⟩
            split at h
            · split at h
              · simp at h
              · exact td _ _ h
            · unfold tryDecryptEncryption at h
              split at h
              · simp at h
              · exact td _ _ h
      obtain ⟨i, e, he, rfl⟩ := key
      have := hs v (by rw [hv]; simp) (i, e) (AMap.mem_of_get he)
      simp [SecretStore.nodeKey, hv, NodeKey.ofSlice, this]

/-- What the loop knows: honest keys, and the last secret found is that of the node reached. -/
def LoopTrue (t : BeeKem) (s : DecState) : Prop :=
  Pure s.sks ∧ ∀ x, s.last = some x → t.nodeKeyForIndex s.childIdx = .ok (.share ⟨x⟩)

theorem maybeDecrypt_true {t : BeeKem} {ci : TreeNodeIndex} {ck : NodeKey} {seen : List TreeNodeIndex}
    {sks sks' : ShareKeyMap} {r : Option Sk} (ht : Truthful t) (hk : Pure sks)
    (h : t.maybeDecryptParentKey ci ck seen sks = .ok (sks', r)) :
    Pure sks' ∧ (∀ x, r = some x → t.nodeKeyForIndex (.inner (parent ci)) = .ok (.share ⟨x⟩)) ∧
    ∀ pk, AMap.get sks pk ≠ none → AMap.get sks' pk ≠ none := by
  unfold maybeDecryptParentKey at h
  simp only [bind, Except.bind] at h
  split at h
  · simp at h
  · rename_i o ho
    split at h
    · cases h; exact ⟨hk, by simp, fun _ h => h⟩
    · rename_i p
      have hin : some p ∈ t.innerNodes := by
        unfold innerNode at ho
        split at ho
        · simp at ho
        · rename_i n hn
          cases ho
          exact List.mem_of_getElem? hn
      have hidx : t.nodeKeyForIndex (.inner (parent ci)) = p.nodeKey := by
        simp [nodeKeyForIndex, ho, bind, Except.bind]
      split at h
      · simp at h
      · split at h
        · cases h; exact ⟨hk, by simp, fun _ h => h⟩
        · rename_i ppk hnk
          split at h
          · rename_i sk hsk
            cases h
            refine ⟨hk, ?_, fun _ h => h⟩
            intro x hx
            cases hx
            rw [hidx, hnk, hk.get _ _ hsk]
          · split at h
            · simp at h
            · rename_i sec hsec
              cases h
              have hx := decrypt_true (ht p hin) hsec
              have : ppk = ⟨sec⟩ := by rw [hnk] at hx; simpa using hx
              subst this
              refine ⟨hk.insert _, ?_, ?_⟩
              · intro x hx'
                cases hx'
                rw [hidx, hnk]
              · intro pk hpk
                rw [AMap.get_insert]
                split <;> simp_all

theorem decryptLoop_true {t : BeeKem} (ht : Truthful t) {fuel : Nat} {s s' : DecState} (hs : LoopTrue t s)
    (h : t.decryptLoop fuel s = .ok s') : LoopTrue t s' ∧ t.isRoot s'.childIdx = true ∧
    ∀ pk, AMap.get s.sks pk ≠ none → AMap.get s'.sks pk ≠ none := by
  induction fuel generalizing s with
  | zero => simp [decryptLoop] at h
  | succ fuel ih =>
    unfold decryptLoop at h
    split at h
    · rename_i hr
      cases h; exact ⟨hs, hr, fun _ h => h⟩
    · simp only [bind, Except.bind] at h
      split at h
      · simp at h
      · rename_i s1 h1
        unfold decryptStep at h1
        simp only [bind, Except.bind] at h1
        split at h1
        · simp at h1
        · split at h1
          · simp at h1
          · rename_i p hm
            obtain ⟨sks', r⟩ := p
            obtain ⟨m1, m2, m3⟩ := maybeDecrypt_true ht hs.1 hm
            split at h1
            · simp at h1
            · rename_i sk hr
              split at h1
              · simp at h1
              · cases h1
                have hr' : r = some sk := hr
                obtain ⟨a1, a2, a3⟩ := ih (s := { sks := sks', childIdx := _, childKey := _, seen := _, last := r }) ⟨m1, fun x hx => m2 x hx⟩ h
                exact ⟨a1, a2, fun pk hpk => a3 pk (m3 pk hpk)⟩

/-- Whatever the tree went through: a member with honest keys who obtains a root secret obtains the secret of the
root's key. -/
theorem decryptTreeSecret_true {t : BeeKem} (ht : Truthful t) {id : MemberId} {sks sks' : ShareKeyMap} {r : Sk}
    (hk : Pure sks) (h : t.decryptTreeSecret id sks = .ok (sks', r)) :
    Pure sks' ∧ t.nodeKeyForIndex (root t.treeSize) = .ok (.share ⟨r⟩) ∧
    ∀ pk, AMap.get sks pk ≠ none → AMap.get sks' pk ≠ none := by
  have hloop : ∃ i l s', t.decryptLoop (t.treeSize + 1) { sks, childIdx := .leaf i, childKey := l, seen := [.leaf i], last := none } = .ok s' ∧
      s'.last = some r ∧ s'.sks = sks' := by
    unfold decryptTreeSecret at h
    simp only [bind, Except.bind, pure, Except.pure] at h
    split at h
    · split at h
      · simp at h
      · split at h
        · simp at h
        · split at h
          · simp at h
          · split at h
            · simp at h
            · rename_i l _
              split at h
              · simp at h
              · rename_i s' hs'
                split at h
                · simp at h
                · rename_i sk hlast
                  cases h
                  exact ⟨_, l.pk, s', hs', hlast, rfl⟩
    · split at h
      · simp at h
      · split at h
        · simp at h
        · split at h
          · simp at h
          · split at h
            · simp at h
            · split at h
              · simp at h
              · rename_i l _
                split at h
                · simp at h
                · rename_i s' hs'
                  split at h
                  · simp at h
                  · rename_i sk hlast
                    cases h
                    exact ⟨_, l.pk, s', hs', hlast, rfl⟩
    · simp at h
  obtain ⟨i, l, s', hs', hlast, rfl⟩ := hloop
  obtain ⟨a1, a2, a3⟩ := decryptLoop_true ht (s := { sks, childIdx := .leaf i, childKey := l, seen := [.leaf i], last := none })
    ⟨hk, by simp⟩ hs'
  refine ⟨a1.1, ?_, a3⟩
  have := a1.2 _ hlast
  simp only [isRoot, decide_eq_true_eq] at a2
  rw [a2] at this
  exact this

end BeeKem

end Verif.BeeKem
