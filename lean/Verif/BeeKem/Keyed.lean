import Verif.BeeKem.Truthful

/-! # Helper lemmas: where the keys of a tree come from -/

set_option linter.dupNamespace false

namespace Verif.BeeKem

open Verif.TreeMath

theorem merge_mem {a b nk : NodeKey} {removed : List Pk} (h : a.merge b removed = .ok nk) {x : Pk} (hx : x ∈ nk.keys) :
    x ∈ a.keys ∨ x ∈ b.keys := by
  obtain ⟨nk', h1, h2⟩ := merge_keys a b removed
  rw [h1] at h
  cases h
  rcases List.mem_append.1 (h2.mem_iff.1 hx) with h3 | h3
  · exact .inr h3
  · exact .inl (List.mem_filter.1 h3).1

namespace BeeKem

/-- Every leaf key satisfies `P`. -/
def LeafKeys (P : Sk → Prop) (t : BeeKem) : Prop := ∀ l, some l ∈ t.leaves → ∀ k ∈ l.pk.keys, P k.of

/-- Every key of an inner node satisfies `Q`. -/
def NodeKeys (Q : Sk → Prop) (t : BeeKem) : Prop := ∀ s, some s ∈ t.innerNodes → ∀ v ∈ s.versions, Q v.pk.of

theorem NodeKeys.fewer {Q : Sk → Prop} {t t' : BeeKem} (h : NodeKeys Q t) (hf : Fewer t t') : NodeKeys Q t' :=
  fun s hs => h s (hf s hs)

theorem LeafKeys.mono {P P' : Sk → Prop} {t : BeeKem} (h : LeafKeys P t) (hp : ∀ s, P s → P' s) : LeafKeys P' t :=
  fun l hl k hk => hp _ (h l hl k hk)

theorem NodeKeys.mono {P P' : Sk → Prop} {t : BeeKem} (h : NodeKeys P t) (hp : ∀ s, P s → P' s) : NodeKeys P' t :=
  fun s hs v hv => hp _ (h s hs v hv)

/-- No new leaves. -/
def FewerLeaves (t t' : BeeKem) : Prop := ∀ l, some l ∈ t'.leaves → some l ∈ t.leaves

theorem FewerLeaves.refl (t : BeeKem) : FewerLeaves t t := fun _ h => h

theorem FewerLeaves.trans {a b c : BeeKem} (h : FewerLeaves a b) (h' : FewerLeaves b c) : FewerLeaves a c :=
  fun s hs => h s (h' s hs)

theorem LeafKeys.fewer {P : Sk → Prop} {t t' : BeeKem} (h : LeafKeys P t) (hf : FewerLeaves t t') : LeafKeys P t' :=
  fun s hs => h s (hf s hs)

theorem blankInnerNode_leaves {t t' : BeeKem} {i : Nat} (h : t.blankInnerNode i = .ok t') : t'.leaves = t.leaves := by
  unfold blankInnerNode at h
  split at h
  · cases h; rfl
  · simp at h

theorem blankPathLoop_leaves {fuel : Nat} {t t' : BeeKem} {i : Nat} (h : blankPathLoop fuel t i = .ok t') :
    t'.leaves = t.leaves := by
  induction fuel generalizing t i with
  | zero => simp [blankPathLoop] at h
  | succ fuel ih =>
    unfold blankPathLoop at h
    split at h
    · exact blankInnerNode_leaves h
    · simp only [bind, Except.bind] at h
      split at h
      · simp at h
      · rename_i t1 h1
        rw [ih h, blankInnerNode_leaves h1]

theorem blankPath_leaves {t t' : BeeKem} {i : Nat} (h : t.blankPath i = .ok t') : t'.leaves = t.leaves :=
  blankPathLoop_leaves h

theorem blankLeafAndPath_leaves {t t' : BeeKem} {i : Nat} (h : t.blankLeafAndPath i = .ok t') : FewerLeaves t t' := by
  unfold blankLeafAndPath at h
  simp only [bind, Except.bind] at h
  split at h
  · simp at h
  · rename_i t1 h1
    intro l hl
    rw [blankPath_leaves h] at hl
    unfold blankLeaf at h1
    split at h1
    · cases h1
      rcases List.mem_or_eq_of_mem_set hl with h2 | h2
      · exact h2
      · simp at h2
    · simp at h1

theorem dropTombstones_leaves {fuel : Nat} {t t' : BeeKem} (h : dropTombstones fuel t = .ok t') : t'.leaves = t.leaves := by
  induction fuel generalizing t with
  | zero => simp [dropTombstones] at h
  | succ fuel ih =>
    unfold dropTombstones at h
    split at h
    · simp at h
    · simp only [bind, Except.bind] at h
      split at h
      · simp at h
      · split at h
        · cases h; rfl
        · split at h
          · simp at h
          · rename_i t1 h1
            rw [ih h]
            exact (blankPath_leaves h1 : t1.leaves = t.leaves)

theorem removeId_leaves {t t' : BeeKem} {id : MemberId} {x : Nat × List Pk} (h : t.removeId id = .ok (t', x)) :
    FewerLeaves t t' := by
  unfold removeId at h
  split at h
  · simp at h
  · simp only [bind, Except.bind] at h
    split at h
    · simp at h
    · split at h
      · simp at h
      · split at h
        · simp at h
        · split at h
          · simp at h
          · rename_i t1 h1
            split at h
            · simp at h
            · rename_i t3 h3
              cases h
              intro l hl
              rw [dropTombstones_leaves h3] at hl
              exact blankLeafAndPath_leaves h1 l hl

theorem maybeGrow_leaves (t : BeeKem) (n : Nat) : FewerLeaves t (t.maybeGrowTree n) := by
  unfold maybeGrowTree
  split
  · exact FewerLeaves.refl _
  · intro s hs
    simp only [growTreeToSize, resizeNone, List.mem_append, List.mem_replicate] at hs
    rcases hs with h1 | h1
    · exact List.mem_of_mem_take h1
    · simp at h1

theorem insertLeafAt_keys {P : Sk → Prop} {t t' : BeeKem} {i : Nat} {id : MemberId} {k : NodeKey} (ht : LeafKeys P t)
    (hk : ∀ x ∈ k.keys, P x.of) (h : t.insertLeafAt i id k = .ok t') : LeafKeys P t' := by
  unfold insertLeafAt at h
  split at h
  · cases h
    intro l hl
    rcases List.mem_or_eq_of_mem_set hl with h2 | h2
    · exact ht l h2
    · simp only [Option.some.injEq] at h2
      rw [h2]; exact hk
  · simp at h

theorem pushLeaf_keys {P : Sk → Prop} {t t' : BeeKem} {id : MemberId} {pk : NodeKey} {i : Nat} (ht : LeafKeys P t)
    (hk : ∀ x ∈ pk.keys, P x.of) (h : t.pushLeaf id pk = .ok (t', i)) : LeafKeys P t' := by
  unfold pushLeaf at h
  simp only [bind, Except.bind] at h
  split at h
  · simp at h
  · rename_i t3 h3
    split at h
    · simp at h
    · rename_i t5 h5
      cases h
      intro l hl
      rw [blankPath_leaves h5] at hl
      have a1 : LeafKeys P (t.maybeGrowTree t.nextLeafIdx) := ht.fewer (maybeGrow_leaves t t.nextLeafIdx)
      refine insertLeafAt_keys ?_ hk h3 l hl
      exact fun l hl => a1 l hl

theorem new_keys {P : Sk → Prop} {id : MemberId} {pk : Pk} {t : BeeKem} (hp : P pk.of) (h : BeeKem.new id pk = .ok t) :
    LeafKeys P t := by
  unfold BeeKem.new at h
  simp only [bind, Except.bind] at h
  split at h
  · simp at h
  · rename_i p h1
    obtain ⟨t1, i⟩ := p
    cases h
    refine pushLeaf_keys ?_ (by intro x hx; simp only [NodeKey.keys, List.mem_singleton] at hx; rw [hx]; exact hp) h1
    intro l hl
    simp [growTreeToSize, resizeNone, List.mem_replicate] at hl

theorem blankRemoved_leaves {l : List (MemberId × Nat)} {t t' : BeeKem} (h : t.blankRemoved l = .ok t') :
    FewerLeaves t t' := by
  induction l generalizing t with
  | nil => cases h; exact FewerLeaves.refl _
  | cons p l ih =>
    obtain ⟨id, i⟩ := p
    unfold blankRemoved at h
    simp only [bind, Except.bind] at h
    split at h
    · simp at h
    · rename_i t1 h1
      exact (blankLeafAndPath_leaves h1).trans (ih h)

theorem popLeaves_keys {P : Sk → Prop} {fuel : Nat} {t t' : BeeKem} {a : List MemberId} {acc ls : List LeafNode}
    (ht : LeafKeys P t) (ha : ∀ l ∈ acc, ∀ k ∈ l.pk.keys, P k.of)
    (h : popLeaves fuel t a acc = .ok (t', ls)) : LeafKeys P t' ∧ ∀ l ∈ ls, ∀ k ∈ l.pk.keys, P k.of := by
  induction fuel generalizing t a acc with
  | zero => cases h; exact ⟨ht, ha⟩
  | succ fuel ih =>
    unfold popLeaves at h
    split at h
    · cases h; exact ⟨ht, ha⟩
    · simp only [bind, Except.bind] at h
      split at h
      · simp at h
      · rename_i p hp
        obtain ⟨a', acc'⟩ := p
        split at h
        · simp at h
        · rename_i t1 h1
          have hf := ht.fewer (blankLeafAndPath_leaves h1)
          refine ih ?_ ?_ h
          · exact fun l hl => hf l hl
          split at hp
          · simp at hp
          · rename_i o ho
            split at hp
            · rename_i l
              cases hp
              intro l' hl'
              rcases List.mem_append.1 hl' with h2 | h2
              · exact ha l' h2
              · simp only [List.mem_singleton] at h2
                subst h2
                unfold BeeKem.leaf at ho
                split at ho
                · simp at ho
                · rename_i n hn
                  cases ho
                  exact ht _ (List.mem_of_getElem? hn)
            · cases hp; exact ha

theorem pushAll_keys {P : Sk → Prop} {ls : List LeafNode} {t t' : BeeKem} (ht : LeafKeys P t)
    (hl : ∀ l ∈ ls, ∀ k ∈ l.pk.keys, P k.of) (h : pushAll t ls = .ok t') : LeafKeys P t' := by
  induction ls generalizing t with
  | nil => cases h; exact ht
  | cons l ls ih =>
    unfold pushAll at h
    simp only [bind, Except.bind] at h
    split at h
    · simp at h
    · rename_i p h1
      obtain ⟨t1, i⟩ := p
      exact ih (pushLeaf_keys ht (hl l List.mem_cons_self) h1) (fun l' hl' => hl l' (List.mem_cons_of_mem _ hl')) h

theorem sortLeaves_keys {P : Sk → Prop} {t t' : BeeKem} {a : List MemberId} {r : List (MemberId × Nat)}
    (ht : LeafKeys P t) (h : t.sortLeavesAndBlankPaths a r = .ok t') : LeafKeys P t' := by
  unfold sortLeavesAndBlankPaths at h
  simp only [bind, Except.bind] at h
  split at h
  · simp at h
  · rename_i t1 h1
    split at h
    · simp at h
    · rename_i p h2
      obtain ⟨t2, ls⟩ := p
      obtain ⟨a1, a2⟩ := popLeaves_keys (ht.fewer (blankRemoved_leaves h1)) (by simp) h2
      exact pushAll_keys a1 (fun l hl => a2 l (mem_isort.1 hl)) h

theorem insertInner_leaves {t t' : BeeKem} {i : Nat} {s : SecretStore} (h : t.insertInnerNodeAt i s = .ok t') :
    t'.leaves = t.leaves := by
  unfold insertInnerNodeAt at h
  split at h
  · cases h; rfl
  · simp at h

theorem insertInner_keys {Q : Sk → Prop} {t t' : BeeKem} {i : Nat} {s : SecretStore} (ht : NodeKeys Q t)
    (hs : ∀ v ∈ s.versions, Q v.pk.of) (h : t.insertInnerNodeAt i s = .ok t') : NodeKeys Q t' := by
  unfold insertInnerNodeAt at h
  split at h
  · cases h
    intro s' hs'
    rcases List.mem_or_eq_of_mem_set hs' with h1 | h1
    · exact ht s' h1
    · simp only [Option.some.injEq] at h1
      rw [h1]; exact hs
  · simp at h

theorem applyPathLoop_keys {P Q : Sk → Prop} {removed : List Pk} {ps : List (Nat × SecretStore)} {t t' : BeeKem}
    (hl : LeafKeys P t) (ht : NodeKeys Q t) (hp : ∀ q ∈ ps, ∀ v ∈ q.2.versions, Q v.pk.of)
    (h : applyPathLoop removed t ps = .ok t') : LeafKeys P t' ∧ NodeKeys Q t' := by
  induction ps generalizing t with
  | nil => cases h; exact ⟨hl, ht⟩
  | cons p ps ih =>
    obtain ⟨i, nd⟩ := p
    unfold applyPathLoop at h
    simp only [bind, Except.bind] at h
    split at h
    · simp at h
    · rename_i t1 h1
      have hnd : ∀ v ∈ nd.versions, Q v.pk.of := hp (i, nd) List.mem_cons_self
      split at h1
      · simp at h1
      · rename_i o ho
        unfold innerNode at ho
        split at ho
        · simp at ho
        · rename_i n hn
          cases ho
          split at h1
          · rename_i cur
            refine ih (fun l hq => hl l (by rw [insertInner_leaves h1] at hq; exact hq)) (insertInner_keys ht ?_ h1)
              (fun q hq => hp q (List.mem_cons_of_mem _ hq)) h
            intro v hv
            simp only [SecretStore.merge, SecretStore.removeKeysFrom, List.mem_append, List.mem_filter] at hv
            rcases hv with hv | hv
            · exact ht cur (List.mem_of_getElem? hn) v hv.1
            · exact hnd v hv
          · exact ih (fun l hq => hl l (by rw [insertInner_leaves h1] at hq; exact hq)) (insertInner_keys ht hnd h1)
              (fun q hq => hp q (List.mem_cons_of_mem _ hq)) h

theorem applyPath_keys {P Q : Sk → Prop} {t t' : BeeKem} {pc : PathChange} (hl : LeafKeys P t) (ht : NodeKeys Q t)
    (hk : ∀ k ∈ pc.leafPk.keys, P k.of) (hp : ∀ q ∈ pc.path, ∀ v ∈ q.2.versions, Q v.pk.of)
    (h : t.applyPath pc = .ok t') : LeafKeys P t' ∧ NodeKeys Q t' := by
  unfold applyPath at h
  split at h
  · simp only [bind, Except.bind] at h
    split at h
    · simp at h
    · split at h
      · simp at h
      · split at h
        · simp at h
        · rename_i o ho
          split at h
          · simp at h
          · rename_i l
            split at h
            · simp at h
            · rename_i nk hnk
              split at h
              · simp at h
              · rename_i t1 h1
                have hl1 : LeafKeys P t1 := by
                  refine insertLeafAt_keys hl ?_ h1
                  intro x hx
                  rcases merge_mem hnk hx with h2 | h2
                  · unfold BeeKem.leaf at ho
                    split at ho
                    · simp at ho
                    · rename_i n hn
                      cases ho
                      exact hl _ (List.mem_of_getElem? hn) x h2
                  · exact hk x h2
                have ht1 := ht.fewer (insertLeafAt_fewer h1)
                split at h
                · exact applyPathLoop_keys hl1 ht1 hp h
                · exact ⟨fun l hq => hl1 l (by rw [blankPath_leaves h] at hq; exact hq), ht1.fewer (blankPath_fewer h)⟩
  · cases h; exact ⟨hl, ht⟩

/-! ## Key updates -/

/-- The secrets of the keys on a path. -/
def pathSks (l : List (Nat × SecretStore)) : List Sk := l.flatMap (fun q => q.2.versions.map (·.pk.of))

/-- Every ciphertext of the version is sealed with a key pair of `A` on one side and one of `B`, or a key that only serves this
ciphertext, on the other. -/
def Sealed (A B : Sk → Prop) (v : SecretStoreVersion) : Prop :=
  ∀ q ∈ v.sk, ∃ a b, q.2.key = deriveSymmetricKey a ⟨b⟩ ∧ A a ∧ (B b ∨ v.sk = [q] ∧ q.2.pairedPk = ⟨b⟩)

theorem Sealed.mono {A A' B B' : Sk → Prop} {v : SecretStoreVersion} (h : Sealed A B v) (ha : ∀ s, A s → A' s)
    (hb : ∀ s, B s → B' s) : Sealed A' B' v := by
  intro q hq
  obtain ⟨a, b, h1, h2, h3⟩ := h q hq
  exact ⟨a, b, h1, ha _ h2, h3.imp_left (hb _)⟩

theorem nodeKey_mem {s : SecretStore} {k x : Pk} (h : s.nodeKey = .ok (.share k)) (hx : x = k) : ∃ v ∈ s.versions, v.pk = x := by
  subst hx
  unfold SecretStore.nodeKey at h
  cases hv : s.versions with
  | nil => rw [hv] at h; simp [NodeKey.ofSlice] at h
  | cons v l =>
    rw [hv] at h
    cases l with
    | nil =>
      simp only [List.map_cons, List.map_nil, NodeKey.ofSlice, Except.ok.injEq, NodeKey.share.injEq] at h
      exact ⟨v, by simp, h⟩
    | cons w l => simp [NodeKey.ofSlice] at h

theorem nodeKeyForIndex_keys {P : Sk → Prop} {t : BeeKem} (hl : LeafKeys P t) (hn : NodeKeys P t) {i : TreeNodeIndex} {k : Pk}
    (h : t.nodeKeyForIndex i = .ok (.share k)) : P k.of := by
  cases i with
  | leaf i =>
    simp only [nodeKeyForIndex, bind, Except.bind] at h
    split at h
    · simp at h
    · rename_i o ho
      split at h
      · simp at h
      · rename_i l
        unfold BeeKem.leaf at ho
        split at ho
        · simp at ho
        · rename_i n hn'
          cases ho
          simp only [Except.ok.injEq] at h
          exact hl l (List.mem_of_getElem? hn') k (by rw [h]; simp [NodeKey.keys])
  | inner i =>
    simp only [nodeKeyForIndex, bind, Except.bind] at h
    split at h
    · simp at h
    · rename_i o ho
      split at h
      · simp at h
      · rename_i s
        unfold innerNode at ho
        split at ho
        · simp at ho
        · rename_i n hn'
          cases ho
          obtain ⟨v, hv, rfl⟩ := nodeKey_mem h rfl
          exact hn s (List.mem_of_getElem? hn') v hv

theorem encryptForResolution_sealed {P : Sk → Prop} {t : BeeKem} (hl : LeafKeys P t) (hn : NodeKeys P t)
    {ci : TreeNodeIndex} {cs ps : Sk} (l : List TreeNodeIndex) :
    ∀ (used : Bool) (m m' : AMap TreeNodeIndex EncryptedSecret),
      (∀ q ∈ m, ∃ b, q.2.key = deriveSymmetricKey cs ⟨b⟩ ∧ P b) →
      t.encryptForResolution ci cs ps l used m = .ok m' → ∀ q ∈ m', ∃ b, q.2.key = deriveSymmetricKey cs ⟨b⟩ ∧ P b := by
  induction l with
  | nil => intro used m m' hm h; cases h; exact hm
  | cons i l ih =>
    intro used m m' hm h
    unfold encryptForResolution at h
    simp only [bind, Except.bind] at h
    split at h
    · simp at h
    · rename_i nk hnk
      split at h
      · simp at h
      · rename_i k
        have hP := nodeKeyForIndex_keys hl hn hnk
        have hins : ∀ (m : AMap TreeNodeIndex EncryptedSecret) (i : TreeNodeIndex),
            (∀ q ∈ m, ∃ b, q.2.key = deriveSymmetricKey cs ⟨b⟩ ∧ P b) →
            ∀ q ∈ AMap.insert m i (encryptSecret ps cs k), ∃ b, q.2.key = deriveSymmetricKey cs ⟨b⟩ ∧ P b := by
          intro m i hm q hq
          rcases List.mem_cons.1 hq with rfl | hq
          · exact ⟨k.of, rfl, hP⟩
          · exact hm q (List.mem_filter.1 hq).1
        refine ih _ _ _ ?_ h
        apply hins
        split
        · exact hm
        · exact hins _ _ hm

theorem newStore_sealed {P : Sk → Prop} {t : BeeKem} (hl : LeafKeys P t) (hn : NodeKeys P t) {g : Gen} {c c' : Nat}
    {ci : TreeNodeIndex} {cpk ppk : Pk} {cs ps : Sk} {s : SecretStore}
    (h : t.encryptNewSecretStoreForParent g c ci cpk cs ppk ps = .ok (s, c')) :
    ∀ v ∈ s.versions, v.pk = ppk ∧ Sealed (· = cs) P v := by
  unfold encryptNewSecretStoreForParent at h
  simp only [bind, Except.bind] at h
  split at h
  · simp at h
  · split at h
    · cases h
      intro v hv
      simp only [SecretStore.new, List.mem_singleton] at hv
      subst hv
      refine ⟨rfl, ?_⟩
      intro q hq
      simp only [AMap.insert, AMap.erase, List.filter_nil, List.mem_singleton] at hq
      subst hq
      exact ⟨cs, _, rfl, rfl, .inr ⟨rfl, rfl⟩⟩
    · split at h
      · simp at h
      · rename_i m hm
        cases h
        intro v hv
        simp only [SecretStore.new, List.mem_singleton] at hv
        subst hv
        refine ⟨rfl, ?_⟩
        intro q hq
        obtain ⟨b, h1, h2⟩ := encryptForResolution_sealed hl hn _ _ _ _ (by simp) hm q hq
        exact ⟨cs, b, h1, rfl, .inl h2⟩

theorem encryptLoop_sealed {P : Sk → Prop} {leaf : Sk} {g : Gen} {fuel : Nat} {s s' : EncState}
    (hc : s.childSk = leaf ∨ s.childSk ∈ pathSks s.path)
    (hl : LeafKeys (fun x => P x ∨ x = leaf) s.tree)
    (hn : NodeKeys (fun x => P x ∨ x ∈ pathSks s.path) s.tree)
    (hp : ∀ q ∈ s.path, ∀ v ∈ q.2.versions, Sealed (fun x => x = leaf ∨ x ∈ pathSks s.path)
      (fun x => P x ∨ x = leaf ∨ x ∈ pathSks s.path) v)
    (h : encryptLoop g fuel s = .ok s') :
    ∀ q ∈ s'.path, ∀ v ∈ q.2.versions, Sealed (fun x => x = leaf ∨ x ∈ pathSks s'.path)
      (fun x => P x ∨ x = leaf ∨ x ∈ pathSks s'.path) v := by
  induction fuel generalizing s with
  | zero => simp [encryptLoop] at h
  | succ fuel ih =>
    unfold encryptLoop at h
    split at h
    · cases h; exact hp
    · simp only [bind, Except.bind] at h
      split at h
      · simp at h
      · rename_i s1 h1
        unfold encryptStep at h1
        simp only [bind, Except.bind] at h1
        split at h1
        · simp at h1
        · split at h1
          · simp at h1
          · rename_i p hst
            obtain ⟨st, rng⟩ := p
            split at h1
            · simp at h1
            · rename_i t ht
              cases h1
              have hst' := newStore_sealed (P := fun x => P x ∨ x = leaf ∨ x ∈ pathSks s.path)
                (hl.mono (fun x hx => hx.elim .inl (fun h => .inr (.inl h))))
                (hn.mono (fun x hx => hx.elim .inl (fun h => .inr (.inr h)))) hst
              have hne : ∃ v, v ∈ st.versions := by
                unfold encryptNewSecretStoreForParent at hst
                simp only [bind, Except.bind] at hst
                split at hst
                · simp at hst
                · split at hst
                  · cases hst; exact ⟨_, List.mem_cons_self⟩
                  · split at hst
                    · simp at hst
                    · cases hst; exact ⟨_, List.mem_cons_self⟩
              have hsub : ∀ x, x ∈ pathSks s.path → x ∈ pathSks (s.path ++ [(parent s.childIdx, st)]) := by
                intro x hx
                unfold pathSks at *
                rw [List.flatMap_append]
                exact List.mem_append_left _ hx
              have hnew : ∀ v ∈ st.versions, v.pk.of ∈ pathSks (s.path ++ [(parent s.childIdx, st)]) := by
                intro v hv
                unfold pathSks
                rw [List.flatMap_append]
                refine List.mem_append_right _ ?_
                simp only [List.flatMap_cons, List.flatMap_nil, List.append_nil]
                exact List.mem_map.2 ⟨v, hv, rfl⟩
              refine ih ?_ ?_ ?_ ?_ h
              · right
                obtain ⟨v, hv⟩ := hne
                have := hnew v hv
                rw [(hst' v hv).1] at this
                exact this
              · show LeafKeys _ t
                intro l hq
                rw [insertInner_leaves ht] at hq
                exact hl l hq
              · exact insertInner_keys (hn.mono (fun x hx => hx.imp_right (hsub x))) (fun v hv => .inr (hnew v hv)) ht
              · intro q hq v hv
                rcases List.mem_append.1 hq with hq | hq
                · exact (hp q hq v hv).mono (fun x hx => hx.imp_right (hsub x))
                    (fun x hx => hx.imp_right (fun h => h.imp_right (hsub x)))
                · simp only [List.mem_singleton] at hq
                  subst hq
                  refine (hst' v hv).2.mono ?_ (fun x hx => hx.imp_right (fun h => h.imp_right (hsub x)))
                  intro x hx
                  rw [hx]
                  exact hc.imp_right (hsub _)

theorem encryptPath_sealed {P : Sk → Prop} {t t' : BeeKem} (hl : LeafKeys P t) (hn : NodeKeys P t) {g : Gen} {c n : Nat}
    {id : MemberId} {sk : Sk} {sks sks' : ShareKeyMap} {k : Sk} {pc : PathChange} (hk : Pure sks)
    (h : t.encryptPath g c id ⟨sk⟩ sks = .ok (t', sks', n, k, pc)) :
    pc.leafPk = .share ⟨sk⟩ ∧ ∀ q ∈ pc.path, ∀ v ∈ q.2.versions, Sealed (fun x => x = sk ∨ x ∈ pathSks pc.path)
      (fun x => P x ∨ x = sk ∨ x ∈ pathSks pc.path) v := by
  unfold encryptPath at h
  simp only [bind, Except.bind] at h
  split at h
  · simp at h
  · split at h
    · simp at h
    · split at h
      · simp at h
      · rename_i t1 h1
        split at h
        · simp at h
        · rename_i sk' hsk
          split at h
          · simp at h
          · rename_i s hs
            cases h
            have := hk.get _ _ hsk
            cases this
            refine ⟨rfl, encryptLoop_sealed (.inl rfl) ?_ ?_ (by simp) hs⟩
            · refine insertLeafAt_keys (hl.mono (fun x hx => .inl hx)) ?_ h1
              intro x hx
              simp only [NodeKey.keys, List.mem_singleton] at hx
              rw [hx]; exact .inr rfl
            · exact (hn.fewer (insertLeafAt_fewer h1)).mono (fun x hx => .inl hx)

end BeeKem

end Verif.BeeKem
