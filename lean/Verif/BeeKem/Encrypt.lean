import Verif.BeeKem.View

/-! # Helper lemmas: what `encrypt_path` writes -/

namespace Verif.BeeKem

open Verif.TreeMath

theorem AMap_mem_insert {K V : Type} [DecidableEq K] {m : AMap K V} {k : K} {v : V} {p : K × V}
    (h : p ∈ AMap.insert m k v) : p = (k, v) ∨ p ∈ m := by
  unfold AMap.insert at h
  rcases List.mem_cons.1 h with h | h
  · exact Or.inl h
  · exact Or.inr (List.mem_filter.1 h).1

namespace BeeKem

/-- Node `(k, m)` holds the same thing in both trees. -/
def Same (t t' : BeeKem) : Nat → Nat → Prop
  | 0, m => t.leafD m = t'.leafD m
  | k + 1, m => t.innerD (nodeInner k m) = t'.innerD (nodeInner k m)

theorem Same.skip {t t' : BeeKem} {k m : Nat} (h : Same t t' k m) : t.skipD k m = t'.skipD k m := by
  cases k <;> (unfold Same at h; unfold skipD; simp only [h])

theorem Same.key {t t' : BeeKem} {k m : Nat} (h : Same t t' k m) : t.keyD k m = t'.keyD k m := by
  cases k <;> (unfold Same at h; unfold keyD; simp only [h])

/-- The two trees agree on the subtree rooted at `(k, m)`. -/
def SameBelow (t t' : BeeKem) (k m : Nat) : Prop :=
  ∀ k' m', k' ≤ k → m' / 2 ^ (k - k') = m → Same t t' k' m'

theorem SameBelow.self {t t' : BeeKem} {k m : Nat} (h : SameBelow t t' k m) : Same t t' k m :=
  h k m (Nat.le_refl _) (by simp)

theorem SameBelow.res {t t' : BeeKem} {k m : Nat} (h : SameBelow t t' k m) :
    t.resList k m = t'.resList k m :=
  resList_congr (fun k' m' h1 h2 => (h k' m' h1 h2).skip)

theorem SameBelow.child {t t' : BeeKem} {k m n : Nat} (h : SameBelow t t' (k + 1) m)
    (hn : n / 2 = m) : SameBelow t t' k n := by
  intro k' m' h1 h2
  apply h k' m' (by omega)
  rw [show k + 1 - k' = (k - k') + 1 by omega, div_pow_succ, h2, hn]

theorem SameBelow.key_of_res {t t' : BeeKem} {k m : Nat} (h : SameBelow t t' k m) {r : Nat × Nat}
    (hr : r ∈ t.resList k m) : t.keyD r.1 r.2 = t'.keyD r.1 r.2 := by
  obtain ⟨h1, h2, _⟩ := mem_resList.1 (show (r.1, r.2) ∈ _ from hr)
  exact (h r.1 r.2 h1 h2).key

/-- Every leaf has a single key and every inner node at least one. -/
structure Single (t : BeeKem) : Prop where
  leaf : ∀ i l, t.leafD i = some l → ∃ s, l.pk = .share ⟨s⟩
  inner : ∀ j s, t.innerD j = some s → s.versions ≠ []

theorem Single.key {t : BeeKem} (hs : Single t) {k m : Nat} (h : t.skipD k m = false) :
    ∃ s, t.keyD k m = some (.share ⟨s⟩) := by
  cases k with
  | zero =>
    unfold skipD at h
    cases hl : t.leafD m with
    | none => simp [hl] at h
    | some l =>
      obtain ⟨s, hs⟩ := hs.leaf m l hl
      exact ⟨s, by simp [keyD, hl, hs]⟩
  | succ k =>
    unfold skipD at h
    cases hl : t.innerD (nodeInner k m) with
    | none => simp [hl] at h
    | some s =>
      simp only [hl] at h
      have hne := hs.inner _ s hl
      cases hv : s.versions with
      | nil => exact absurd hv hne
      | cons v vs =>
        cases vs with
        | nil => exact ⟨v.pk.of, by simp [keyD, hl, SecretStore.nodeKey, hv, NodeKey.ofSlice, Except.toOption]⟩
        | cons => simp [SecretStore.hasConflict, hv] at h

theorem encryptForResolution_ok {t : BeeKem} {h : Nat} (hs : Shape t h) (childIdx : TreeNodeIndex)
    (e sN : Sk) (rl : List (Nat × Nat)) (hin : ∀ r ∈ rl, InR h r.1 r.2)
    (hk : ∀ r ∈ rl, ∃ kr, t.keyD r.1 r.2 = some (.share ⟨kr⟩)) (used : Bool)
    (m : AMap TreeNodeIndex EncryptedSecret) :
    ∃ m', t.encryptForResolution childIdx e sN (rl.map (fun p => nd p.1 p.2)) used m = .ok m' ∧
      (∀ r ∈ rl, ∃ kr, t.keyD r.1 r.2 = some (.share ⟨kr⟩) ∧
        AMap.get m' (nd r.1 r.2) = some (encryptSecret sN e ⟨kr⟩)) ∧
      (∀ x, (∀ r ∈ rl, nd r.1 r.2 ≠ x) → (used = true ∨ x ≠ childIdx) →
        AMap.get m' x = AMap.get m x) ∧
      (∀ x e', (x, e') ∈ m' → (x, e') ∈ m ∨ ∃ r ∈ rl, ∃ kr, t.keyD r.1 r.2 = some (.share ⟨kr⟩) ∧
        e' = encryptSecret sN e ⟨kr⟩) ∧
      ((AMap.get m childIdx ≠ none ∨ (used = false ∧ rl ≠ [])) → AMap.get m' childIdx ≠ none) := by
  induction rl generalizing used m with
  | nil => exact ⟨m, rfl, by simp, fun _ _ _ => rfl, fun _ _ h => Or.inl h, by simp⟩
  | cons r rl ih =>
    obtain ⟨kr, hkr⟩ := hk r (by simp)
    have hget := nodeKeyForIndex_ok hs (hin r (by simp)) hkr
    obtain ⟨m', he, hA, hB, hC, hD⟩ :=
      ih (fun x hx => hin x (List.mem_cons_of_mem _ hx)) (fun x hx => hk x (List.mem_cons_of_mem _ hx))
        true (AMap.insert (if used then m else AMap.insert m childIdx (encryptSecret sN e ⟨kr⟩))
          (nd r.1 r.2) (encryptSecret sN e ⟨kr⟩))
    have hhead : ∃ kr, t.keyD r.1 r.2 = some (.share ⟨kr⟩) ∧
        AMap.get m' (nd r.1 r.2) = some (encryptSecret sN e ⟨kr⟩) := by
      by_cases hr : r ∈ rl
      · exact hA r hr
      · refine ⟨kr, hkr, ?_⟩
        rw [hB _ ?_ (Or.inl rfl), AMap.get_insert_self]
        intro r' hr' heq
        obtain ⟨h1, h2⟩ := nd_inj heq
        exact hr (by rwa [show r = r' from Prod.ext h1.symm h2.symm])
    refine ⟨m', ?_, ?_, ?_, ?_, ?_⟩
    · rw [List.map_cons]
      unfold encryptForResolution
      rw [hget]
      exact he
    · intro r' hr'
      rcases List.mem_cons.1 hr' with rfl | hr'
      · exact hhead
      · exact hA r' hr'
    · intro x hx hu
      rw [hB x (fun r' hr' => hx r' (List.mem_cons_of_mem _ hr')) (Or.inl rfl),
        AMap.get_insert_ne _ _ (Ne.symm (hx r (by simp)))]
      cases used with
      | true => rfl
      | false =>
        rcases hu with hu | hu
        · simp at hu
        · simp only [Bool.false_eq_true, if_false]
          exact AMap.get_insert_ne _ _ hu
    · intro x e' hx
      rcases hC x e' hx with hx | ⟨r', hr', hrest⟩
      · rcases AMap_mem_insert hx with hx | hx
        · right
          refine ⟨r, by simp, kr, hkr, ?_⟩
          simp only [Prod.mk.injEq] at hx
          exact hx.2
        · cases used with
          | true => exact Or.inl hx
          | false =>
            simp only [Bool.false_eq_true, if_false] at hx
            rcases AMap_mem_insert hx with hx | hx
            · right
              refine ⟨r, by simp, kr, hkr, ?_⟩
              simp only [Prod.mk.injEq] at hx
              exact hx.2
            · exact Or.inl hx
      · exact Or.inr ⟨r', List.mem_cons_of_mem _ hr', hrest⟩
    · intro hu
      apply hD
      left
      by_cases hc : childIdx = nd r.1 r.2
      · rw [hc, AMap.get_insert_self]; simp
      · rw [AMap.get_insert_ne _ _ hc]
        cases used with
        | true =>
          simp only [if_true]
          rcases hu with hu | ⟨hu, _⟩
          · exact hu
          · simp at hu
        | false => simp

/-- The effect of `encrypt_new_secret_store_for_parent`: one version, an entry for the encrypting
child, one for every node of the sibling's resolution, nothing else. -/
theorem encryptNewSecretStore_ok {t : BeeKem} {h : Nat} (hs : Shape t h) (hsg : Single t) (g : Gen)
    (c : Nat) {k m : Nat} (hin : InR h k m) (hk : k < h) (e sN : Sk) :
    ∃ v c', t.encryptNewSecretStoreForParent g c (nd k m) ⟨e⟩ e ⟨sN⟩ sN = .ok (⟨[v]⟩, c') ∧
      v.pk = ⟨sN⟩ ∧ v.encrypterPk = ⟨e⟩ ∧ c ≤ c' ∧
      (∃ p, AMap.get v.sk (nd k m) = some (encryptSecret sN e p)) ∧
      (∀ r ∈ t.resList k (sib m), ∃ kr, t.keyD r.1 r.2 = some (.share ⟨kr⟩) ∧
        AMap.get v.sk (nd r.1 r.2) = some (encryptSecret sN e ⟨kr⟩)) ∧
      (∀ x e', (x, e') ∈ v.sk → ∃ b, e' = encryptSecret sN e ⟨b⟩ ∧
        ((∃ r ∈ t.resList k (sib m), t.keyD r.1 r.2 = some (.share ⟨b⟩)) ∨ (b = g c ∧ c < c' ∧ v.sk = [(x, e')]))) := by
  unfold encryptNewSecretStoreForParent
  rw [sibling_nd, appendResolution_ok hs (hin.sib hk) (by have := size_gt hs; omega)]
  simp only [bind, Except.bind, List.nil_append]
  have hrin : ∀ r ∈ t.resList k (sib m), InR h r.1 r.2 := by
    intro r hr
    obtain ⟨h1, h2, _⟩ := mem_resList.1 (show (r.1, r.2) ∈ _ from hr)
    refine ⟨by omega, ?_⟩
    have h3 := (hin.sib hk).2
    rw [← h2] at h3
    have := Nat.div_lt_iff_lt_mul (x := r.2) (y := 2 ^ (h - k)) (k := 2 ^ (k - r.1)) (Nat.pow_pos (by decide))
    have h4 := this.1 h3
    rwa [← Nat.pow_add, show h - k + (k - r.1) = h - r.1 by omega] at h4
  have hrk : ∀ r ∈ t.resList k (sib m), ∃ kr, t.keyD r.1 r.2 = some (.share ⟨kr⟩) := by
    intro r hr
    obtain ⟨_, _, h3, _⟩ := mem_resList.1 (show (r.1, r.2) ∈ _ from hr)
    exact hsg.key h3
  by_cases hemp : t.resList k (sib m) = []
  · simp only [hemp, List.map_nil, List.isEmpty_nil, if_true, pure, Except.pure, SecretStore.new]
    refine ⟨_, _, rfl, rfl, rfl, Nat.le_succ c, ⟨_, AMap.get_insert_self _ _ _⟩, by simp, ?_⟩
    intro x e' hx
    rcases AMap_mem_insert hx with hx | hx
    · simp only [Prod.mk.injEq] at hx
      exact ⟨g c, hx.2, Or.inr ⟨rfl, Nat.lt_succ_self c, by rw [hx.1, hx.2]; rfl⟩⟩
    · simp at hx
  · obtain ⟨m', he, hA, _, hC, hD⟩ :=
      encryptForResolution_ok hs (nd k m) e sN (t.resList k (sib m)) hrin hrk false []
    have hne : (List.map (fun p : Nat × Nat => nd p.1 p.2) (t.resList k (sib m))).isEmpty = false := by
      simpa using hemp
    simp only [hne, Bool.false_eq_true, if_false, he, pure, Except.pure, SecretStore.new]
    refine ⟨_, _, rfl, rfl, rfl, Nat.le_refl c, ?_, hA, ?_⟩
    · have h1 := hD (Or.inr ⟨rfl, hemp⟩)
      cases hg : AMap.get m' (nd k m) with
      | none => exact absurd hg h1
      | some e' =>
        rcases hC _ _ (AMap.mem_of_get hg) with hx | ⟨r, _, kr, _, rfl⟩
        · simp at hx
        · exact ⟨_, rfl⟩
    · intro x e' hx
      rcases hC x e' hx with hx | ⟨r, hr, kr, hkr, rfl⟩
      · simp at hx
      · exact ⟨kr, rfl, Or.inl ⟨r, hr, hkr⟩⟩

/-- Node `(k+1, m)` holds a single key whose secret its encrypting child and every node of the
other child's resolution can open. -/
def NodeGood (t : BeeKem) (k m : Nat) : Prop :=
  ∃ v c e sN, t.innerD (nodeInner k m) = some ⟨[v]⟩ ∧ v.pk = ⟨sN⟩ ∧ v.encrypterPk = ⟨e⟩ ∧
    c / 2 = m ∧ t.keyD k c = some (.share ⟨e⟩) ∧ t.skipD k c = false ∧
    (∃ p, AMap.get v.sk (nd k c) = some (encryptSecret sN e p)) ∧
    (∀ r ∈ t.resList k (sib c), ∃ kr, t.keyD r.1 r.2 = some (.share ⟨kr⟩) ∧
      AMap.get v.sk (nd r.1 r.2) = some (encryptSecret sN e ⟨kr⟩))

theorem NodeGood.congr {t t' : BeeKem} {k m : Nat} (hg : NodeGood t k m)
    (h : SameBelow t t' (k + 1) m) : NodeGood t' k m := by
  obtain ⟨v, c, e, sN, h1, h2, h3, h4, h5, h6, h7, h8⟩ := hg
  refine ⟨v, c, e, sN, ?_, h2, h3, h4, ?_, ?_, h7, ?_⟩
  · rw [← h1]; exact h.self.symm
  · rw [← h5]; exact ((h.child h4).self.key).symm
  · rw [← h6]; exact ((h.child h4).self.skip).symm
  · have hsb := h.child (n := sib c) (by rw [sib_div]; exact h4)
    intro r hr
    rw [← hsb.res] at hr
    rw [← hsb.key_of_res hr]
    exact h8 r hr

/-- Where a secret is in the tree: node `(k, m)` has a key with that secret. -/
def HasSecret (t : BeeKem) (k m : Nat) (s : Sk) : Prop :=
  ∃ key, t.keyD k m = some key ∧ (⟨s⟩ : Pk) ∈ key.keys

/-- Secret `s` is at a node at or below `(k, m)`. -/
def PresentBelow (t : BeeKem) (k m : Nat) (s : Sk) : Prop :=
  ∃ k' m', k' ≤ k ∧ m' / 2 ^ (k - k') = m ∧ HasSecret t k' m' s

theorem PresentBelow.congr {t t' : BeeKem} {k m : Nat} {s : Sk} (hp : PresentBelow t k m s)
    (h : SameBelow t t' k m) : PresentBelow t' k m s := by
  obtain ⟨k', m', h1, h2, key, h3, h4⟩ := hp
  exact ⟨k', m', h1, h2, key, by rw [← (h k' m' h1 h2).key]; exact h3, h4⟩

theorem PresentBelow.up {t : BeeKem} {k m : Nat} {s : Sk} (hp : PresentBelow t k m s) :
    PresentBelow t (k + 1) (m / 2) s := by
  obtain ⟨k', m', h1, h2, h3⟩ := hp
  refine ⟨k', m', by omega, ?_, h3⟩
  rw [show k + 1 - k' = (k - k') + 1 by omega, div_pow_succ, h2]

/-- Secret `s` is the only one at node `(k, m)`. -/
def Sole (t : BeeKem) (k m : Nat) (s : Sk) : Prop := t.keyD k m = some (.share ⟨s⟩)

/-- Secret `s` is the only one at some node at or below `(k, m)`. -/
def SoleBelow (t : BeeKem) (k m : Nat) (s : Sk) : Prop :=
  ∃ k' m', k' ≤ k ∧ m' / 2 ^ (k - k') = m ∧ Sole t k' m' s

theorem SoleBelow.present {t : BeeKem} {k m : Nat} {s : Sk} (hp : SoleBelow t k m s) : PresentBelow t k m s := by
  obtain ⟨k', m', h1, h2, h3⟩ := hp
  exact ⟨k', m', h1, h2, _, h3, by simp [NodeKey.keys]⟩

theorem SoleBelow.congr {t t' : BeeKem} {k m : Nat} {s : Sk} (hp : SoleBelow t k m s) (h : SameBelow t t' k m) : SoleBelow t' k m s := by
  obtain ⟨k', m', h1, h2, h3⟩ := hp
  exact ⟨k', m', h1, h2, (h k' m' h1 h2).key.symm.trans h3⟩

theorem SoleBelow.up {t : BeeKem} {k m : Nat} {s : Sk} (hp : SoleBelow t k m s) : SoleBelow t (k + 1) (m / 2) s := by
  obtain ⟨k', m', h1, h2, h3⟩ := hp
  refine ⟨k', m', by omega, ?_, h3⟩
  rw [show k + 1 - k' = (k - k') + 1 by omega, div_pow_succ, h2]

theorem SoleBelow.of_self {t : BeeKem} {k m : Nat} {s : Sk} (h : t.keyD k m = some (.share ⟨s⟩)) : SoleBelow t k m s :=
  ⟨k, m, Nat.le_refl _, by simp, h⟩

theorem SoleBelow.of_res {t : BeeKem} {k m : Nat} {s : Sk} {r : Nat × Nat}
    (hr : r ∈ t.resList k m) (h : t.keyD r.1 r.2 = some (.share ⟨s⟩)) : SoleBelow t k m s := by
  obtain ⟨h1, h2, _⟩ := mem_resList.1 (show (r.1, r.2) ∈ _ from hr)
  exact ⟨r.1, r.2, h1, h2, h⟩

/-- The ciphertexts in a list of written nodes. -/
def pathCiphers (p : List (Nat × SecretStore)) : List EncryptedSecret :=
  p.flatMap (fun q => q.2.versions.flatMap (fun v => v.sk.map (·.2)))

/-- The keys on the listed inner nodes. -/
def keysOn (t : BeeKem) (idxs : List Nat) : List Pk :=
  idxs.flatMap (fun j => match t.innerD j with
    | none => []
    | some s => s.versions.map (·.pk))

theorem nodeKey_keys {s : SecretStore} (h : s.versions ≠ []) :
    ∃ nk, s.nodeKey = .ok nk ∧ nk.keys = s.versions.map (·.pk) := by
  unfold SecretStore.nodeKey
  cases hv : s.versions with
  | nil => exact absurd hv h
  | cons v vs =>
    cases vs with
    | nil => exact ⟨_, rfl, rfl⟩
    | cons w ws => exact ⟨_, rfl, by simp [NodeKey.keys]⟩

theorem innerKeys_ok {t : BeeKem} {h j : Nat} (hs : Shape t h) (hsg : Single t) (hj : j < 2 ^ h - 1) :
    t.innerKeys j = .ok (keysOn t [j]) := by
  unfold innerKeys keysOn
  rw [innerNode_ok hs hj]
  cases hi : t.innerD j with
  | none => simp [hi, bind, Except.bind, pure, Except.pure]
  | some st =>
    obtain ⟨nk, h1, h2⟩ := nodeKey_keys (hsg.inner _ _ hi)
    simp [hi, h1, h2, bind, Except.bind, pure, Except.pure]

theorem SameBelow.of_ne {t t' : BeeKem} {k m kk mm : Nat}
    (hleaf : ∀ j, t.leafD j = t'.leafD j)
    (hin : ∀ j, j ≠ nodeInner kk mm → t.innerD j = t'.innerD j)
    (hne : kk + 1 ≤ k → mm / 2 ^ (k - (kk + 1)) ≠ m) : SameBelow t t' k m := by
  intro k' m' h1 h2
  cases k' with
  | zero => exact hleaf m'
  | succ k' =>
    apply hin
    intro heq
    obtain ⟨rfl, rfl⟩ := nodeInner_inj heq
    exact hne h1 h2

/-- One iteration of the `encrypt_path` loop. -/
theorem encryptStep_ok {s : EncState} {h : Nat} (hs : Shape s.tree h) (hsg : Single s.tree) (g : Gen)
    {k m : Nat} (hin : InR h k m) (hk : k < h) (hc : s.childIdx = nd k m) (hpk : s.childPk = ⟨s.childSk⟩)
    (hkey : s.tree.keyD k m = some (.share ⟨s.childSk⟩)) (hskip : s.tree.skipD k m = false) :
    ∃ s' v, encryptStep g s = .ok s' ∧
      s'.tree = { s.tree with innerNodes := s.tree.innerNodes.set (nodeInner k (m / 2)) (some ⟨[v]⟩) } ∧
      v.pk = ⟨g s.rng⟩ ∧
      s'.sks = AMap.insert s.sks ⟨g s.rng⟩ (g s.rng) ∧ s.rng < s'.rng ∧
      s'.childIdx = nd (k + 1) (m / 2) ∧ s'.childPk = ⟨g s.rng⟩ ∧ s'.childSk = g s.rng ∧
      s'.path = s.path ++ [(nodeInner k (m / 2), ⟨[v]⟩)] ∧
      s'.removed = s.removed ++ keysOn s.tree [nodeInner k (m / 2)] ∧
      NodeGood s'.tree k (m / 2) ∧
      (∀ e ∈ v.sk.map (·.2), e.plain = g s.rng ∧ ∃ b, e.key = deriveSymmetricKey s.childSk ⟨b⟩ ∧
        (SoleBelow s.tree k (sib m) b ∨ ∃ n, s.rng < n ∧ n < s'.rng ∧ b = g n ∧
          ∃ x, v.sk = [(x, e)] ∧ e.pairedPk = ⟨b⟩)) := by
  obtain ⟨v, c', hev, hv1, hv2, hcc, hv3, hv4, hv5⟩ :=
    encryptNewSecretStore_ok hs hsg g (s.rng + 1) hin hk s.childSk (g s.rng)
  have hpin : nodeInner k (m / 2) < 2 ^ h - 1 := inR_inner.1 (hin.parent hk)
  refine ⟨{ tree := { s.tree with innerNodes := s.tree.innerNodes.set (nodeInner k (m / 2)) (some ⟨[v]⟩) },
            sks := AMap.insert s.sks ⟨g s.rng⟩ (g s.rng), rng := c', childIdx := nd (k + 1) (m / 2),
            childPk := ⟨g s.rng⟩, childSk := g s.rng,
            path := s.path ++ [(nodeInner k (m / 2), ⟨[v]⟩)],
            removed := s.removed ++ keysOn s.tree [nodeInner k (m / 2)] }, v, ?_, rfl, hv1, rfl,
          (by simp only; omega), rfl, rfl, rfl, rfl, rfl, ?_, ?_⟩
  · unfold encryptStep
    rw [hc, parent_nd]
    dsimp only
    rw [innerKeys_ok hs hsg hpin]
    simp only [bind, Except.bind, pure, Except.pure, shareKey, hpk]
    rw [hev]
    simp only
    rw [insertInnerNodeAt_ok hs hpin]
    rfl
  · have hI : ∀ j, innerD { s.tree with innerNodes := s.tree.innerNodes.set (nodeInner k (m / 2)) (some ⟨[v]⟩) } j =
        if j = nodeInner k (m / 2) then some ⟨[v]⟩ else s.tree.innerD j := innerD_set hs hpin _
    have hsb : ∀ n, SameBelow s.tree { s.tree with innerNodes := s.tree.innerNodes.set (nodeInner k (m / 2)) (some ⟨[v]⟩) } k n := by
      intro n
      apply SameBelow.of_ne (kk := k) (mm := m / 2)
      · intro j; rfl
      · intro j hj
        rw [hI, if_neg hj]
      · omega
    refine ⟨v, m, s.childSk, g s.rng, ?_, hv1, hv2, rfl, ?_, ?_, hv3, ?_⟩
    · simp only
      rw [hI, if_pos rfl]
    · simp only
      rw [← (hsb m).self.key]; exact hkey
    · simp only
      rw [← (hsb m).self.skip]; exact hskip
    · intro r hr
      simp only at hr ⊢
      rw [← (hsb _).res] at hr
      rw [← (hsb _).key_of_res hr]
      exact hv4 r hr
  · intro e he
    obtain ⟨⟨x, e'⟩, hx, rfl⟩ := List.mem_map.1 he
    obtain ⟨b, rfl, hb⟩ := hv5 x e' hx
    refine ⟨rfl, b, rfl, ?_⟩
    rcases hb with ⟨r, hr, hkr⟩ | ⟨rfl, hlt, hone⟩
    · exact Or.inl (SoleBelow.of_res hr hkr)
    · exact Or.inr ⟨s.rng + 1, by omega, hlt, rfl, x, hone, rfl⟩

end BeeKem

end Verif.BeeKem
