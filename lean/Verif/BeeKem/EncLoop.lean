import Verif.BeeKem.Encrypt

/-! # Helper lemmas: the whole `encrypt_path` loop -/

namespace Verif.BeeKem

open Verif.TreeMath

namespace BeeKem

/-- Inner indices above `(k, i / 2^k)`, bottom up. -/
def above (h k i : Nat) : List Nat := (List.range (h - k)).map (fun l => nodeInner (k + l) (i / 2 ^ (k + l + 1)))

theorem above_cons {h k i : Nat} (hk : k < h) :
    above h k i = nodeInner k (i / 2 ^ (k + 1)) :: above h (k + 1) i := by
  unfold above
  rw [show h - k = (h - (k + 1)) + 1 by omega, List.range_succ_eq_map, List.map_cons, List.map_map]
  congr 1
  apply List.map_congr_left
  intro l _
  simp only [Function.comp]
  rw [show k + (l + 1) = k + 1 + l by omega]

theorem above_top {h i : Nat} : above h h i = [] := by simp [above]

theorem above_zero (h i : Nat) : above h 0 i = path h i := by
  unfold above path
  simp

theorem mem_above {h k i j : Nat} :
    j ∈ above h k i ↔ ∃ l, k ≤ l ∧ l < h ∧ j = nodeInner l (i / 2 ^ (l + 1)) := by
  unfold above
  simp only [List.mem_map, List.mem_range]
  constructor
  · rintro ⟨l, hl, rfl⟩
    exact ⟨k + l, by omega, by omega, rfl⟩
  · rintro ⟨l, h1, h2, rfl⟩
    exact ⟨l - k, by omega, by rw [show k + (l - k) = l by omega]⟩

/-- The sks map sends each public key to its own secret. -/
def Consistent (m : ShareKeyMap) : Prop := ∀ pk sk, AMap.get m pk = some sk → pk = ⟨sk⟩

theorem Consistent.insert {m : ShareKeyMap} (h : Consistent m) (sk : Sk) :
    Consistent (AMap.insert m ⟨sk⟩ sk) := by
  intro pk sk' hg
  rw [AMap.get_insert] at hg
  split at hg
  · rename_i he
    simp only [Option.some.injEq] at hg
    rw [he, hg]
  · exact h pk sk' hg

theorem Consistent.get_insert {m : ShareKeyMap} (h : Consistent m) {pk : Pk} {sk sk' : Sk}
    (hg : AMap.get m pk = some sk) : AMap.get (AMap.insert m ⟨sk'⟩ sk') pk = some sk := by
  rw [AMap.get_insert]
  split
  · rename_i he
    have := h pk sk hg
    rw [he, Pk.mk.injEq] at this
    rw [this]
  · exact hg

/-- Everything there is to know about a run of the `encrypt_path` loop from level `k` above leaf
`i` in a tree of height `h`: `newp` are the written nodes, `ν l` the CSPRNG position of the secret
written at level `l + 1`. -/
structure EncRes (g : Gen) (s s' : EncState) (h k i : Nat) (newp : List (Nat × SecretStore))
    (ν : Nat → Nat) : Prop where
  shape : Shape s'.tree h
  single : Single s'.tree
  next : s'.tree.nextLeafIdx = s.tree.nextLeafIdx
  ids : s'.tree.idToLeafIdx = s.tree.idToLeafIdx
  leaves : s'.tree.leaves = s.tree.leaves
  other : ∀ j, j ∉ above h k i → s'.tree.innerD j = s.tree.innerD j
  good : ∀ l, k ≤ l → l < h → NodeGood s'.tree l (i / 2 ^ (l + 1))
  rng : s.rng ≤ s'.rng
  rootKey : s'.tree.keyD h 0 = some (.share ⟨s'.childSk⟩)
  pathEq : s'.path = s.path ++ newp
  pathIdx : newp.map (·.1) = above h k i
  pathVal : ∀ q ∈ newp, s'.tree.innerD q.1 = some q.2
  removed : s'.removed = s.removed ++ keysOn s.tree (above h k i)
  consistent : Consistent s.sks → Consistent s'.sks ∧
    (∀ pk sk, AMap.get s.sks pk = some sk → AMap.get s'.sks pk = some sk)
  keysKnown : Consistent s.sks → ∀ l, k ≤ l → l < h → AMap.get s'.sks ⟨g (ν l)⟩ = some (g (ν l))
  nuKey : ∀ l, k ≤ l → l < h → s'.tree.keyD (l + 1) (i / 2 ^ (l + 1)) = some (.share ⟨g (ν l)⟩)
  nuRng : ∀ l, k ≤ l → l < h → s.rng ≤ ν l ∧ ν l < s'.rng
  nuMono : ∀ l l', k ≤ l → l < l' → l' < h → ν l < ν l'
  ciphers : ∀ e ∈ pathCiphers newp, ∃ l, k ≤ l ∧ l < h ∧ e.plain = g (ν l) ∧
    ∃ a b, e.key = deriveSymmetricKey a ⟨b⟩ ∧ SoleBelow s'.tree l (i / 2 ^ l) a ∧
      (SoleBelow s'.tree l (sib (i / 2 ^ l)) b ∨
        ∃ n, s.rng ≤ n ∧ n < s'.rng ∧ b = g n ∧ (∀ l', k ≤ l' → l' < h → n ≠ ν l') ∧
          ∃ q ∈ newp, ∃ v ∈ q.2.versions, ∃ x, v.sk = [(x, e)] ∧ e.pairedPk = ⟨b⟩)

theorem sameBelow_above {t t' : BeeKem} {h k i l m : Nat}
    (hl : ∀ j, t.leafD j = t'.leafD j)
    (hj : ∀ j, j ∉ above h k i → t.innerD j = t'.innerD j)
    (hne : ∀ l', k ≤ l' → l' < h → l' + 1 ≤ l → i / 2 ^ (l' + 1) / 2 ^ (l - (l' + 1)) ≠ m) :
    SameBelow t t' l m := by
  intro k' m' h1 h2
  cases k' with
  | zero => exact hl m'
  | succ k' =>
    apply hj
    intro hmem
    obtain ⟨l', hl1, hl2, heq⟩ := mem_above.1 hmem
    obtain ⟨rfl, rfl⟩ := nodeInner_inj heq
    exact hne k' hl1 hl2 h1 h2

theorem div_div_pow (i a b : Nat) : i / 2 ^ a / 2 ^ b = i / 2 ^ (a + b) := by
  rw [Nat.div_div_eq_div_mul, ← Nat.pow_add]

theorem encryptLoop_ok (g : Gen) {h i : Nat} (hi : i < 2 ^ h) (fuel : Nat) :
    ∀ (k : Nat) (s : EncState), Shape s.tree h → Single s.tree → k ≤ h →
      s.childIdx = nd k (i / 2 ^ k) → s.childPk = ⟨s.childSk⟩ →
      s.tree.keyD k (i / 2 ^ k) = some (.share ⟨s.childSk⟩) →
      s.tree.skipD k (i / 2 ^ k) = false → h - k < fuel →
      ∃ s' newp ν, encryptLoop g fuel s = .ok s' ∧ EncRes g s s' h k i newp ν := by
  induction fuel with
  | zero => intro k s _ _ _ _ _ _ _ hf; omega
  | succ fuel ih =>
    intro k s hs hsg hk hc hpk hkey hskip hf
    by_cases hkh : k = h
    · subst hkh
      have hz : i / 2 ^ k = 0 := Nat.div_eq_of_lt hi
      refine ⟨s, [], fun _ => 0, ?_, ?_⟩
      · unfold encryptLoop
        rw [if_pos]
        rw [hc, hz]
        obtain ⟨k', rfl⟩ : ∃ k', k = k' + 1 := ⟨k - 1, by have := hs.pos; omega⟩
        change s.tree.isRoot (.inner (nodeInner k' 0)) = true
        rw [isRoot_inner hs]
        simp
      · exact {
          shape := hs, single := hsg, next := rfl, ids := rfl, leaves := rfl
          other := fun _ _ => rfl
          good := by intro l h1 h2; omega
          rng := Nat.le_refl _
          rootKey := by rw [← hz]; exact hkey
          pathEq := by simp
          pathIdx := by simp [above_top]
          pathVal := by simp
          removed := by simp [above_top, keysOn]
          consistent := fun hc => ⟨hc, fun _ _ h => h⟩
          keysKnown := by intro _ l h1 h2; omega
          nuKey := by intro l h1 h2; omega
          nuRng := by intro l h1 h2; omega
          nuMono := by intro l l' h1 h2 h3; omega
          ciphers := by simp [pathCiphers] }
    · have hkh : k < h := by omega
      have hinr : InR h k (i / 2 ^ k) := inR_anc hi hk
      obtain ⟨s1, v, hst, htree, hvpk, hsks, hrng, hci, hcp, hcs, hpath, hrem, hgood, hciph⟩ :=
        encryptStep_ok hs hsg g hinr hkh hc hpk hkey hskip
      rw [← div_pow_succ] at htree hci hpath hrem hgood
      have hpin : nodeInner k (i / 2 ^ (k + 1)) < 2 ^ h - 1 := inR_inner.1 (inR_anc hi hkh)
      have hs1 : Shape s1.tree h := by rw [htree]; exact shape_setInner hs _ _
      have hI : ∀ j, s1.tree.innerD j = if j = nodeInner k (i / 2 ^ (k + 1)) then some ⟨[v]⟩ else s.tree.innerD j := by
        intro j; rw [htree]; exact innerD_set hs hpin _ j
      have hL : ∀ j, s1.tree.leafD j = s.tree.leafD j := by intro j; rw [htree]; rfl
      have hsg1 : Single s1.tree := by
        constructor
        · intro j l hl; rw [hL] at hl; exact hsg.leaf j l hl
        · intro j st hst
          rw [hI] at hst
          split at hst
          · simp only [Option.some.injEq] at hst
            subst hst; simp
          · exact hsg.inner j st hst
      have hkey1 : s1.tree.keyD (k + 1) (i / 2 ^ (k + 1)) = some (.share ⟨s1.childSk⟩) := by
        simp [keyD, hI, SecretStore.nodeKey, NodeKey.ofSlice, hvpk, hcs, Except.toOption]
      have hskip1 : s1.tree.skipD (k + 1) (i / 2 ^ (k + 1)) = false := by
        simp [skipD, hI, SecretStore.hasConflict]
      obtain ⟨s', newp, ν, hloop, R⟩ := ih (k + 1) s1 hs1 hsg1 (by omega) hci (by rw [hcp, hcs]) hkey1 hskip1 (by omega)
      have hL' : ∀ j, s1.tree.leafD j = s'.tree.leafD j := by
        intro j; unfold leafD; rw [R.leaves]
      -- subtrees at level ≤ k + 1 are not touched after this iteration
      have hsb : ∀ l m, l ≤ k + 1 → SameBelow s1.tree s'.tree l m := by
        intro l m hl
        apply sameBelow_above (h := h) (k := k + 1) (i := i) hL' (fun j hj => (R.other j hj).symm)
        intro l' h1 h2 h3
        omega
      have hsb0 : ∀ l m, l ≤ k → SameBelow s.tree s1.tree l m := by
        intro l m hl
        apply SameBelow.of_ne (kk := k) (mm := i / 2 ^ (k + 1)) (fun j => (hL j).symm)
        · intro j hj; rw [hI, if_neg hj]
        · omega
      refine ⟨s', (nodeInner k (i / 2 ^ (k + 1)), ⟨[v]⟩) :: newp, fun l => if l = k then s.rng else ν l, ?_, ?_⟩
      · unfold encryptLoop
        have hnr : s.tree.isRoot s.childIdx = false := by
          rw [hc]
          cases k with
          | zero => exact isRoot_leaf hs
          | succ k =>
            change s.tree.isRoot (.inner (nodeInner k _)) = false
            rw [isRoot_inner hs]
            simp; omega
        rw [hnr]
        simp only [Bool.false_eq_true, if_false, hst, bind, Except.bind]
        exact hloop
      · have hnu : ∀ l, k + 1 ≤ l → (if l = k then s.rng else ν l) = ν l := by
          intro l hl; rw [if_neg (by omega)]
        have htop : s'.tree.innerD (nodeInner k (i / 2 ^ (k + 1))) = some ⟨[v]⟩ := by
          rw [R.other, hI, if_pos rfl]
          intro hmem
          obtain ⟨l', h1, h2, heq⟩ := mem_above.1 hmem
          have := (nodeInner_inj heq).1
          omega
        exact {
          shape := R.shape, single := R.single
          next := by rw [R.next, htree]
          ids := by rw [R.ids, htree]
          leaves := by rw [R.leaves, htree]
          other := by
            intro j hj
            rw [above_cons hkh, List.mem_cons, not_or] at hj
            rw [R.other j hj.2, hI, if_neg hj.1]
          good := by
            intro l h1 h2
            by_cases hlk : l = k
            · subst hlk
              exact hgood.congr (hsb (l + 1) _ (Nat.le_refl _))
            · exact R.good l (by omega) h2
          rng := by have := R.rng; omega
          rootKey := R.rootKey
          pathEq := by rw [R.pathEq, hpath]; simp
          pathIdx := by rw [List.map_cons, R.pathIdx, above_cons hkh]
          pathVal := by
            intro q hq
            rcases List.mem_cons.1 hq with rfl | hq
            · exact htop
            · exact R.pathVal q hq
          removed := by
            rw [R.removed, hrem, above_cons hkh, List.append_assoc]
            congr 1
            have : keysOn s1.tree (above h (k + 1) i) = keysOn s.tree (above h (k + 1) i) := by
              unfold keysOn
              rw [List.flatMap_def, List.flatMap_def]
              congr 1
              apply List.map_congr_left
              intro j hj
              rw [hI, if_neg]
              intro he
              obtain ⟨l', h1, h2, heq⟩ := mem_above.1 hj
              rw [he] at heq
              have := (nodeInner_inj heq).1
              omega
            rw [this]
            simp [keysOn]
          consistent := by
            intro hcon
            have h1 : Consistent s1.sks := by rw [hsks]; exact hcon.insert _
            obtain ⟨h2, h3⟩ := R.consistent h1
            refine ⟨h2, fun pk sk hg => h3 pk sk ?_⟩
            rw [hsks]; exact hcon.get_insert hg
          keysKnown := by
            intro hcon l h1 h2
            have hc1 : Consistent s1.sks := by rw [hsks]; exact hcon.insert _
            by_cases hlk : l = k
            · simp only [hlk, if_true]
              apply (R.consistent hc1).2
              rw [hsks]
              exact AMap.get_insert_self _ _ _
            · rw [hnu l (by omega)]
              exact R.keysKnown hc1 l (by omega) h2
          nuKey := by
            intro l h1 h2
            by_cases hlk : l = k
            · subst hlk
              simp only [if_true]
              rw [← (hsb (l + 1) _ (Nat.le_refl _)).self.key, hkey1, hcs]
            · rw [hnu l (by omega)]
              exact R.nuKey l (by omega) h2
          nuRng := by
            intro l h1 h2
            have := R.rng
            by_cases hlk : l = k
            · simp only [hlk, if_true]; omega
            · rw [hnu l (by omega)]
              have := R.nuRng l (by omega) h2
              omega
          nuMono := by
            intro l l' h1 h2 h3
            rw [hnu l' (by omega)]
            by_cases hlk : l = k
            · simp only [hlk, if_true]
              have := R.nuRng l' (by omega) h3
              omega
            · rw [hnu l (by omega)]
              exact R.nuMono l l' (by omega) h2 h3
          ciphers := by
            intro e he
            unfold pathCiphers at he
            rw [List.flatMap_cons, List.mem_append] at he
            rcases he with he | he
            · simp only [List.flatMap_cons, List.flatMap_nil, List.append_nil] at he
              obtain ⟨hp, b, hkey', hb⟩ := hciph e he
              refine ⟨k, Nat.le_refl _, hkh, by simpa using hp, s.childSk, b, hkey', ?_, ?_⟩
              · exact ((SoleBelow.of_self hkey).congr (hsb0 k _ (Nat.le_refl _))).congr (hsb k _ (by omega))
              · rcases hb with hb | ⟨n, h1, h2, rfl, x, hx1, hx2⟩
                · exact Or.inl ((hb.congr (hsb0 k _ (Nat.le_refl _))).congr (hsb k _ (by omega)))
                · right
                  have := R.rng
                  refine ⟨n, by omega, by omega, rfl, ?_, _, List.mem_cons_self, v, List.mem_cons_self, x, hx1, hx2⟩
                  intro l' hl1 hl2
                  by_cases hlk : l' = k
                  · simp only [hlk, if_true]; omega
                  · rw [hnu l' (by omega)]
                    have := R.nuRng l' (by omega) hl2
                    omega
            · obtain ⟨l, h1, h2, hp, a, b, hkey', ha, hb⟩ := R.ciphers e he
              refine ⟨l, by omega, h2, by rw [hnu l h1]; exact hp, a, b, hkey', ha, ?_⟩
              rcases hb with hb | ⟨n, h3, h4, rfl, h5, q, hq, hv⟩
              · exact Or.inl hb
              · right
                refine ⟨n, by omega, h4, rfl, ?_, q, List.mem_cons_of_mem _ hq, hv⟩
                intro l' hl1 hl2
                by_cases hlk : l' = k
                · simp only [hlk, if_true]; omega
                · rw [hnu l' (by omega)]
                  exact h5 l' (by omega) hl2 }

/-- `encrypt_path` for a member at leaf `i` in a well-shaped tree with single leaf keys. -/
theorem encryptPath_ok (g : Gen) (c : Nat) {t : BeeKem} {h i : Nat} (hs : Shape t h) (hsg : Single t)
    (hi : i < 2 ^ h) {id : MemberId} (hid : AMap.get t.idToLeafIdx id = some i) {l : LeafNode}
    (hl : t.leafD i = some l) {sk : Sk} {sks : ShareKeyMap} (hsk : AMap.get sks ⟨sk⟩ = some sk) :
    ∃ s' newp ν,
      t.encryptPath g c id ⟨sk⟩ sks = .ok (s'.tree, s'.sks, s'.rng, s'.childSk,
        { leafId := id, leafIdx := i, leafPk := .share ⟨sk⟩, path := newp,
          removedKeys := l.pk.keys ++ keysOn t (path h i) }) ∧
      EncRes g { tree := { t with leaves := t.leaves.set i (some ⟨id, .share ⟨sk⟩⟩) }, sks, rng := c,
                 childIdx := .leaf i, childPk := ⟨sk⟩, childSk := sk, path := [], removed := l.pk.keys }
        s' h 0 i newp ν := by
  have hs1 := shape_setLeaf hs i (some ⟨id, .share ⟨sk⟩⟩)
  have hL : ∀ j, leafD { t with leaves := t.leaves.set i (some ⟨id, .share ⟨sk⟩⟩) } j =
      if j = i then some ⟨id, .share ⟨sk⟩⟩ else t.leafD j := leafD_set hs hi _
  have hsg1 : Single { t with leaves := t.leaves.set i (some ⟨id, .share ⟨sk⟩⟩) } := by
    constructor
    · intro j l' hl'
      rw [hL] at hl'
      split at hl'
      · simp only [Option.some.injEq] at hl'
        subst hl'; exact ⟨sk, rfl⟩
      · exact hsg.leaf j l' hl'
    · exact hsg.inner
  obtain ⟨s', newp, ν, hloop, R⟩ := encryptLoop_ok g hi (t.treeSize + 1) 0
    { tree := { t with leaves := t.leaves.set i (some ⟨id, .share ⟨sk⟩⟩) }, sks, rng := c,
      childIdx := .leaf i, childPk := ⟨sk⟩, childSk := sk, path := [], removed := l.pk.keys }
    hs1 hsg1 (Nat.zero_le _) (by simp [nd]) rfl
    (by simp only [Nat.pow_zero, Nat.div_one, keyD, hL]; simp)
    (by simp only [Nat.pow_zero, Nat.div_one, skipD, hL]; simp)
    (by have := size_gt hs; omega)
  refine ⟨s', newp, ν, ?_, R⟩
  have hk : t.nodeKeyForId id = .ok l.pk := by
    unfold nodeKeyForId leafIndexForId nodeKeyForIndex
    simp only [hid, bind, Except.bind]
    rw [leaf_ok hs hi, hl]
  unfold encryptPath
  rw [hk]
  unfold leafIndexForId
  simp only [hid, bind, Except.bind]
  rw [insertLeafAt_ok hs hi]
  simp only [hsk]
  have hts : ({ t with leaves := t.leaves.set i (some ⟨id, .share ⟨sk⟩⟩) } : BeeKem).treeSize = t.treeSize := rfl
  rw [hloop]
  simp only [pure, Except.pure]
  have h1 := R.pathEq
  have h2 := R.removed
  simp only [List.nil_append] at h1
  rw [above_zero] at h2
  rw [h1, h2]
  rfl

end BeeKem

end Verif.BeeKem
