import Verif.BeeKem.EncLoop
import Mathlib.Tactic.ByContra

/-! # Helper lemmas: bookkeeping invariants of the tree and of `remove_id` -/

set_option linter.dupNamespace false

namespace Verif.BeeKem

open Verif.TreeMath

namespace BeeKem

theorem innerD_lt {t : BeeKem} {h j : Nat} (hs : Shape t h) (hj : t.innerD j ≠ none) : j < 2 ^ h - 1 := by
  rw [← hs.inner]
  by_contra hc
  apply hj
  unfold innerD
  rw [List.getElem?_eq_none (by omega)]
  rfl

theorem leafD_lt {t : BeeKem} {h j : Nat} (hs : Shape t h) (hj : t.leafD j ≠ none) : j < 2 ^ h := by
  rw [← hs.leaves]
  by_contra hc
  apply hj
  unfold leafD
  rw [List.getElem?_eq_none (by omega)]
  rfl

theorem directPathRes_ok {t : BeeKem} {h i : Nat} (hs : Shape t h) (hi : i < 2 ^ h) :
    t.directPathRes i = .ok (path h i) := by
  unfold directPathRes
  rw [hs.size, directPath_leaf hi]
  rfl

/-- Bookkeeping invariant that holds after any operations. -/
structure WInv (t : BeeKem) (h : Nat) : Prop where
  shape : Shape t h
  next : t.nextLeafIdx ≤ 2 ^ h
  tail : ∀ j, t.nextLeafIdx ≤ j → t.leafD j = none
  wf : AMap.WF t.idToLeafIdx
  ids : ∀ id i, AMap.get t.idToLeafIdx id = some i → ∃ l, t.leafD i = some l ∧ l.id = id
  vers : ∀ j s, t.innerD j = some s → s.versions ≠ []

/-- Bookkeeping invariant when no identity is added while present. -/
structure SInv (t : BeeKem) (h : Nat) : Prop extends WInv t h where
  back : ∀ i l, t.leafD i = some l → AMap.get t.idToLeafIdx l.id = some i

theorem WInv.lt {t : BeeKem} {h : Nat} (w : WInv t h) {id : MemberId} {i : Nat}
    (hg : AMap.get t.idToLeafIdx id = some i) : i < 2 ^ h := by
  obtain ⟨l, hl, _⟩ := w.ids id i hg
  exact leafD_lt w.shape (by simp [hl])

theorem WInv.occ_lt {t : BeeKem} {h : Nat} (w : WInv t h) {i : Nat} (hg : t.leafD i ≠ none) :
    i < t.nextLeafIdx := by
  by_contra hc
  exact hg (w.tail i (by omega))

/-- Result of blanking the leaves in `B` (some of them may be refilled) and their paths. -/
structure Blanked (t t' : BeeKem) (h' : Nat) (B : List Nat) : Prop where
  leaf : ∀ j, j ∉ B → t'.leafD j = t.leafD j
  inner : ∀ j, t'.innerD j = if ∃ b ∈ B, j ∈ path h' b then none else t.innerD j

theorem Blanked.trans {t t1 t2 : BeeKem} {h : Nat} {B C : List Nat} (a : Blanked t t1 h B)
    (b : Blanked t1 t2 h C) : Blanked t t2 h (B ++ C) := by
  constructor
  · intro j hj
    rw [List.mem_append, not_or] at hj
    rw [b.leaf j hj.2, a.leaf j hj.1]
  · intro j
    rw [b.inner, a.inner]
    by_cases h1 : ∃ b ∈ C, j ∈ path h b
    · rw [if_pos h1, if_pos]
      obtain ⟨x, hx, hy⟩ := h1
      exact ⟨x, by simp [hx], hy⟩
    · rw [if_neg h1]
      by_cases h2 : ∃ b ∈ B, j ∈ path h b
      · rw [if_pos h2, if_pos]
        obtain ⟨x, hx, hy⟩ := h2
        exact ⟨x, by simp [hx], hy⟩
      · rw [if_neg h2, if_neg]
        rintro ⟨x, hx, hy⟩
        rcases List.mem_append.1 hx with hx | hx
        · exact h2 ⟨x, hx, hy⟩
        · exact h1 ⟨x, hx, hy⟩

/-- A node still occupied after blanking has an unchanged subtree. -/
theorem Blanked.sameBelow {t t' : BeeKem} {h' : Nat} {B : List Nat} (hs : Shape t' h')
    (hb : Blanked t t' h' B) {k m : Nat} (hne : t'.innerD (nodeInner k m) ≠ none) :
    SameBelow t t' (k + 1) m := by
  have hk : k < h' := (nodeInner_lt.1 (innerD_lt hs hne)).1
  have hnb : ∀ b ∈ B, b / 2 ^ (k + 1) ≠ m := by
    intro b hb' he
    apply hne
    rw [hb.inner, if_pos]
    exact ⟨b, hb', mem_path_nodeInner.2 ⟨hk, he.symm⟩⟩
  intro k' m' h1 h2
  cases k' with
  | zero =>
    change t.leafD m' = t'.leafD m'
    rw [hb.leaf]
    intro hm
    exact hnb m' hm h2
  | succ k' =>
    change t.innerD _ = t'.innerD _
    rw [hb.inner, if_neg]
    rintro ⟨b, hb', hp⟩
    obtain ⟨_, rfl⟩ := mem_path_nodeInner.1 hp
    rw [div_div_pow] at h2
    apply hnb b hb'
    rw [← h2]
    congr 2
    omega

theorem inner_of_skip {t : BeeKem} {k m : Nat} (h : t.skipD (k + 1) m = false) :
    t.innerD (nodeInner k m) ≠ none := by
  intro hc
  simp [skipD, hc] at h

/-- Every leaf single-keyed, every inner node that is neither blank nor in conflict openable by
those it was encrypted for. -/
structure Good (t : BeeKem) : Prop where
  single : Single t
  node : ∀ k m, t.skipD (k + 1) m = false → NodeGood t k m

theorem Good.blank {t t' : BeeKem} {h' : Nat} {B : List Nat} (hg : Good t) (hs : Shape t' h')
    (hb : Blanked t t' h' B)
    (hl : ∀ i l, t'.leafD i = some l → ∃ s, l.pk = .share ⟨s⟩) : Good t' := by
  constructor
  · refine ⟨hl, ?_⟩
    intro j s hj
    rw [hb.inner] at hj
    split at hj
    · simp at hj
    · exact hg.single.inner j s hj
  · intro k m hne
    have hsb := hb.sameBelow hs (inner_of_skip hne)
    exact (hg.node k m (by rw [hsb.self.skip]; exact hne)).congr hsb

/-! ## Growing the member list -/

theorem pushLeaf_full {t : BeeKem} {h : Nat} (w : WInv t h) (id : MemberId) (pk : NodeKey) :
    ∃ t' h', t.pushLeaf id pk = .ok (t', t.nextLeafIdx) ∧ WInv t' h' ∧ h ≤ h' ∧
      t'.nextLeafIdx = t.nextLeafIdx + 1 ∧
      t'.idToLeafIdx = AMap.insert t.idToLeafIdx id t.nextLeafIdx ∧
      (∀ j, t'.leafD j = if j = t.nextLeafIdx then some ⟨id, pk⟩ else t.leafD j) ∧
      Blanked t t' h' [t.nextLeafIdx] := by
  obtain ⟨t', h', heq, hs, hh, hlt, hn, hid, hl, hi⟩ := pushLeaf_ok w.shape w.next id pk
  refine ⟨t', h', heq, ?_, by omega, hn, hid, hl, ?_⟩
  · refine ⟨hs, by omega, ?_, ?_, ?_, ?_⟩
    · intro j hj
      rw [hl, if_neg (by omega)]
      exact w.tail j (by omega)
    · rw [hid]; exact AMap.wf_insert w.wf _ _
    · intro id' i hg
      rw [hid, AMap.get_insert] at hg
      split at hg
      · rename_i he
        simp only [Option.some.injEq] at hg
        subst hg he
        exact ⟨⟨id', pk⟩, by rw [hl, if_pos rfl], rfl⟩
      · obtain ⟨l, hl', hlid⟩ := w.ids id' i hg
        refine ⟨l, ?_, hlid⟩
        rw [hl, if_neg, hl']
        intro he
        rw [he, w.tail _ (Nat.le_refl _)] at hl'
        simp at hl'
    · intro j s hj
      rw [hi] at hj
      split at hj
      · simp at hj
      · exact w.vers j s hj
  · constructor
    · intro j hj
      rw [hl, if_neg (by simpa using hj)]
    · intro j
      rw [hi]
      simp

theorem pushLeaf_strong {t : BeeKem} {h : Nat} (w : SInv t h) {id : MemberId} (pk : NodeKey)
    (hnew : AMap.get t.idToLeafIdx id = none) {t' : BeeKem} {h' : Nat} (w' : WInv t' h')
    (hid : t'.idToLeafIdx = AMap.insert t.idToLeafIdx id t.nextLeafIdx)
    (hl : ∀ j, t'.leafD j = if j = t.nextLeafIdx then some ⟨id, pk⟩ else t.leafD j) : SInv t' h' := by
  refine ⟨w', ?_⟩
  intro i l hil
  rw [hl] at hil
  rw [hid, AMap.get_insert]
  split at hil
  · rename_i he
    simp only [Option.some.injEq] at hil
    subst hil
    simp [he]
  · have := w.back i l hil
    rw [if_neg, this]
    intro he
    rw [he, hnew] at this
    simp at this

/-! ## `remove_id` -/

theorem dropTombstones_ok (fuel : Nat) : ∀ {t : BeeKem} {h : Nat}, Shape t h → t.nextLeafIdx ≤ 2 ^ h →
    (∃ i, i < t.nextLeafIdx ∧ t.leafD i ≠ none) → t.nextLeafIdx < fuel →
    ∃ t' B, dropTombstones fuel t = .ok t' ∧ Shape t' h ∧ t'.idToLeafIdx = t.idToLeafIdx ∧
      t'.nextLeafIdx ≤ t.nextLeafIdx ∧
      (∀ j, t'.nextLeafIdx ≤ j → j < t.nextLeafIdx → t.leafD j = none) ∧
      (∀ j, t'.leafD j = t.leafD j) ∧ (∀ b ∈ B, b < 2 ^ h ∧ t.leafD b = none) ∧
      (∃ j, t'.nextLeafIdx = j + 1 ∧ t'.leafD j ≠ none) ∧
      Blanked t t' h B := by
  induction fuel with
  | zero => intro t h _ _ _ hf; omega
  | succ fuel ih =>
    intro t h hs hn hex hf
    obtain ⟨i, hi, hocc⟩ := hex
    have hlt : t.nextLeafIdx - 1 < 2 ^ h := by omega
    by_cases hl : t.leafD (t.nextLeafIdx - 1) = none
    · have hs1 := shape_blank hs (path h (t.nextLeafIdx - 1))
      have hs2 : Shape { t with innerNodes := blankAll t.innerNodes (path h (t.nextLeafIdx - 1)), nextLeafIdx := t.nextLeafIdx - 1 } h :=
        ⟨hs1.pos, hs1.size, hs1.leaves, hs1.inner⟩
      have hi' : i < t.nextLeafIdx - 1 := by
        by_contra hc
        have : i = t.nextLeafIdx - 1 := by omega
        rw [this] at hocc
        exact hocc hl
      obtain ⟨t', B, h1, h2, h3, h4, h5, h6, h7, h8, h9⟩ :=
        ih hs2 (by simp only; omega) ⟨i, hi', hocc⟩ (by simp only; omega)
      refine ⟨t', (t.nextLeafIdx - 1) :: B, ?_, h2, h3, by simp only at h4; omega, ?_, h6, ?_, h8, ?_⟩
      · unfold dropTombstones
        rw [if_neg (by omega), leaf_ok hs hlt, hl, blankPath_ok hs hlt]
        exact h1
      · intro j hj1 hj2
        by_cases he : j = t.nextLeafIdx - 1
        · rw [he]; exact hl
        · exact h5 j hj1 (by simp only; omega)
      · intro b hb
        rcases List.mem_cons.1 hb with rfl | hb
        · exact ⟨hlt, hl⟩
        · exact h7 b hb
      · have hb1 : Blanked t { t with innerNodes := blankAll t.innerNodes (path h (t.nextLeafIdx - 1)), nextLeafIdx := t.nextLeafIdx - 1 } h [t.nextLeafIdx - 1] := by
          constructor
          · intro j _; rfl
          · intro j
            have := innerD_blank t (path h (t.nextLeafIdx - 1)) j
            simp only [List.mem_singleton, exists_eq_left]
            exact this
        exact hb1.trans h9
    · refine ⟨t, [], ?_, hs, rfl, Nat.le_refl _, by intro j _ _; omega, fun _ => rfl, by simp, ?_, ?_⟩
      · unfold dropTombstones
        rw [if_neg (by omega), leaf_ok hs hlt]
        cases hc : t.leafD (t.nextLeafIdx - 1) with
        | none => exact absurd hc hl
        | some l => rfl
      · exact ⟨t.nextLeafIdx - 1, by omega, hl⟩
      · exact ⟨fun _ _ => rfl, by simp⟩

theorem collectKeys_ok {t : BeeKem} {h : Nat} (hs : Shape t h)
    (hv : ∀ j s, t.innerD j = some s → s.versions ≠ []) (idxs : List Nat)
    (hj : ∀ j ∈ idxs, j < 2 ^ h - 1) : t.collectKeys idxs = .ok (keysOn t idxs) := by
  induction idxs with
  | nil => rfl
  | cons j idxs ih =>
    have hjj := hj j (by simp)
    have : t.innerKeys j = .ok (keysOn t [j]) := by
      unfold innerKeys keysOn
      rw [innerNode_ok hs hjj]
      cases hi : t.innerD j with
      | none => simp [hi, bind, Except.bind, pure, Except.pure]
      | some st =>
        obtain ⟨nk, h1, h2⟩ := nodeKey_keys (hv j st hi)
        simp [hi, bind, Except.bind, pure, Except.pure, h1, h2]
    unfold collectKeys
    rw [this, ih (fun x hx => hj x (List.mem_cons_of_mem _ hx))]
    simp [bind, Except.bind, pure, Except.pure, keysOn]

theorem length_erase {K V : Type} [DecidableEq K] {m : AMap K V} (hw : AMap.WF m) {k : K} {v : V}
    (hg : AMap.get m k = some v) : (AMap.erase m k).length + 1 = m.length := by
  induction m with
  | nil => simp at hg
  | cons p m ih =>
    obtain ⟨a, b⟩ := p
    have hw' : AMap.WF m := (List.nodup_cons.1 hw).2
    have hn : a ∉ AMap.keys m := (List.nodup_cons.1 hw).1
    rw [AMap.get_cons] at hg
    split at hg
    · rename_i he
      subst he
      have : AMap.erase m a = m := by
        unfold AMap.erase
        rw [List.filter_eq_self]
        intro q hq
        rw [decide_eq_true_iff]
        intro hc
        apply hn
        rw [← hc]
        exact List.mem_map_of_mem hq
      simp only [AMap.erase, List.filter_cons, ne_eq, not_true_eq_false, decide_false, Bool.false_eq_true, if_false]
      unfold AMap.erase at this
      simp only [ne_eq] at this
      rw [this]; rfl
    · rename_i he
      have := ih hw' hg
      simp only [AMap.erase, List.filter_cons, ne_eq, he, not_false_eq_true, decide_true, if_true]
      unfold AMap.erase at this
      simp only [ne_eq] at this
      simp only [List.length_cons]
      rw [this]

theorem exists_other {m : AMap MemberId Nat} (hw : AMap.WF m) {k : MemberId} {v : Nat}
    (hg : AMap.get m k = some v) (hlen : m.length ≠ 1) : ∃ k' v', k' ≠ k ∧ AMap.get m k' = some v' := by
  have hl := length_erase hw hg
  cases he : AMap.erase m k with
  | nil => rw [he] at hl; simp at hl; omega
  | cons p r =>
    obtain ⟨a, b⟩ := p
    refine ⟨a, b, ?_, ?_⟩
    · have : AMap.get (AMap.erase m k) a = some b := by rw [he, AMap.get_cons, if_pos rfl]
      rw [AMap.get_erase] at this
      intro hc
      rw [if_pos hc] at this
      simp at this
    · have : AMap.get (AMap.erase m k) a = some b := by rw [he, AMap.get_cons, if_pos rfl]
      rw [AMap.get_erase] at this
      split at this
      · simp at this
      · exact this

/-- `remove_id` on a present member that is not the last one. -/
theorem removeId_ok {t : BeeKem} {h : Nat} (w : WInv t h) {id : MemberId} {i : Nat}
    (hg : AMap.get t.idToLeafIdx id = some i) (hlen : t.memberCount ≠ 1) :
    ∃ t' B, t.removeId id = .ok (t', i, keysOn t (path h i)) ∧ WInv t' h ∧
      t'.idToLeafIdx = AMap.erase t.idToLeafIdx id ∧
      (∀ j, t'.leafD j = if j = i then none else t.leafD j) ∧
      i ∈ B ∧ (∀ b ∈ B, b < 2 ^ h ∧ t'.leafD b = none) ∧ Blanked t t' h B := by
  have hi := w.lt hg
  obtain ⟨t1, h1, hs1, hn1, hid1, hl1, hi1⟩ := blankLeafAndPath_ok w.shape hi
  obtain ⟨id', i', hne, hg'⟩ := exists_other w.wf hg hlen
  obtain ⟨l', hl', hlid'⟩ := w.ids id' i' hg'
  obtain ⟨l, hl, hlid⟩ := w.ids id i hg
  have hii : i' ≠ i := by
    intro he
    rw [he, hl] at hl'
    simp only [Option.some.injEq] at hl'
    rw [hl', hlid'] at hlid
    exact hne hlid
  have hs2 : Shape { t1 with idToLeafIdx := AMap.erase t1.idToLeafIdx id } h :=
    ⟨hs1.pos, hs1.size, hs1.leaves, hs1.inner⟩
  have hleaf2 : ∀ j, ({ t1 with idToLeafIdx := AMap.erase t1.idToLeafIdx id } : BeeKem).leafD j =
      if j = i then none else t.leafD j := hl1
  have hocc' : ({ t1 with idToLeafIdx := AMap.erase t1.idToLeafIdx id } : BeeKem).leafD i' ≠ none := by
    rw [hleaf2, if_neg hii, hl']; simp
  have hlt' : i' < t1.nextLeafIdx := by
    rw [hn1]; exact w.occ_lt (by rw [hl']; simp)
  obtain ⟨t', B, h3, hs3, hid3, hn3, htail3, hl3, hB, hlast, hbl⟩ :=
    dropTombstones_ok (t1.nextLeafIdx + 1) hs2 (by simp only; rw [hn1]; exact w.next)
      ⟨i', hlt', hocc'⟩ (by simp only; omega)
  have hbl1 : Blanked t { t1 with idToLeafIdx := AMap.erase t1.idToLeafIdx id } h [i] := by
    constructor
    · intro j hj
      rw [hleaf2, if_neg (by simpa using hj)]
    · intro j
      simp only [List.mem_singleton, exists_eq_left]
      exact hi1 j
  have hl4 : ∀ j, t'.leafD j = if j = i then none else t.leafD j := by
    intro j; rw [hl3, hleaf2]
  refine ⟨t', i :: B, ?_, ?_, ?_, hl4, by simp, ?_, hbl1.trans hbl⟩
  · unfold removeId leafIndexForId
    rw [if_neg hlen]
    simp only [hg, bind, Except.bind]
    rw [directPathRes_ok w.shape hi]
    simp only
    rw [collectKeys_ok w.shape w.vers _ (fun j hj => path_lt hi hj)]
    simp only [h1]
    rw [h3]
    rfl
  · refine ⟨hs3, ?_, ?_, ?_, ?_, ?_⟩
    · have := w.next
      simp only [hn1] at hn3
      omega
    · intro j hj
      rw [hl4]
      split
      · rfl
      · rename_i hji
        by_cases hjn : j < t1.nextLeafIdx
        · have := htail3 j hj hjn
          rw [hleaf2, if_neg hji] at this
          exact this
        · apply w.tail
          rw [hn1] at hjn
          omega
    · rw [hid3]
      simp only [hid1]
      exact AMap.wf_erase w.wf _
    · intro id2 i2 hg2
      rw [hid3] at hg2
      simp only [hid1, AMap.get_erase] at hg2
      split at hg2
      · simp at hg2
      · rename_i hne2
        obtain ⟨l2, hl2, hlid2⟩ := w.ids id2 i2 hg2
        refine ⟨l2, ?_, hlid2⟩
        rw [hl4, if_neg, hl2]
        intro he
        rw [he, hl] at hl2
        simp only [Option.some.injEq] at hl2
        rw [← hl2, hlid] at hlid2
        exact hne2 hlid2.symm
    · intro j s hj
      rw [(hbl1.trans hbl).inner] at hj
      split at hj
      · simp at hj
      · exact w.vers j s hj
  · rw [hid3]; simp only [hid1]
  · intro b hb
    rcases List.mem_cons.1 hb with rfl | hb
    · exact ⟨hi, by rw [hl4, if_pos rfl]⟩
    · obtain ⟨h5, h6⟩ := hB b hb
      exact ⟨h5, by rw [hl3]; exact h6⟩

theorem removeId_strong {t t' : BeeKem} {h : Nat} (w : SInv t h) {id : MemberId} {i : Nat}
    (hg : AMap.get t.idToLeafIdx id = some i) (w' : WInv t' h)
    (hid : t'.idToLeafIdx = AMap.erase t.idToLeafIdx id)
    (hl : ∀ j, t'.leafD j = if j = i then none else t.leafD j) : SInv t' h := by
  refine ⟨w', ?_⟩
  intro j l hj
  rw [hl] at hj
  split at hj
  · simp at hj
  · rename_i hji
    have := w.back j l hj
    rw [hid, AMap.get_erase, if_neg, this]
    intro he
    rw [he, hg] at this
    simp only [Option.some.injEq] at this
    exact hji this.symm

/-! ## The initial tree -/

theorem new_ok (id : MemberId) (pk : Pk) : ∃ t, BeeKem.new id pk = .ok t ∧ SInv t 1 ∧ Good t ∧
    t.nextLeafIdx = 1 ∧ t.idToLeafIdx = [(id, 0)] ∧
    (∀ j, t.leafD j = if j = 0 then some ⟨id, .share pk⟩ else none) ∧ (∀ j, t.innerD j = none) := by
  have hl : ∀ j, leafD { nextLeafIdx := 1, leaves := [some ⟨id, .share pk⟩, none], innerNodes := [none], treeSize := 3, idToLeafIdx := [(id, 0)] } j =
      if j = 0 then some ⟨id, .share pk⟩ else none := by
    intro j
    rcases j with _ | _ | j <;> simp [leafD]
  have hi : ∀ j, innerD { nextLeafIdx := 1, leaves := [some ⟨id, .share pk⟩, none], innerNodes := [none], treeSize := 3, idToLeafIdx := [(id, 0)] } j = none := by
    intro j
    rcases j with _ | j <;> simp [innerD]
  refine ⟨{ nextLeafIdx := 1, leaves := [some ⟨id, .share pk⟩, none], innerNodes := [none], treeSize := 3, idToLeafIdx := [(id, 0)] }, ?_, ⟨⟨⟨by decide, rfl, rfl, rfl⟩, by simp, ?_, ?_, ?_, ?_⟩, ?_⟩, ⟨⟨?_, ?_⟩, ?_⟩, rfl, rfl, hl, hi⟩
  · have h3 : TreeSize.fromLeafCount 1 = 3 := by decide +kernel
    have hp : parent (.leaf 0) = 0 := by decide +kernel
    have hlc : TreeSize.leafCount 3 = 2 := by decide +kernel
    have hic : TreeSize.innerNodeCount 3 = 1 := by decide +kernel
    have hr : root 3 = .inner 0 := by decide +kernel
    have hf0 : TreeSize.fromLeafCount 0 ≤ 3 := by decide +kernel
    simp [BeeKem.new, growTreeToSize, pushLeaf, maybeGrowTree, resizeNone, insertLeafAt, blankPath,
      blankPathLoop, isRoot, blankInnerNode, AMap.insert, AMap.erase, h3, hp, hlc, hic, hr, hf0,
      bind, Except.bind, pure, Except.pure, List.replicate]
  · intro j hj; rw [hl, if_neg (by simp only at hj; omega)]
  · simp [AMap.WF, AMap.keys]
  · intro id' i hg
    simp only [AMap.get_cons, AMap.get_nil] at hg
    split at hg
    · rename_i he
      simp only [Option.some.injEq] at hg
      subst hg he
      exact ⟨_, by rw [hl, if_pos rfl], rfl⟩
    · simp at hg
  · intro j s hj; rw [hi] at hj; simp at hj
  · intro i l hil
    rw [hl] at hil
    split at hil
    · simp only [Option.some.injEq] at hil
      subst hil
      rename_i he
      simp [AMap.get_cons, he]
    · simp at hil
  · intro i l hil
    rw [hl] at hil
    split at hil
    · simp only [Option.some.injEq] at hil
      subst hil
      exact ⟨pk.of, rfl⟩
    · simp at hil
  · intro j s hj; rw [hi] at hj; simp at hj
  · intro k m hne; exact absurd (hi _) (inner_of_skip hne)

end BeeKem

end Verif.BeeKem
