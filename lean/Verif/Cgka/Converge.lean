import Verif.Cgka.Settle

/-! # Helper lemmas: the held tree depends only on the known operations -/

namespace Verif.Cgka

open Verif.BeeKem Relation

theorem before_iff {H : SOp → Nat} {c : Cgka} (h : GInv H c.graph) (a b : Nat) :
    Before c a b ↔ TransGen c.graph.Pred a b := by
  constructor
  · intro hb
    induction hb with
    | direct hn => exact .single ((h.predOf _ _).2 hn)
    | more _ hn ih => exact .tail ih ((h.predOf _ _).2 hn)
  · intro hb
    induction hb with
    | single hn => exact .direct ((h.predOf _ _).1 hn)
    | tail _ hn ih => exact .more ih ((h.predOf _ _).1 hn)

theorem knows_iff (c : Cgka) (x : Nat) : Knows c x ↔ AMap.get c.graph.ops x ≠ none := by
  unfold Knows
  cases AMap.get c.graph.ops x <;> simp

theorem names_iff {H : SOp → Nat} {c : Cgka} (h : GInv H c.graph) (p x : Nat) : Names c p x ↔ c.graph.Pred p x :=
  (h.predOf p x).symm

theorem GInv.known_pred {H : SOp → Nat} {g : Graph} (h : GInv H g) {p x : Nat} (hp : g.Pred p x) :
    AMap.get g.ops p ≠ none ∧ AMap.get g.ops x ≠ none := by
  obtain ⟨ps, h1, h2⟩ := hp
  refine ⟨(h.keys p).2 (h.closed x ps h1 p h2), (h.keys x).2 (by rw [h1]; simp)⟩

theorem GInv.reach_head {H : SOp → Nat} {g : Graph} (h : GInv H g) {x : Nat} (hx : AMap.get g.ops x ≠ none) :
    ∃ s ∈ g.heads, x = s ∨ TransGen g.Pred x s := by
  obtain ⟨rank, hr⟩ := h.acyclic
  obtain ⟨z, h1, h2, h3⟩ := reaches_head hr (P := AMap.keys g.ops) (x := x) ((AMap.mem_keys_iff _ _).2 hx)
  refine ⟨z, ?_, h3⟩
  rw [h.heads]
  refine ⟨(AMap.mem_keys_iff _ _).1 h1, ?_⟩
  intro y hy
  rcases h2 with h2 | ⟨w, hw1, hw2⟩
  · exact h2 y hy
  · exact hw2 ((AMap.mem_keys_iff _ _).2 (h.known_pred hw1).2)

theorem GInv.reach_root {H : SOp → Nat} {g : Graph} (h : GInv H g) {x : Nat} (hx : AMap.get g.ops x ≠ none) :
    ∃ r, AMap.get g.ops r ≠ none ∧ (∀ p, ¬ g.Pred p r) ∧ (r = x ∨ TransGen g.Pred r x) := by
  obtain ⟨rank, hr⟩ := h.acyclic
  generalize hk : rank x = k
  induction k using Nat.strongRecOn generalizing x with
  | ind k ih =>
    by_cases hp : ∀ p, ¬ g.Pred p x
    · exact ⟨x, hx, hp, Or.inl rfl⟩
    · push Not at hp
      obtain ⟨p, hp⟩ := hp
      obtain ⟨r, h1, h2, h3⟩ := ih (rank p) (hk ▸ hr p x hp) (h.known_pred hp).1 rfl
      refine ⟨r, h1, h2, Or.inr ?_⟩
      rcases h3 with rfl | h3
      · exact .single hp
      · exact .tail h3 hp

/-- Only one operation has no predecessors. -/
def OneRootG (g : Graph) : Prop :=
  ∀ a b, AMap.get g.ops a ≠ none → AMap.get g.ops b ≠ none → (∀ p, ¬ g.Pred p a) → (∀ p, ¬ g.Pred p b) → a = b

theorem oneRoot_iff {H : SOp → Nat} {c : Cgka} (h : GInv H c.graph) : OneRoot c ↔ OneRootG c.graph := by
  unfold OneRoot OneRootG
  simp only [knows_iff, names_iff h]

/-- With one root, either the root is all there is or every head has a predecessor. -/
theorem heads_shape {H : SOp → Nat} {g : Graph} (h : GInv H g) (h1 : OneRootG g) :
    (∀ s ∈ g.heads, ∃ p, g.Pred p s) ∨ ∃ r, g.heads = [r] := by
  by_cases hc : ∀ s ∈ g.heads, ∃ p, g.Pred p s
  · exact Or.inl hc
  · right
    push Not at hc
    obtain ⟨s, hs, hsp⟩ := hc
    refine ⟨s, ?_⟩
    apply List.perm_singleton.1
    rw [List.perm_ext_iff_of_nodup h.headsN (by simp)]
    intro x
    simp only [List.mem_singleton]
    constructor
    · intro hx
      obtain ⟨r, r1, r2, r3⟩ := h.reach_root ((h.heads x).1 hx).1
      have hrs := h1 r s r1 ((h.heads s).1 hs).1 r2 hsp
      subst hrs
      rcases r3 with rfl | r3
      · rfl
      · rcases TransGen.head'_iff.1 r3 with ⟨q, hq, _⟩
        exact absurd hq (((h.heads r).1 hs).2 q)
    · rintro rfl; exact hs

/-- Same operations. -/
def SameOps (g g' : Graph) : Prop := ∀ h, AMap.get g.ops h = AMap.get g'.ops h

theorem SameOps.pred {H : SOp → Nat} {g g' : Graph} (hs : SameOps g g') (h : GInv H g) (h' : GInv H g') (p x : Nat) :
    g.Pred p x ↔ g'.Pred p x := by
  rw [h.predOf, h'.predOf, hs x]

theorem SameOps.heads {H : SOp → Nat} {g g' : Graph} (hs : SameOps g g') (h : GInv H g) (h' : GInv H g') (x : Nat) :
    x ∈ g.heads ↔ x ∈ g'.heads := by
  rw [h.heads, h'.heads, hs x]
  simp only [hs.pred h h']

theorem SameOps.oneRoot {H : SOp → Nat} {g g' : Graph} (hs : SameOps g g') (h : GInv H g) (h' : GInv H g')
    (h1 : OneRootG g) : OneRootG g' := by
  intro a b ha hb ra rb
  rw [← hs] at ha hb
  exact h1 a b ha hb (fun p hp => ra p ((hs.pred h h' p a).1 hp)) (fun p hp => rb p ((hs.pred h h' p b).1 hp))

theorem headsPerm {H : SOp → Nat} {g g' : Graph} (hs : SameOps g g') (h : GInv H g) (h' : GInv H g') :
    g.heads.Perm g'.heads := by
  rw [List.perm_ext_iff_of_nodup h.headsN h'.headsN]
  exact hs.heads h h'

theorem lookupAll_congr {g g' : Graph} (hs : SameOps g g') (e : CgkaError) (l : List Nat) :
    g.lookupAll e l = g'.lookupAll e l := by
  induction l with
  | nil => rfl
  | cons a l ih => simp only [Graph.lookupAll, hs a, ih]

theorem lookupEpochs_congr {g g' : Graph} (hs : SameOps g g') (l : List (List Nat)) :
    g.lookupEpochs l = g'.lookupEpochs l := by
  induction l with
  | nil => rfl
  | cons a l ih => simp only [Graph.lookupEpochs, lookupAll_congr hs, ih]

theorem lookupAll_ok {g : Graph} (e : CgkaError) (l : List Nat) (h : ∀ x ∈ l, AMap.get g.ops x ≠ none) :
    ∃ os, g.lookupAll e l = .ok os ∧ os.map some = l.map (AMap.get g.ops) := by
  induction l with
  | nil => exact ⟨[], rfl, rfl⟩
  | cons a l ih =>
    obtain ⟨os, h1, h2⟩ := ih (fun x hx => h x (List.mem_cons_of_mem _ hx))
    cases ha : AMap.get g.ops a with
    | none => exact absurd ha (h a (by simp))
    | some o =>
      refine ⟨o :: os, ?_, ?_⟩
      · simp [Graph.lookupAll, ha, h1, bind, Except.bind, pure, Except.pure]
      · simp [ha, h2]

theorem lookupEpochs_ok {g : Graph} (l : List (List Nat)) (h : ∀ x ∈ l.flatten, AMap.get g.ops x ≠ none) :
    ∃ es, g.lookupEpochs l = .ok es ∧ es.map (List.map some) = l.map (List.map (AMap.get g.ops)) := by
  induction l with
  | nil => exact ⟨[], rfl, rfl⟩
  | cons a l ih =>
    obtain ⟨es, h1, h2⟩ := ih (fun x hx => h x (by simp only [List.flatten_cons, List.mem_append]; exact Or.inr hx))
    obtain ⟨os, h3, h4⟩ := lookupAll_ok .operationNotFound a (fun x hx => h x (by
      simp only [List.flatten_cons, List.mem_append]; exact Or.inl hx))
    refine ⟨os :: es, ?_, ?_⟩
    · simp [Graph.lookupEpochs, h1, h3, bind, Except.bind, pure, Except.pure]
    · simp [h2, h4]

theorem lookupEpochs_append (g : Graph) (a b : List (List Nat)) :
    g.lookupEpochs (a ++ b) = (g.lookupEpochs a).bind (fun x => (g.lookupEpochs b).bind (fun y => .ok (x ++ y))) := by
  induction a with
  | nil =>
    simp only [List.nil_append, Graph.lookupEpochs, Except.bind]
    cases g.lookupEpochs b <;> rfl
  | cons e a ih =>
    simp only [List.cons_append, Graph.lookupEpochs, bind, Except.bind, ih]
    cases g.lookupAll .operationNotFound e with
    | error => rfl
    | ok o =>
      cases g.lookupEpochs a with
      | error => rfl
      | ok x =>
        cases g.lookupEpochs b <;> rfl

theorem headsKnown {H : SOp → Nat} {g : Graph} (h : GInv H g) : ∀ x ∈ g.heads, AMap.get g.preds x ≠ none :=
  fun x hx => (h.keys x).1 ((h.heads x).1 hx).1

theorem sortHashes_congr {H : SOp → Nat} {g g' : Graph} (hs : SameOps g g') (h : GInv H g) (h' : GInv H g')
    (h1 : OneRootG g) : g.sortHashes g.heads = g'.sortHashes g'.heads := by
  obtain ⟨a, ha, _, _⟩ := sortHashes_spec h.closed h.acyclic h.headsN (headsKnown h) h.ne
  obtain ⟨b, hb, _, _⟩ := sortHashes_spec h'.closed h'.acyclic h'.headsN (headsKnown h') h'.ne
  have hanc : ∀ x, g.Anc g.heads x ↔ g'.Anc g'.heads x := by
    intro x
    constructor
    · intro hx
      induction hx with
      | head hx => exact .head ((hs.heads h h' _).1 hx)
      | step _ hp ih => exact .step ih ((hs.pred h h' _ _).1 hp)
    · intro hx
      induction hx with
      | head hx => exact .head ((hs.heads h h' _).2 hx)
      | step _ hp ih => exact .step ih ((hs.pred h h' _ _).2 hp)
  rw [ha, hb]
  congr 1
  refine sortHashes_det h.closed h.acyclic h'.closed h.headsN h'.headsN (headsKnown h) (headsKnown h') ?_ ?_ ha hb
  · intro p x
    unfold Graph.Edge
    rw [hanc, hs.pred h h']
  · rcases heads_shape h h1 with hp | ⟨r, hr⟩
    · obtain ⟨s, hs⟩ := List.exists_mem_of_ne_nil _ h.ne
      obtain ⟨p, hp⟩ := hp s hs
      exact Or.inl ⟨p, s, .head hs, hp⟩
    · right
      have := headsPerm hs h h'
      rw [hr] at this
      rw [hr, List.perm_singleton.1 this.symm]

theorem rebuilt_congr {H : SOp → Nat} {orig : MemberId × Pk} {init : SOp} {g g' : Graph} (hs : SameOps g g')
    (h : GInv H g) (h' : GInv H g') (h1 : OneRootG g) : rebuilt H orig init g = rebuilt H orig init g' := by
  unfold rebuilt Graph.topsortGraph Graph.topsortForHeads
  rw [sortHashes_congr hs h h' h1]
  congr 1
  cases g'.sortHashes g'.heads with
  | error e => rfl
  | ok l => exact lookupEpochs_congr hs l

theorem SameOps.sub {H : SOp → Nat} {g g' : Graph} {op : SOp} (h : GInv H g) (hf : AMap.get g.ops (H op) = none)
    (hops : g'.ops = AMap.insert g.ops (H op) op) (h' : GInv H g') (h1 : OneRootG g') :
    OneRootG g := by
  have hsub : ∀ x, AMap.get g.ops x ≠ none → AMap.get g'.ops x = AMap.get g.ops x := by
    intro x hx
    rw [hops, AMap.get_insert, if_neg]
    rintro rfl
    exact hx hf
  intro a b ha hb ra rb
  have hroot : ∀ x, AMap.get g.ops x ≠ none → (∀ p, ¬ g.Pred p x) → ∀ p, ¬ g'.Pred p x := by
    intro x hx hr p hp
    rw [h'.predOf, hsub x hx] at hp
    exact hr p ((h.predOf p x).2 hp)
  exact h1 a b (by rw [hsub a ha]; exact ha) (by rw [hsub b hb]; exact hb) (hroot a ha ra) (hroot b hb rb)

/-- The settled tree is a function of the known operations. -/
theorem Settled.unique {H : SOp → Nat} (hH : Function.Injective H) {orig : MemberId × Pk} {init : SOp}
    {g g' : Graph} {t t' : BeeKem}
    (hs : Settled H orig init g t) (hs' : Settled H orig init g' t') (h : GInv H g) (h' : GInv H g')
    (he : SameOps g g') (h1 : OneRootG g) (hi : init.payload.preds = []) : t = t' := by
  induction hs generalizing g' t' with
  | start hn =>
    cases hs' with
    | start hn' => rw [hn] at hn'; cases hn'; rfl
    | replay hl _ =>
      exfalso
      apply hl
      rw [← (headsPerm he h h').length_eq]
      rfl
    | @apply g0 _ _ _ op s0 i0 hf hcov hk _ hops _ =>
      exfalso
      have h3 : AMap.get g'.ops (H op) = some op := by rw [hops]; simp
      rw [← he] at h3
      have h4 : op = init := by
        have : AMap.get (Graph.new.addLocalOp H init).ops (H op) = if H op = H init then some init else none := by
          show AMap.get (AMap.insert [] (H init) init) _ = _
          rw [AMap.get_insert]
          rfl
        rw [this] at h3
        split at h3
        · cases h3; rfl
        · simp at h3
      subst h4
      obtain ⟨x, hx⟩ := List.exists_mem_of_ne_nil _ i0.ne
      have := hcov x hx
      rw [hi] at this
      simp at this
  | @replay g r hl hr =>
    cases hs' with
    | start hn' =>
      exfalso
      apply hl
      rw [(headsPerm he h h').length_eq]
      rfl
    | replay hl' hr' =>
      rw [rebuilt_congr he h h' h1, hr'] at hr
      cases hr; rfl
    | apply _ _ _ _ _ _ _ hl' =>
      exfalso
      apply hl
      rw [(headsPerm he h h').length_eq, hl']
  | @apply g0 g1 t0 t1 op s0 i0 hf hcov hk ht hops hl ih =>
    cases hs' with
    | start hn' =>
      exfalso
      have h3 : AMap.get g1.ops (H op) = some op := by rw [hops]; simp
      rw [he] at h3
      have h4 : op = init := by
        have : AMap.get (Graph.new.addLocalOp H init).ops (H op) = if H op = H init then some init else none := by
          show AMap.get (AMap.insert [] (H init) init) _ = _
          rw [AMap.get_insert]
          rfl
        rw [this] at h3
        split at h3
        · cases h3; rfl
        · simp at h3
      subst h4
      obtain ⟨x, hx⟩ := List.exists_mem_of_ne_nil _ i0.ne
      have := hcov x hx
      rw [hi] at this
      simp at this
    | replay hl' _ =>
      exfalso
      apply hl'
      rw [← (headsPerm he h h').length_eq, hl]
    | @apply g0' _ t0' _ op' s0' i0' hf' hcov' hk' ht' hops' hl2 =>
      -- the newest operation is the single head on both sides
      have hnp : op.payload.preds ≠ [] := by
        obtain ⟨x, hx⟩ := List.exists_mem_of_ne_nil _ i0.ne
        intro hc
        have := hcov x hx
        rw [hc] at this
        simp at this
      have top : ∀ {g0 g1 : Graph} {op : SOp}, GInv H g0 → GInv H g1 → AMap.get g0.ops (H op) = none →
          (∀ p ∈ op.payload.preds, AMap.get g0.ops p ≠ none) →
          g1.ops = AMap.insert g0.ops (H op) op → H op ∈ g1.heads := by
        intro g0 g1 op i0 i1 hf hk hops
        rw [i1.heads]
        refine ⟨by rw [hops]; simp, ?_⟩
        intro y hy
        rw [i1.predOf] at hy
        obtain ⟨o, ho, hpo⟩ := hy
        rw [hops, AMap.get_insert] at ho
        split at ho
        · cases ho
          exact hk _ hpo hf
        · exact (i0.known_pred ((i0.predOf _ _).2 ⟨o, ho, hpo⟩)).1 hf
      have m1 := top i0 h hf hk hops
      have m2 := top i0' h' hf' hk' hops'
      have m3 := (he.heads h h' _).1 m1
      have hop : op = op' := hH (eq_of_length_le_one (by omega) m3 m2)
      subst hop
      have he0 : SameOps g0 g0' := by
        intro x
        have := he x
        rw [hops, hops', AMap.get_insert, AMap.get_insert] at this
        by_cases hx : x = H op
        · rw [hx, hf, hf']
        · simpa [hx] using this
      have := ih s0' i0 i0' he0 (SameOps.sub i0 hf hops h h1)
      subst this
      rw [ht] at ht'
      cases ht'; rfl

/-! ## Incremental application agrees with a rebuild -/

/-- No operation names both an operation and one of its ancestors. -/
def TidyG (g : Graph) : Prop := ∀ x p q, g.Pred p x → g.Pred q x → ¬ TransGen g.Pred p q

theorem applyOps_known {H : SOp → Nat} {l : List SOp} {c c' : Cgka} (h : c.applyOps H l = .ok c') {x : Nat}
    (hx : AMap.get c'.graph.ops x ≠ none) : AMap.get c.graph.ops x ≠ none ∨ ∃ o ∈ l, x = H o := by
  induction l generalizing c with
  | nil => cases h; exact Or.inl hx
  | cons o l ih =>
    simp only [Cgka.applyOps, bind, Except.bind] at h
    split at h
    · simp at h
    · rename_i c1 h1
      rcases ih h with h2 | ⟨o', h2, h3⟩
      · by_cases hf : AMap.get c.graph.ops (H o) = none
        · obtain ⟨_, hg⟩ := applyOperation_tree hf h1
          rw [hg] at h2
          change AMap.get (AMap.insert c.graph.ops (H o) o) x ≠ none at h2
          rw [AMap.get_insert] at h2
          split at h2
          · rename_i he; exact Or.inr ⟨o, by simp, he⟩
          · exact Or.inl h2
        · unfold Cgka.applyOperation at h1
          rw [if_pos ((containsOpHash_iff _ _).2 hf)] at h1
          cases h1
          exact Or.inl h2
      · exact Or.inr ⟨o', List.mem_cons_of_mem _ h2, h3⟩

theorem applyEpochs_known {H : SOp → Nat} {l : List (List SOp)} {c c' : Cgka} (h : c.applyEpochs H l = .ok c') {x : Nat}
    (hx : AMap.get c'.graph.ops x ≠ none) : AMap.get c.graph.ops x ≠ none ∨ ∃ o ∈ l.flatten, x = H o := by
  induction l generalizing c with
  | nil => cases h; exact Or.inl hx
  | cons e l ih =>
    simp only [Cgka.applyEpochs, bind, Except.bind] at h
    split at h
    · simp at h
    · rename_i c1 h1
      rcases ih h with h2 | ⟨o', h2, h3⟩
      · have h4 : AMap.get c.graph.ops x ≠ none ∨ ∃ o ∈ e, x = H o := by
          unfold Cgka.applyEpoch at h1
          split at h1
          · exact applyOps_known h1 h2
          · simp only [bind, Except.bind] at h1
            split at h1
            · simp at h1
            · rename_i c2 hc2
              split at h1
              · simp at h1
              · cases h1
                exact applyOps_known hc2 h2
        rcases h4 with h4 | ⟨o, h4, h5⟩
        · exact Or.inl h4
        · exact Or.inr ⟨o, by simp [h4], h5⟩
      · exact Or.inr ⟨o', by simp only [List.flatten_cons, List.mem_append]; exact Or.inr h2, h3⟩

/-- What the sort returns for the heads of a graph. -/
theorem topsort_known {H : SOp → Nat} {g : Graph} (h : GInv H g) {es : List (List SOp)} (he : g.topsortGraph = .ok es) :
    ∃ l, g.sortHashes g.heads = .ok l ∧ g.lookupEpochs l = .ok es ∧ (∀ x ∈ l.flatten, AMap.get g.ops x ≠ none) ∧
      ∀ o ∈ es.flatten, AMap.get g.ops (H o) = some o := by
  obtain ⟨l, hl, _, hcase⟩ := sortHashes_spec h.closed h.acyclic h.headsN (headsKnown h) h.ne
  have hk : ∀ x ∈ l.flatten, AMap.get g.ops x ≠ none := by
    intro x hx
    rcases hcase with ⟨_, hs⟩ | ⟨_, rfl⟩
    · rcases (hs.mem x).1 hx with ⟨p, hp⟩ | ⟨y, hy⟩
      · exact (h.known_pred hp.2).2
      · exact (h.known_pred hy.2).1
    · simp only [List.flatten_cons, List.flatten_nil, List.append_nil] at hx
      exact ((h.heads x).1 hx).1
  obtain ⟨es', he1, he2⟩ := lookupEpochs_ok l hk
  unfold Graph.topsortGraph Graph.topsortForHeads at he
  simp only [hl, bind, Except.bind] at he
  refine ⟨l, hl, he, hk, ?_⟩
  rw [he] at he1
  cases he1
  intro o ho
  have h3 : some o ∈ (es.map (List.map some)).flatten := by
    rw [← List.map_flatten]
    exact List.mem_map_of_mem ho
  rw [he2, ← List.map_flatten] at h3
  obtain ⟨x, _, hx⟩ := List.mem_map.1 h3
  rw [h.hash x o hx]
  exact hx

theorem Settled.rebuilt {H : SOp → Nat} {orig : MemberId × Pk} {init : SOp} {g : Graph} {t : BeeKem}
    (hs : Settled H orig init g t) (h : GInv H g) (h1 : OneRootG g) (h2 : TidyG g)
    (hinit : AMap.get g.ops (H init) = some init) (hi : init.payload.preds = []) :
    ∃ r, rebuilt H orig init g = .ok r ∧ r.tree = t := by
  induction hs with
  | @start t hn =>
    have hno : ∀ p x, ¬ (Graph.new.addLocalOp H init).Pred p x := by
      rintro p x ⟨ps, h1, h2⟩
      change AMap.get [(H init, [])] x = _ at h1
      rw [AMap.get_cons] at h1
      split at h1
      · cases h1; simp at h2
      · simp at h1
    obtain ⟨l, hl, _, hcase⟩ := sortHashes_spec h.closed h.acyclic h.headsN (headsKnown h) h.ne
    rcases hcase with ⟨⟨p, x, hp⟩, _⟩ | ⟨_, rfl⟩
    · exact absurd hp.2 (hno p x)
    · obtain ⟨es, he1, he2⟩ := lookupEpochs_ok (g := Graph.new.addLocalOp H init) [[H init]] (by
        intro x hx
        simp at hx
        subst hx
        rw [hinit]; simp)
      have hes : es = [[init]] := by
        simp only [List.map_cons, List.map_nil, hinit] at he2
        have : es.map (List.map some) = [[init]].map (List.map some) := by simpa using he2
        exact List.map_injective_iff.2 (List.map_injective_iff.2 (fun _ _ h => Option.some.inj h)) this
      subst hes
      refine ⟨{ ownerId := orig.1, ownerSks := [], tree := t, graph := Graph.new.addLocalOp H init, pending := false, pcsKeys := [], pcsKeyOps := [], originalMember := (orig.1, orig.2), initAddOp := init }, ?_, rfl⟩
      have hts : (Graph.new.addLocalOp H init).topsortGraph = .ok [[init]] := by
        unfold Graph.topsortGraph Graph.topsortForHeads
        simp only [hl, bind, Except.bind]
        exact he1
      unfold Verif.Cgka.rebuilt Cgka.newFromInitAdd
      simp only [hts, hn, bind, Except.bind, pure, Except.pure]
      have hcon : (Graph.new.addLocalOp H init).containsOpHash (H init) = true := by
        rw [containsOpHash_iff, hinit]; simp
      simp [Cgka.applyEpochs, Cgka.applyEpoch, Cgka.applyOps, Cgka.applyOperation, hcon, bind, Except.bind]
  | @replay g r hl hr => exact ⟨r, hr, rfl⟩
  | @apply g0 g1 t0 t1 op s0 i0 hf hcov hk ht hops hl ih =>
    have hsub : ∀ x, AMap.get g0.ops x ≠ none → AMap.get g1.ops x = AMap.get g0.ops x := by
      intro x hx
      rw [hops, AMap.get_insert, if_neg]
      rintro rfl
      exact hx hf
    have hPred : ∀ p y, g1.Pred p y ↔ g0.Pred p y ∨ (y = H op ∧ p ∈ op.payload.preds) := by
      intro p y
      rw [h.predOf, i0.predOf, hops]
      simp only [AMap.get_insert]
      by_cases hy : y = H op
      · subst hy
        simp [hf]
      · simp [hy]
    have hmono : ∀ a b, TransGen g0.Pred a b → TransGen g1.Pred a b :=
      fun a b hab => TransGen.mono (fun p q hpq => (hPred p q).2 (Or.inl hpq)) _ _ hab
    have hnp : op.payload.preds ≠ [] := by
      obtain ⟨x, hx⟩ := List.exists_mem_of_ne_nil _ i0.ne
      intro hc
      have := hcov x hx
      rw [hc] at this
      simp at this
    have h10 := SameOps.sub i0 hf hops h h1
    have h20 : TidyG g0 := fun x p q hp hq hpq =>
      h2 x p q ((hPred _ _).2 (Or.inl hp)) ((hPred _ _).2 (Or.inl hq)) (hmono _ _ hpq)
    have hinit0 : AMap.get g0.ops (H init) = some init := by
      rw [hops, AMap.get_insert] at hinit
      split at hinit
      · cases hinit
        exact absurd hi hnp
      · exact hinit
    obtain ⟨r, hr, hrt⟩ := ih i0 h10 h20 hinit0
    -- the named predecessors are exactly the heads
    have hpreds : ∀ p, p ∈ op.payload.preds ↔ p ∈ g0.heads := by
      intro p
      refine ⟨?_, hcov p⟩
      intro hp
      obtain ⟨s, hs, hps⟩ := i0.reach_head (hk p hp)
      rcases hps with rfl | hps
      · exact hs
      · exact absurd (hmono _ _ hps) (h2 (H op) p s ((hPred _ _).2 (Or.inr ⟨rfl, hp⟩))
          ((hPred _ _).2 (Or.inr ⟨rfl, hcov s hs⟩)))
    have hheads : g1.heads = [H op] := by
      apply List.perm_singleton.1
      rw [List.perm_ext_iff_of_nodup h.headsN (by simp)]
      have hm : H op ∈ g1.heads := by
        rw [h.heads]
        refine ⟨by rw [hops]; simp, ?_⟩
        intro y hy
        rcases (hPred _ _).1 hy with hy | ⟨_, hy⟩
        · exact (i0.known_pred hy).1 hf
        · exact hk _ hy hf
      intro x
      constructor
      · intro hx
        simpa using eq_of_length_le_one (by omega) hx hm
      · intro hx
        rw [List.mem_singleton.1 hx]; exact hm
    unfold Verif.Cgka.rebuilt at hr
    simp only [bind, Except.bind] at hr
    split at hr
    · simp at hr
    · rename_i es hes
      split at hr
      · simp at hr
      · rename_i r0 hr0
        obtain ⟨l, hl1, hl2, hl3, hl4⟩ := topsort_known i0 hes
        obtain ⟨l', hl', _, _⟩ := sortHashes_spec h.closed h.acyclic h.headsN (headsKnown h) h.ne
        rw [hheads] at hl'
        have happ := sortHashes_append i0.closed h.closed h.acyclic i0.headsN (headsKnown i0)
          (fun s hs y => ((i0.heads s).1 hs).2 y) i0.ne
          (by by_contra hc; exact (i0.keys _).2 hc hf)
          ((h.keys _).1 (by rw [hops]; simp))
          (fun p y => by rw [hPred, hpreds]) (heads_shape i0 h10) hl1 hl'
        subst happ
        have hsame : ∀ m : List (List Nat), (∀ x ∈ m.flatten, AMap.get g0.ops x ≠ none) → g1.lookupEpochs m = g0.lookupEpochs m := by
          have key : ∀ (e : CgkaError) (m : List Nat), (∀ x ∈ m, AMap.get g0.ops x ≠ none) → g1.lookupAll e m = g0.lookupAll e m := by
            intro e m hm
            induction m with
            | nil => rfl
            | cons a m ihm =>
              simp only [Graph.lookupAll, hsub a (hm a (by simp)), ihm (fun x hx => hm x (List.mem_cons_of_mem _ hx))]
          intro m
          induction m with
          | nil => intro _; rfl
          | cons a l ihl =>
            intro hm
            simp only [Graph.lookupEpochs]
            rw [key _ a (fun x hx => hm x (by simp only [List.flatten_cons, List.mem_append]; exact Or.inl hx)),
              ihl (fun x hx => hm x (by simp only [List.flatten_cons, List.mem_append]; exact Or.inr hx))]
        have hgop : AMap.get g1.ops (H op) = some op := by rw [hops]; simp
        have hts : g1.topsortGraph = .ok (es ++ [[op]]) := by
          unfold Graph.topsortGraph Graph.topsortForHeads
          rw [hheads]
          simp only [hl', bind, Except.bind]
          rw [lookupEpochs_append, hsame l hl3, hl2]
          simp [Graph.lookupEpochs, Graph.lookupAll, hgop, bind, Except.bind, pure, Except.pure]
        have hrf : AMap.get r.graph.ops (H op) = none := by
          by_contra hc
          rcases applyEpochs_known hr hc with h3 | ⟨o, ho, h3⟩
          · rw [(newFromInitAdd_frame hr0).1] at h3
            change AMap.get (AMap.insert [] (H init) init) _ ≠ none at h3
            rw [AMap.get_insert] at h3
            split at h3
            · rename_i h4
              rw [h4, hinit0] at hf
              simp at hf
            · simp at h3
          · have := hl4 o ho
            rw [← h3, hf] at this
            simp at this
        refine ⟨{ r with tree := t1, graph := r.graph.addOp H op op.payload.preds }, ?_, rfl⟩
        unfold Verif.Cgka.rebuilt
        simp only [hts, hr0, bind, Except.bind]
        rw [applyEpochs_append, hr]
        simp only [Except.bind, Cgka.applyEpochs, Cgka.applyEpoch, List.length_singleton, true_or, if_true,
          Cgka.applyOps, bind]
        rw [applyOperation_eq hrf, hrt, ht]
        rfl

end Verif.Cgka
