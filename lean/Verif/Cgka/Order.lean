import Verif.Cgka.FitInv

/-! # Helper lemmas: the replay order, and what a rebuild knows -/

namespace Verif.Cgka

open Verif.BeeKem Relation

theorem anc_iff {g : Graph} {heads : List Nat} (x : Nat) :
    g.Anc heads x ↔ x ∈ heads ∨ ∃ y ∈ heads, TransGen g.Pred x y := by
  constructor
  · intro h
    induction h with
    | head h => exact Or.inl h
    | step _ hp ih =>
      right
      rcases ih with h | ⟨y, hy, h⟩
      · exact ⟨_, h, .single hp⟩
      · exact ⟨y, hy, .head hp h⟩
  · rintro (h | ⟨y, hy, h⟩)
    · exact .head h
    · have key : ∀ a b, TransGen g.Pred a b → g.Anc heads b → g.Anc heads a := by
        intro a b hab
        induction hab with
        | single hp => exact fun hb => .step hb hp
        | tail _ hp ih => exact fun hc => ih (.step hc hp)
      exact key _ _ h (.head hy)

theorem anc_down {g : Graph} {heads : List Nat} {a b : Nat} (h : TransGen g.Pred a b) (hb : g.Anc heads b) :
    g.Anc heads a := by
  induction h with
  | single hp => exact .step hb hp
  | tail _ hp ih => exact ih (.step hb hp)

theorem edge_trans {g : Graph} {heads : List Nat} {a b : Nat} (h : TransGen g.Pred a b) (hb : g.Anc heads b) :
    TransGen (g.Edge heads) a b := by
  induction h with
  | single hp => exact .single ⟨hb, hp⟩
  | tail h hp ih => exact .tail (ih (.step hb hp)) ⟨hb, hp⟩

theorem trans_of_edge {g : Graph} {heads : List Nat} {a b : Nat} (h : TransGen (g.Edge heads) a b) :
    TransGen g.Pred a b := TransGen.mono (fun _ _ h => h.2) _ _ h

/-- The replay order, as digests. -/
structure OrderSpec (g : Graph) (heads : List Nat) (l : List (List Nat)) : Prop where
  nodup : l.flatten.Nodup
  ne : ∀ e ∈ l, e ≠ []
  mem : ∀ x, x ∈ l.flatten ↔ g.Anc heads x
  order : l.flatten.Pairwise (fun a b => ¬ TransGen g.Pred b a)
  sep : l.Pairwise (fun e f => ∀ x ∈ e, ∀ y ∈ f, TransGen g.Pred x y)

theorem order_spec {H : SOp → Nat} {g : Graph} (h : GInv H g) (h1 : OneRootG g) {heads : List Nat}
    (hn : heads.Nodup) (hk : ∀ x ∈ heads, AMap.get g.ops x ≠ none) (hne : heads ≠ []) :
    ∃ l es, g.sortHashes heads = .ok l ∧ g.topsortForHeads heads = .ok es ∧ es.map (List.map H) = l ∧
      (∀ o ∈ es.flatten, AMap.get g.ops (H o) = some o) ∧ OrderSpec g heads l := by
  obtain ⟨l, hl, hl0, hcase⟩ := sortHashes_spec h.closed h.acyclic hn (fun x hx => (h.keys x).1 (hk x hx)) hne
  have hancK : ∀ x, g.Anc heads x → AMap.get g.ops x ≠ none := by
    intro x hx
    rcases (anc_iff x).1 hx with hx | ⟨y, _, hx⟩
    · exact hk x hx
    · rcases TransGen.head'_iff.1 hx with ⟨q, hq, _⟩
      exact (h.known_pred hq).1
  have spec : OrderSpec g heads l := by
    rcases hcase with ⟨⟨p0, x0, he0⟩, hs⟩ | ⟨hno, rfl⟩
    · have hmem : ∀ x, x ∈ l.flatten ↔ g.Anc heads x := by
        intro x
        rw [hs.mem]
        constructor
        · rintro (⟨p, hp⟩ | ⟨y, hy⟩)
          · exact hp.1
          · exact .step hy.1 hy.2
        · intro hx
          by_cases hp : ∃ p, g.Pred p x
          · obtain ⟨p, hp⟩ := hp
            exact Or.inl ⟨p, hx, hp⟩
          · push Not at hp
            obtain ⟨r, r1, r2, r3⟩ := h.reach_root (hancK x0 he0.1)
            have hrx := h1 r x r1 (hancK x hx) r2 hp
            subst hrx
            rcases r3 with rfl | r3
            · exact absurd he0.2 (r2 p0)
            · rcases TransGen.head'_iff.1 r3 with ⟨q, hq, hq2⟩
              refine Or.inr ⟨q, ?_, hq⟩
              rcases reflTransGen_iff_eq_or_transGen.1 hq2 with rfl | hq2
              · exact he0.1
              · exact anc_down hq2 he0.1
      refine ⟨hs.nodup, hs.ne, hmem, ?_, ?_⟩
      · refine (List.pairwise_iff_forall_sublist.2 ?_)
        intro a b hab hba
        have hm : a ∈ l.flatten := hab.subset (by simp)
        exact List.pairwise_iff_forall_sublist.1 hs.order hab (edge_trans hba ((hmem a).1 hm))
      · refine hs.sep.imp ?_
        intro e f hef x hx y hy
        exact trans_of_edge (hef x hx y hy)
    · have hnoA : ∀ p x, g.Anc heads x → ¬ g.Pred p x := fun p x hx hp => hno ⟨p, x, hx, hp⟩
      have hflat : [heads].flatten = heads := by simp
      refine ⟨by rw [hflat]; exact hn, by simpa using hne, ?_, ?_, by simp⟩
      · intro x
        rw [hflat]
        constructor
        · exact .head
        · intro hx
          rcases (anc_iff x).1 hx with hx | ⟨y, hy, hx⟩
          · exact hx
          · obtain ⟨q, _, hq⟩ := TransGen.tail'_iff.1 hx
            exact absurd hq (hnoA _ _ (.head hy))
      · rw [hflat]
        refine List.pairwise_iff_forall_sublist.2 ?_
        intro a b hab hba
        obtain ⟨q, _, hq⟩ := TransGen.tail'_iff.1 hba
        exact hnoA _ _ (.head (hab.subset (by simp))) hq
  obtain ⟨es, he1, he2⟩ := lookupEpochs_ok (g := g) l (fun x hx => hancK x ((spec.mem x).1 hx))
  have hes : ∀ o ∈ es.flatten, AMap.get g.ops (H o) = some o := by
    intro o ho
    have h3 : some o ∈ (es.map (List.map some)).flatten := by
      rw [← List.map_flatten]
      exact List.mem_map_of_mem ho
    rw [he2, ← List.map_flatten] at h3
    obtain ⟨x, _, hx⟩ := List.mem_map.1 h3
    rw [h.hash x o hx]
    exact hx
  refine ⟨l, es, hl, ?_, ?_, hes, spec⟩
  · unfold Graph.topsortForHeads
    simp only [hl, bind, Except.bind]
    exact he1
  · have key : ∀ (a : List SOp) (b : List Nat), a.map some = b.map (AMap.get g.ops) → a.map H = b := by
      intro a b hab
      induction a generalizing b with
      | nil => cases b <;> simp_all
      | cons o a ih =>
        cases b with
        | nil => simp at hab
        | cons x b =>
          simp only [List.map_cons, List.cons.injEq] at hab ⊢
          exact ⟨h.hash x o hab.1.symm, ih b hab.2⟩
    clear hl hl0 hcase spec he1 hes
    induction es generalizing l with
    | nil => cases l <;> simp_all
    | cons e es ih =>
      cases l with
      | nil => simp at he2
      | cons x l =>
        simp only [List.map_cons, List.cons.injEq] at he2 ⊢
        exact ⟨key e x he2.1, ih l he2.2⟩

/-! ## The graph of a rebuild -/

/-- Every operation comes after its predecessors. -/
def Causal (H : SOp → Nat) : (Nat → Prop) → List SOp → Prop
  | _, [] => True
  | K, o :: l => (∀ p ∈ o.payload.preds, K p) ∧ Causal H (fun x => K x ∨ x = H o) l

theorem Causal.mono {H : SOp → Nat} {l : List SOp} {K K' : Nat → Prop} (hk : ∀ x, K x → K' x) (h : Causal H K l) :
    Causal H K' l := by
  induction l generalizing K K' with
  | nil => trivial
  | cons o l ih =>
    exact ⟨fun p hp => hk _ (h.1 p hp), ih (fun x hx => hx.imp (hk x) id) h.2⟩

theorem applyOps_graph {H : SOp → Nat} {l : List SOp} {c c' : Cgka} (hi : GInv H c.graph)
    (hc : Causal H (fun x => AMap.get c.graph.ops x ≠ none) l) (h : c.applyOps H l = .ok c') :
    GInv H c'.graph ∧ ∀ x, AMap.get c'.graph.ops x ≠ none ↔ AMap.get c.graph.ops x ≠ none ∨ ∃ o ∈ l, x = H o := by
  induction l generalizing c with
  | nil => cases h; exact ⟨hi, by simp⟩
  | cons o l ih =>
    simp only [Cgka.applyOps, bind, Except.bind] at h
    split at h
    · simp at h
    · rename_i c1 h1
      have hstep : GInv H c1.graph ∧ ∀ x, AMap.get c1.graph.ops x ≠ none ↔ AMap.get c.graph.ops x ≠ none ∨ x = H o := by
        by_cases hf : AMap.get c.graph.ops (H o) = none
        · obtain ⟨_, hg⟩ := applyOperation_tree hf h1
          rw [hg]
          refine ⟨hi.addOp hf hc.1, ?_⟩
          intro x
          show AMap.get (AMap.insert c.graph.ops (H o) o) x ≠ none ↔ _
          rw [AMap.get_insert]
          by_cases hx : x = H o <;> simp [hx]
        · unfold Cgka.applyOperation at h1
          rw [if_pos ((containsOpHash_iff _ _).2 hf)] at h1
          cases h1
          refine ⟨hi, ?_⟩
          intro x
          constructor
          · exact Or.inl
          · rintro (h | rfl)
            · exact h
            · exact hf
      obtain ⟨j1, j2⟩ := ih hstep.1 (hc.2.mono (fun x hx => (hstep.2 x).2 hx)) h
      refine ⟨j1, ?_⟩
      intro x
      rw [j2, hstep.2]
      simp only [List.mem_cons, exists_eq_or_imp, or_assoc]

theorem Causal.append {H : SOp → Nat} {a b : List SOp} {K : Nat → Prop} (h : Causal H K (a ++ b)) :
    Causal H K a ∧ Causal H (fun x => K x ∨ ∃ o ∈ a, x = H o) b := by
  induction a generalizing K with
  | nil => exact ⟨trivial, h.mono (fun x hx => Or.inl hx)⟩
  | cons o a ih =>
    obtain ⟨h1, h2⟩ := h
    obtain ⟨h3, h4⟩ := ih h2
    refine ⟨⟨h1, h3⟩, h4.mono ?_⟩
    rintro x ((hx | rfl) | ⟨o', ho', rfl⟩)
    · exact Or.inl hx
    · exact Or.inr ⟨o, by simp, rfl⟩
    · exact Or.inr ⟨o', by simp [ho'], rfl⟩

theorem applyEpochs_graph {H : SOp → Nat} {l : List (List SOp)} {c c' : Cgka} (hi : GInv H c.graph)
    (hc : Causal H (fun x => AMap.get c.graph.ops x ≠ none) l.flatten) (h : c.applyEpochs H l = .ok c') :
    GInv H c'.graph ∧ ∀ x, AMap.get c'.graph.ops x ≠ none ↔ AMap.get c.graph.ops x ≠ none ∨ ∃ o ∈ l.flatten, x = H o := by
  induction l generalizing c with
  | nil => cases h; exact ⟨hi, by simp⟩
  | cons e l ih =>
    simp only [Cgka.applyEpochs, bind, Except.bind] at h
    split at h
    · simp at h
    · rename_i c1 h1
      rw [List.flatten_cons] at hc
      obtain ⟨hc1, hc2⟩ := hc.append
      have hstep : GInv H c1.graph ∧ ∀ x, AMap.get c1.graph.ops x ≠ none ↔ AMap.get c.graph.ops x ≠ none ∨ ∃ o ∈ e, x = H o := by
        unfold Cgka.applyEpoch at h1
        split at h1
        · exact applyOps_graph hi hc1 h1
        · simp only [bind, Except.bind] at h1
          split at h1
          · simp at h1
          · rename_i c2 h2
            split at h1
            · simp at h1
            · cases h1
              have := applyOps_graph hi hc1 h2
              exact this
      obtain ⟨j1, j2⟩ := ih hstep.1 (hc2.mono (fun x hx => (hstep.2 x).2 hx)) h
      refine ⟨j1, ?_⟩
      intro x
      rw [j2, hstep.2]
      simp only [List.flatten_cons, List.mem_append, or_and_right, exists_or, or_assoc]

/-- The replay order is causal. -/
theorem order_causal {H : SOp → Nat} {g : Graph} (h : GInv H g) {heads : List Nat} {es : List (List SOp)}
    {l : List (List Nat)} (he : es.map (List.map H) = l) (hes : ∀ o ∈ es.flatten, AMap.get g.ops (H o) = some o)
    (hs : OrderSpec g heads l) (K : Nat → Prop) : Causal H K es.flatten := by
  have hflat : es.flatten.map H = l.flatten := by rw [← he, List.map_flatten]
  have key : ∀ (pre suf : List SOp), es.flatten = pre ++ suf → Causal H (fun x => ∃ o ∈ pre, x = H o) suf := by
    intro pre suf
    induction suf generalizing pre with
    | nil => intro _; trivial
    | cons o suf ih =>
      intro heq
      have ho : o ∈ es.flatten := by rw [heq]; simp
      refine ⟨?_, ?_⟩
      · intro p hp
        have hpo : g.Pred p (H o) := (h.predOf _ _).2 ⟨o, hes o ho, hp⟩
        have hanc : g.Anc heads (H o) := (hs.mem _).1 (by rw [← hflat]; exact List.mem_map_of_mem ho)
        have hpm := (hs.mem p).2 (.step hanc hpo)
        rw [← hflat, heq, List.map_append, List.map_cons, List.mem_append] at hpm
        rcases hpm with hpm | hpm
        · obtain ⟨q, hq, rfl⟩ := List.mem_map.1 hpm
          exact ⟨q, hq, rfl⟩
        · exfalso
          rcases List.mem_cons.1 hpm with hpm | hpm
          · obtain ⟨rank, hr⟩ := h.acyclic
            have := hr _ _ hpo
            rw [hpm] at this
            omega
          · have hord := hs.order
            rw [← hflat, heq, List.map_append, List.map_cons, List.pairwise_append] at hord
            exact (List.pairwise_cons.1 hord.2.1).1 p hpm (.single hpo)
      · refine (ih (pre ++ [o]) (by rw [heq]; simp)).mono ?_
        rintro x ⟨q, hq, rfl⟩
        rcases List.mem_append.1 hq with hq | hq
        · exact Or.inl ⟨q, hq, rfl⟩
        · rw [List.mem_singleton.1 hq]; exact Or.inr rfl
  exact (key [] es.flatten rfl).mono (by rintro x ⟨o, ho, _⟩; simp at ho)

theorem anc_all {H : SOp → Nat} {g : Graph} (h : GInv H g) (x : Nat) : g.Anc g.heads x ↔ AMap.get g.ops x ≠ none := by
  rw [anc_iff]
  constructor
  · rintro (hx | ⟨y, _, hx⟩)
    · exact ((h.heads x).1 hx).1
    · rcases TransGen.head'_iff.1 hx with ⟨q, hq, _⟩
      exact (h.known_pred hq).1
  · intro hx
    obtain ⟨s, hs, hxs⟩ := h.reach_head hx
    rcases hxs with rfl | hxs
    · exact Or.inl hs
    · exact Or.inr ⟨s, hs, hxs⟩

/-- A rebuild knows exactly what was known. -/
theorem rebuilt_graph {H : SOp → Nat} {orig : MemberId × Pk} {init : SOp} {g : Graph} {r : Cgka}
    (h : GInv H g) (h1 : OneRootG g) (hinit : AMap.get g.ops (H init) = some init) (hi : init.payload.preds = [])
    (hr : rebuilt H orig init g = .ok r) : GInv H r.graph ∧ SameOps r.graph g := by
  obtain ⟨l, es, hl, hts, hlm, hes, hs⟩ := order_spec h h1 h.headsN (fun x hx => ((h.heads x).1 hx).1) h.ne
  unfold rebuilt at hr
  have : g.topsortGraph = .ok es := hts
  simp only [this, bind, Except.bind] at hr
  split at hr
  · simp at hr
  · rename_i r0 h0
    have hg0 := (newFromInitAdd_frame h0).1
    have hgi : GInv H r0.graph := by rw [hg0]; exact GInv.new hi
    obtain ⟨j1, j2⟩ := applyEpochs_graph hgi (order_causal h hlm hes hs _) hr
    refine ⟨j1, ?_⟩
    have hflat : es.flatten.map H = l.flatten := by rw [← hlm, List.map_flatten]
    have hk : ∀ x, AMap.get r.graph.ops x ≠ none ↔ AMap.get g.ops x ≠ none := by
      intro x
      rw [j2]
      constructor
      · rintro (hx | ⟨o, ho, rfl⟩)
        · rw [hg0] at hx
          change AMap.get (AMap.insert [] (H init) init) x ≠ none at hx
          rw [AMap.get_insert] at hx
          split at hx
          · rename_i he; rw [he, hinit]; simp
          · simp at hx
        · rw [hes o ho]; simp
      · intro hx
        right
        have := (hs.mem x).2 ((anc_all h x).2 hx)
        rw [← hflat] at this
        obtain ⟨o, ho, rfl⟩ := List.mem_map.1 this
        exact ⟨o, ho, rfl⟩
    -- same values: from the digests
    have hval : ∀ {c c' : Cgka} {l : List (List SOp)}, c.applyEpochs H l = .ok c' →
        (∀ x o, AMap.get c.graph.ops x = some o → AMap.get g.ops x = some o) →
        (∀ o ∈ l.flatten, AMap.get g.ops (H o) = some o) →
        ∀ x o, AMap.get c'.graph.ops x = some o → AMap.get g.ops x = some o := by
      have hops : ∀ {l : List SOp} {c c' : Cgka}, c.applyOps H l = .ok c' →
        (∀ x o, AMap.get c.graph.ops x = some o → AMap.get g.ops x = some o) →
        (∀ o ∈ l, AMap.get g.ops (H o) = some o) →
        ∀ x o, AMap.get c'.graph.ops x = some o → AMap.get g.ops x = some o := by
        intro l
        induction l with
        | nil => intro c c' h; cases h; exact fun h _ => h
        | cons o l ih =>
          intro c c' h hc hl
          simp only [Cgka.applyOps, bind, Except.bind] at h
          split at h
          · simp at h
          · rename_i c1 h1
            refine ih h ?_ (fun o' ho' => hl o' (List.mem_cons_of_mem _ ho'))
            by_cases hf : AMap.get c.graph.ops (H o) = none
            · obtain ⟨_, hg⟩ := applyOperation_tree hf h1
              rw [hg]
              intro x o' hx
              change AMap.get (AMap.insert c.graph.ops (H o) o) x = _ at hx
              rw [AMap.get_insert] at hx
              split at hx
              · rename_i he
                cases hx
                rw [he]
                exact hl o (by simp)
              · exact hc x o' hx
            · unfold Cgka.applyOperation at h1
              rw [if_pos ((containsOpHash_iff _ _).2 hf)] at h1
              cases h1
              exact hc
      intro c c' l
      induction l generalizing c with
      | nil => intro h; cases h; exact fun h _ => h
      | cons e l ih =>
        intro h hc hl
        simp only [Cgka.applyEpochs, bind, Except.bind] at h
        split at h
        · simp at h
        · rename_i c1 h1
          refine ih h ?_ (fun o ho => hl o (by simp only [List.flatten_cons, List.mem_append]; exact Or.inr ho))
          have hl' : ∀ o ∈ e, AMap.get g.ops (H o) = some o :=
            fun o ho => hl o (by simp only [List.flatten_cons, List.mem_append]; exact Or.inl ho)
          unfold Cgka.applyEpoch at h1
          split at h1
          · exact hops h1 hc hl'
          · simp only [bind, Except.bind] at h1
            split at h1
            · simp at h1
            · rename_i c2 h2
              split at h1
              · simp at h1
              · cases h1
                have := hops h2 hc hl'
                exact this
    intro x
    have hv := hval hr (by
      rw [hg0]
      intro x o hx
      change AMap.get (AMap.insert [] (H init) init) x = _ at hx
      rw [AMap.get_insert] at hx
      split at hx
      · rename_i he; cases hx; rw [he, hinit]
      · simp at hx) hes x
    cases hx : AMap.get r.graph.ops x with
    | none =>
      by_contra hc
      exact (hk x).2 (fun h => hc h.symm) hx
    | some o => rw [hv o hx]

/-- With several heads, `replay` succeeds exactly when the rebuild does. -/
theorem replay_of_rebuilt {H : SOp → Nat} {c r : Cgka} (h : GInv H c.graph) (h1 : OneRootG c.graph)
    (hinit : AMap.get c.graph.ops (H c.initAddOp) = some c.initAddOp) (hi : c.initAddOp.payload.preds = [])
    (hl : c.graph.heads.length ≠ 1) (hr : rebuilt H c.originalMember c.initAddOp c.graph = .ok r) :
    ∃ c', c.replayOpsGraph H = .ok c' ∧ c'.tree = r.tree := by
  obtain ⟨g1, g2⟩ := rebuilt_graph h h1 hinit hi hr
  have hfit := rebuilt_fit hr
  obtain ⟨es, s, r', e1, e2, e3, e4⟩ := (rebuilt_replays (H := H) (c := c)).1 ⟨r, hr, rfl⟩
  have htg : tg r' = tg r := by
    unfold rebuilt at hr
    simp only [e1, bind, Except.bind] at hr
    split at hr
    · simp at hr
    · rename_i s' hs'
      have hst : tg s = tg s' := by
        obtain ⟨s2, hs2, hst⟩ := rebuildStart_tg e2
        rw [hs'] at hs2; cases hs2
        exact hst.symm
      obtain ⟨y, hy, hyt⟩ := sameTG_ok (applyEpochs_congr H es hst) e3
      rw [hr] at hy
      cases hy
      exact hyt.symm
  have hgr : r'.graph = r.graph := congrArg Prod.snd htg
  obtain ⟨b, hb⟩ := hfit.root
  have hlen : r'.graph.heads.length ≠ 1 := by
    rw [hgr, (headsPerm g2 g1 h).length_eq]; exact hl
  have hno : r'.hasPcsKey = .ok false := by
    unfold Cgka.hasPcsKey Graph.hasSingleHead
    rw [e4, hb]
    simp [bind, Except.bind, pure, Except.pure, hlen]
  refine ⟨{ c.updateCgkaFrom r' with pending := false }, ?_, e4⟩
  unfold Cgka.replayOpsGraph Cgka.rebuildCgka
  simp [e1, e2, e3, hno, bind, Except.bind, pure, Except.pure]

end Verif.Cgka
