import Verif.Cgka.StepInv
import Verif.Cgka.Append
import Verif.BeeKem.Fit

/-! # Helper lemmas: which tree a replica holds -/

namespace Verif.Cgka

open Verif.BeeKem Relation

/-- What applying an operation does to the tree. -/
def treeOp (t : BeeKem) (op : SOp) : Res BeeKem :=
  match op.payload with
  | .add id pk _ _ _ => do pure (← t.pushLeaf id (.share pk)).1
  | .remove id _ _ _ => do pure (← t.removeId id).1
  | .update _ newPath _ => t.applyPath newPath

theorem applyOperation_eq {H : SOp → Nat} {c : Cgka} {op : SOp} (hf : AMap.get c.graph.ops (H op) = none) :
    c.applyOperation H op = (treeOp c.tree op).bind
      (fun t => .ok { c with tree := t, graph := c.graph.addOp H op op.payload.preds }) := by
  unfold Cgka.applyOperation treeOp
  rw [if_neg (by rw [containsOpHash_iff]; simp [hf])]
  rfl

theorem applyOperation_tree {H : SOp → Nat} {c c' : Cgka} {op : SOp} (hf : AMap.get c.graph.ops (H op) = none)
    (h : c.applyOperation H op = .ok c') :
    treeOp c.tree op = .ok c'.tree ∧ c'.graph = c.graph.addOp H op op.payload.preds := by
  rw [applyOperation_eq hf] at h
  cases ht : treeOp c.tree op with
  | error e => rw [ht] at h; simp [Except.bind] at h
  | ok t =>
    rw [ht] at h
    simp only [Except.bind, Except.ok.injEq] at h
    subst h
    exact ⟨rfl, rfl⟩

/-! ## The tree after a rebuild -/

/-- Tree and graph. -/
def tg (c : Cgka) : BeeKem × Graph := (c.tree, c.graph)

/-- Same tree and graph, or the same error. -/
def SameTG (a b : Res Cgka) : Prop := a.map tg = b.map tg

theorem sameTG_ok {a b : Res Cgka} {x : Cgka} (h : SameTG a b) (ha : a = .ok x) : ∃ y, b = .ok y ∧ tg y = tg x := by
  subst ha
  unfold SameTG at h
  cases b with
  | error e => simp [Except.map] at h
  | ok y => exact ⟨y, rfl, by simpa [Except.map] using h.symm⟩

theorem SameTG.bind {a b : Res Cgka} {f g : Cgka → Res Cgka} (h : SameTG a b)
    (hf : ∀ x y, tg x = tg y → SameTG (f x) (g y)) : SameTG (a.bind f) (b.bind g) := by
  cases a with
  | error e =>
    cases b with
    | error e' => simpa [SameTG, Except.map, Except.bind] using h
    | ok y => simp [SameTG, Except.map] at h
  | ok x =>
    cases b with
    | error e' => simp [SameTG, Except.map] at h
    | ok y => exact hf x y (by simpa [SameTG, Except.map] using h)

theorem applyOperation_congr (H : SOp → Nat) {c d : Cgka} (h : tg c = tg d) (op : SOp) :
    SameTG (c.applyOperation H op) (d.applyOperation H op) := by
  simp only [tg, Prod.mk.injEq] at h
  obtain ⟨ht, hg⟩ := h
  unfold SameTG Cgka.applyOperation
  rw [hg]
  split
  · simp [Except.map, tg, ht, hg]
  · rw [ht]
    simp only [bind, Except.bind]
    split
    · rfl
    · simp [Except.map, tg, pure, Except.pure]

theorem applyOps_congr (H : SOp → Nat) (l : List SOp) {c d : Cgka} (h : tg c = tg d) :
    SameTG (c.applyOps H l) (d.applyOps H l) := by
  induction l generalizing c d with
  | nil => simpa [SameTG, Cgka.applyOps, Except.map] using h
  | cons o l ih => exact (applyOperation_congr H h o).bind (fun x y hxy => ih hxy)

theorem applyEpoch_congr (H : SOp → Nat) (l : List SOp) {c d : Cgka} (h : tg c = tg d) :
    SameTG (c.applyEpoch H l) (d.applyEpoch H l) := by
  unfold Cgka.applyEpoch
  split
  · exact applyOps_congr H l h
  · refine (applyOps_congr H l h).bind (fun x y hxy => ?_)
    simp only [tg, Prod.mk.injEq] at hxy
    rw [hxy.1]
    unfold SameTG
    simp only [bind, Except.bind]
    split
    · rfl
    · simp [Except.map, tg, pure, Except.pure, hxy.2]

theorem applyEpochs_congr (H : SOp → Nat) (l : List (List SOp)) {c d : Cgka} (h : tg c = tg d) :
    SameTG (c.applyEpochs H l) (d.applyEpochs H l) := by
  induction l generalizing c d with
  | nil => simpa [SameTG, Cgka.applyEpochs, Except.map] using h
  | cons o l ih => exact (applyEpoch_congr H o h).bind (fun x y hxy => ih hxy)

theorem applyEpochs_append (H : SOp → Nat) (a b : List (List SOp)) (c : Cgka) :
    c.applyEpochs H (a ++ b) = (c.applyEpochs H a).bind (fun r => r.applyEpochs H b) := by
  induction a generalizing c with
  | nil => rfl
  | cons e a ih =>
    simp only [List.cons_append, Cgka.applyEpochs, bind, Except.bind]
    split
    · rfl
    · rw [ih]; rfl

/-- The tree and graph of a rebuild from the graph `g`. -/
def rebuilt (H : SOp → Nat) (orig : MemberId × Pk) (init : SOp) (g : Graph) : Res Cgka := do
  let es ← g.topsortGraph
  let r0 ← Cgka.newFromInitAdd H orig.1 orig.2 init
  r0.applyEpochs H es

theorem treeRoot_tg {c c' : Cgka} {k : Sk} (h : c.pcsKeyFromTreeRoot = .ok (c', k)) :
    tg c' = tg c ∧ c'.pending = c.pending := by
  unfold Cgka.pcsKeyFromTreeRoot at h
  split at h
  · cases h; exact ⟨rfl, rfl⟩
  · split at h
    · simp at h
    · split at h
      · simp only [bind, Except.bind] at h
        split at h
        · simp at h
        · cases h; exact ⟨rfl, rfl⟩
      · simp at h

theorem rebuildCgka_tree {H : SOp → Nat} {c r : Cgka} {es : List (List SOp)} (h : c.rebuildCgka H es = .ok r) :
    ∃ r0 r1, c.rebuildStart H = .ok r0 ∧ r0.applyEpochs H es = .ok r1 ∧ tg r = tg r1 := by
  unfold Cgka.rebuildCgka at h
  simp only [bind, Except.bind] at h
  split at h
  · simp at h
  · rename_i r0 h0
    split at h
    · simp at h
    · rename_i r1 h1
      refine ⟨r0, r1, h0, h1, ?_⟩
      split at h
      · simp at h
      · split at h
        · split at h
          · simp at h
          · rename_i p hroot
            obtain ⟨r2, k⟩ := p
            split at h
            · simp at h
            · cases h
              exact (treeRoot_tg hroot).1
        · cases h; rfl

theorem rebuildStart_tg {H : SOp → Nat} {c r0 : Cgka} (h : c.rebuildStart H = .ok r0) :
    ∃ s, Cgka.newFromInitAdd H c.originalMember.1 c.originalMember.2 c.initAddOp = .ok s ∧ tg s = tg r0 := by
  unfold Cgka.rebuildStart at h
  simp only [bind, Except.bind] at h
  split at h
  · simp at h
  · rename_i s hs
    cases h
    exact ⟨s, hs, rfl⟩

theorem replay_rebuilt {H : SOp → Nat} {c c' : Cgka} (h : c.replayOpsGraph H = .ok c') :
    (∃ r, rebuilt H c.originalMember c.initAddOp c.graph = .ok r ∧ r.tree = c'.tree) ∧ c'.pending = false := by
  unfold Cgka.replayOpsGraph at h
  simp only [bind, Except.bind] at h
  split at h
  · simp at h
  · rename_i es hes
    split at h
    · simp at h
    · rename_i r hr
      cases h
      refine ⟨?_, rfl⟩
      obtain ⟨r0, r1, h0, h1, h2⟩ := rebuildCgka_tree hr
      obtain ⟨s, hs, hst⟩ := rebuildStart_tg h0
      obtain ⟨y, hy, hyt⟩ := sameTG_ok (applyEpochs_congr H es hst.symm) h1
      refine ⟨y, ?_, ?_⟩
      · unfold rebuilt
        simp only [hes, hs, bind, Except.bind, hy]
      · have := hyt.trans h2.symm
        simp only [tg, Prod.mk.injEq] at this
        exact this.1

theorem rebuilt_replays {H : SOp → Nat} {c : Cgka} {t : BeeKem} :
    (∃ r, rebuilt H c.originalMember c.initAddOp c.graph = .ok r ∧ r.tree = t) ↔ ReplaysTo H c t := by
  constructor
  · rintro ⟨r, h, rfl⟩
    unfold rebuilt at h
    simp only [bind, Except.bind] at h
    split at h
    · simp at h
    · rename_i es hes
      split at h
      · simp at h
      · rename_i s hs
        have hst : c.rebuildStart H = .ok (s.withNewOwner c.ownerId c.ownerSks) := by
          unfold Cgka.rebuildStart
          simp [hs, bind, Except.bind, pure, Except.pure]
        obtain ⟨y, hy, hyt⟩ := sameTG_ok (applyEpochs_congr H es (c := s) (d := s.withNewOwner c.ownerId c.ownerSks) rfl) h
        exact ⟨es, _, y, hes, hst, hy, congrArg Prod.fst hyt⟩
  · rintro ⟨es, s, r, h1, h2, h3, rfl⟩
    obtain ⟨s', hs', hst⟩ := rebuildStart_tg h2
    obtain ⟨y, hy, hyt⟩ := sameTG_ok (applyEpochs_congr H es hst.symm) h3
    refine ⟨y, ?_, congrArg Prod.fst hyt⟩
    unfold rebuilt
    simp only [h1, hs', bind, Except.bind, hy]

/-! ## The tree a replica holds, by history -/

/-- `t` is the tree a replica holds for the operations in `g` once it is up to date. -/
inductive Settled (H : SOp → Nat) (orig : MemberId × Pk) (init : SOp) : Graph → BeeKem → Prop where
  | start {t : BeeKem} : BeeKem.new orig.1 orig.2 = .ok t → Settled H orig init (Graph.new.addLocalOp H init) t
  | replay {g : Graph} {r : Cgka} : g.heads.length ≠ 1 → rebuilt H orig init g = .ok r → Settled H orig init g r.tree
  | apply {g g' : Graph} {t t' : BeeKem} {op : SOp} : Settled H orig init g t → GInv H g →
      AMap.get g.ops (H op) = none → (∀ x ∈ g.heads, x ∈ op.payload.preds) →
      (∀ p ∈ op.payload.preds, AMap.get g.ops p ≠ none) → treeOp t op = .ok t' →
      g'.ops = AMap.insert g.ops (H op) op → g'.heads.length = 1 → Settled H orig init g' t'

structure SInv (H : SOp → Nat) (c : Cgka) : Prop where
  graph : GInv H c.graph
  coh : Coh c
  root : AMap.get c.graph.ops (H c.initAddOp) = some c.initAddOp ∧
    First c.initAddOp.payload c.originalMember.1 c.originalMember.2
  pending : c.pending = true → c.graph.heads.length ≠ 1
  settled : c.graph.heads.length = 1 → Settled H c.originalMember c.initAddOp c.graph c.tree

theorem shouldReplay_eq {H : SOp → Nat} {c : Cgka} (h : SInv H c) :
    c.shouldReplay = true ↔ c.graph.heads.length ≠ 1 := by
  unfold Cgka.shouldReplay Graph.hasSingleHead
  have hne := h.graph.ne
  have hp := h.pending
  have : c.graph.heads.isEmpty = false := by cases hh : c.graph.heads <;> simp_all
  simp only [this, Bool.not_false, Bool.true_and, Bool.or_eq_true, Bool.not_eq_true', decide_eq_false_iff_not]
  constructor
  · rintro (h1 | h1)
    · exact hp h1
    · exact h1
  · exact Or.inr

/-- After `replayIfNeeded` the tree is the settled one. -/
theorem settle {H : SOp → Nat} {c c1 : Cgka} (h : SInv H c) (hr : c.replayIfNeeded H = .ok c1) :
    Settled H c.originalMember c.initAddOp c.graph c1.tree ∧ (c1.pending = true → c.graph.heads.length ≠ 1) ∧
    (c.graph.heads.length = 1 → c1 = c) ∧ (c.graph.heads.length ≠ 1 → c1.pending = false) := by
  unfold Cgka.replayIfNeeded at hr
  by_cases hs : c.shouldReplay = true
  · rw [if_pos hs] at hr
    have hl := (shouldReplay_eq h).1 hs
    obtain ⟨⟨r, hr1, hr2⟩, hp⟩ := replay_rebuilt hr
    refine ⟨?_, ?_, fun hc => absurd hc hl, fun _ => hp⟩
    · rw [← hr2]; exact .replay hl hr1
    · intro hc; rw [hp] at hc; simp at hc
  · rw [if_neg hs] at hr
    cases hr
    have hl : c.graph.heads.length = 1 := by
      by_contra hc
      exact hs ((shouldReplay_eq h).2 hc)
    exact ⟨h.settled hl, h.pending, fun _ => rfl, fun hc => absurd hl hc⟩

theorem SInv.after_replay {H : SOp → Nat} {c c1 : Cgka} (h : SInv H c) (hr : c.replayIfNeeded H = .ok c1) :
    SInv H c1 := by
  have hx := Ext.replayIfNeeded hr
  obtain ⟨_, h2, h3, _⟩ := settle h hr
  refine ⟨by rw [hx.graph]; exact h.graph, hx.coh h.coh, by rw [hx.graph, hx.init, hx.orig]; exact h.root, ?_, ?_⟩
  · rw [hx.graph]; exact h2
  · intro hl
    rw [hx.graph] at hl
    rw [h3 hl]
    exact h.settled hl

/-- Changing only secrets. -/
theorem SInv.congr {H : SOp → Nat} {c c1 : Cgka} (h : SInv H c) (hx : Ext c c1) (ht : c1.tree = c.tree)
    (hp : c1.pending = c.pending) : SInv H c1 := by
  refine ⟨by rw [hx.graph]; exact h.graph, hx.coh h.coh, by rw [hx.graph, hx.init, hx.orig]; exact h.root, ?_, ?_⟩
  · rw [hx.graph, hp]; exact h.pending
  · rw [hx.graph, hx.orig, hx.init, ht]; exact h.settled

theorem SInv.withOwner {H : SOp → Nat} {c : Cgka} (h : SInv H c) (me : MemberId) (sks : ShareKeyMap) :
    SInv H (c.withNewOwner me sks) :=
  ⟨h.graph, ⟨h.coh.val, h.coh.ops⟩, h.root, h.pending, h.settled⟩

/-- An own operation on top of everything. -/
theorem SInv.own {H : SOp → Nat} (hH : Function.Injective H) {c c1 c' : Cgka} {op : SOp} (h : SInv H c)
    (hr : c.replayIfNeeded H = .ok c1) (hp : ∀ x, x ∈ op.payload.preds ↔ x ∈ c.graph.heads)
    (hg : c'.graph = c.graph.addLocalOp H op) (ht : treeOp c1.tree op = .ok c'.tree) (hpe : c'.pending = c1.pending)
    (ho : c'.originalMember = c.originalMember) (hi : c'.initAddOp = c.initAddOp) (hcoh : Coh c') : SInv H c' := by
  have hf := h.graph.localFresh hH hp
  have hheads : c'.graph.heads = [H op] := by rw [hg]; rfl
  obtain ⟨s1, s2, s3, s4⟩ := settle h hr
  refine ⟨by rw [hg]; exact h.graph.addLocalOp hH hp, hcoh, ?_, ?_, ?_⟩
  · rw [ho, hi]
    refine ⟨?_, h.root.2⟩
    rw [hg]
    show AMap.get (AMap.insert c.graph.ops (H op) op) _ = _
    rw [AMap.get_insert, if_neg, h.root.1]
    intro hc
    rw [← hc, h.root.1] at hf
    simp at hf
  · intro hc
    rw [hpe] at hc
    by_cases hl : c.graph.heads.length = 1
    · rw [s3 hl] at hc
      exact absurd hl (h.pending hc)
    · rw [s4 hl] at hc
      simp at hc
  · intro _
    rw [ho, hi]
    refine .apply s1 h.graph hf (fun x hx => (hp x).2 hx) ?_ ht ?_ (by rw [hheads]; rfl)
    · intro p hpp
      exact ((h.graph.heads p).1 ((hp p).1 hpp)).1
    · rw [hg]; rfl

theorem SInv.receive {H : SOp → Nat} {c : Cgka} (h : SInv H c) (op : SOp) :
    SInv H (c.mergeConcurrentOperation H op).1 := by
  have hgs := GStep.receive H c op
  revert hgs
  unfold Cgka.mergeConcurrentOperation
  by_cases h1 : c.graph.containsOpHash (H op) = true
  · rw [if_pos h1]; exact fun _ => h
  rw [if_neg h1]
  have hf : AMap.get c.graph.ops (H op) = none := by
    rw [containsOpHash_iff] at h1; simpa using h1
  by_cases h2 : c.graph.containsPredecessors op.payload.preds = true
  swap
  · rw [if_pos (by simp [h2])]; exact fun _ => h
  have hk := (containsPredecessors_iff _ _).1 h2
  rw [if_neg (by simp [h2])]
  have hroot : AMap.get (c.graph.addOp H op op.payload.preds).ops (H c.initAddOp) = some c.initAddOp := by
    show AMap.get (AMap.insert c.graph.ops (H op) op) _ = _
    rw [AMap.get_insert, if_neg, h.root.1]
    intro hc
    rw [← hc, h.root.1] at hf
    simp at hf
  have hg' := h.graph.addOp hf hk
  by_cases h3 : c.graph.headsContainedIn op.payload.preds = true
  · rw [if_neg (by simp [h3])]
    split
    · exact fun _ => h
    · rename_i c1 hr
      have hx := Ext.replayIfNeeded hr
      split
      · exact fun _ => h.after_replay hr
      · rename_i c2 ha
        intro hgs
        obtain ⟨f1, f2, f3, f4, f5, f6, _⟩ := applyOperation_frame ha
        obtain ⟨a1, a2⟩ := applyOperation_tree (by rw [hx.graph]; exact hf) ha
        rw [hx.graph] at a2
        obtain ⟨s1, s2, s3, s4⟩ := settle h hr
        have hcov : ∀ x ∈ c.graph.heads, x ∈ op.payload.preds := by
          intro x hxh
          have := List.all_eq_true.1 h3 x hxh
          simpa using this
        have hheads : c2.graph.heads.length = 1 := by
          rw [a2]
          have hgi := hg'
          have : (c.graph.addOp H op op.payload.preds).heads.Perm [H op] := by
            rw [List.perm_ext_iff_of_nodup hgi.headsN (by simp)]
            intro x
            simp only [Graph.addOp, Graph.addOpAndUpdateHeads, mem_sinsert, mem_foldl_sremove, List.mem_singleton]
            constructor
            · rintro (hx1 | ⟨hx1, hx2⟩)
              · exact hx1
              · exact absurd (hcov x hx1) hx2
            · exact Or.inl
          simpa using this.length_eq
        refine ⟨by show GInv H c2.graph; rw [a2]; exact hg', hgs.2.coh h.coh, ?_, ?_, ?_⟩
        · show AMap.get c2.graph.ops _ = _ ∧ _
          rw [a2, f1, f2, hx.orig, hx.init]
          exact ⟨hroot, h.root.2⟩
        · show c2.pending = true → _
          rw [f6]
          intro hc
          by_cases hl : c.graph.heads.length = 1
          · rw [s3 hl] at hc
            exact absurd hl (h.pending hc)
          · rw [s4 hl] at hc
            simp at hc
        · intro _
          show Settled H c2.originalMember c2.initAddOp c2.graph c2.tree
          rw [f1, f2, hx.orig, hx.init]
          exact .apply s1 h.graph hf hcov hk a1 (by rw [a2]; rfl) hheads
  · rw [if_pos (by simp [h3])]
    -- a head remains beside the new operation
    obtain ⟨x, hx1, hx2⟩ : ∃ x ∈ c.graph.heads, x ∉ op.payload.preds := by
      by_contra hcon
      push Not at hcon
      apply h3
      unfold Graph.headsContainedIn
      rw [List.all_eq_true]
      intro x hx
      simpa using hcon x hx
    have hxne : x ≠ H op := by
      rintro rfl
      exact ((h.graph.heads _).1 hx1).1 hf
    have hheads : (c.graph.addOp H op op.payload.preds).heads.length ≠ 1 := by
      intro hl
      have m1 : H op ∈ (c.graph.addOp H op op.payload.preds).heads := by
        simp [Graph.addOp, Graph.addOpAndUpdateHeads, mem_sinsert]
      have m2 : x ∈ (c.graph.addOp H op op.payload.preds).heads := by
        simp only [Graph.addOp, Graph.addOpAndUpdateHeads, mem_sinsert, mem_foldl_sremove]
        exact Or.inr ⟨hx1, hx2⟩
      exact hxne (eq_of_length_le_one (by omega) m2 m1)
    split
    · intro hgs
      exact ⟨hg', hgs.2.coh h.coh, ⟨hroot, h.root.2⟩, fun _ => hheads, fun hc => absurd hc hheads⟩
    · split
      · intro hgs
        exact ⟨hg', hgs.2.coh h.coh, ⟨hroot, h.root.2⟩, fun _ => hheads, fun hc => absurd hc hheads⟩
      · split
        · exact fun _ => h
        · rename_i c1 ha
          intro hgs
          obtain ⟨f1, f2, f3, f4, f5, f6, _⟩ := applyOperation_frame ha
          obtain ⟨a1, a2⟩ := applyOperation_tree hf ha
          refine ⟨by show GInv H c1.graph; rw [a2]; exact hg', hgs.2.coh h.coh, ?_, ?_, ?_⟩
          · show AMap.get c1.graph.ops _ = _ ∧ _
            rw [a2, f1, f2]
            exact ⟨hroot, h.root.2⟩
          · intro _
            show c1.graph.heads.length ≠ 1
            rw [a2]; exact hheads
          · intro hc
            have hc : c1.graph.heads.length = 1 := hc
            rw [a2] at hc
            exact absurd hc hheads

theorem SInv.add {H : SOp → Nat} (hH : Function.Injective H) {sign : Payload → Res SOp} (hs : GoodSigner sign)
    {c : Cgka} (h : SInv H c) (id : MemberId) (pk : Pk) : SInv H (c.add H sign id pk).1 := by
  unfold Cgka.add
  split
  · exact h
  · split
    · exact h
    · rename_i c1 hr
      have hx := Ext.replayIfNeeded hr
      split
      · exact h.after_replay hr
      · rename_i tree li hpush
        dsimp only
        obtain ⟨op, hop, hpay⟩ := hs (.add id pk li c1.graph.heads c1.graph.addHeads)
        rw [hop]
        dsimp only
        have h1 := h.after_replay hr
        refine SInv.own (op := op) hH h hr ?_ (by rw [hx.graph]) ?_ rfl hx.orig hx.init ?_
        · intro x
          rw [hpay, hx.graph]
          simp [Payload.preds, mem_sextend]
        · unfold treeOp
          rw [hpay]
          simp only [hpush, bind, Except.bind, pure, Except.pure]
        · exact ⟨h1.coh.val, h1.coh.ops⟩

theorem SInv.remove {H : SOp → Nat} (hH : Function.Injective H) {sign : Payload → Res SOp} (hs : GoodSigner sign)
    {c : Cgka} (h : SInv H c) (id : MemberId) : SInv H (c.remove H sign id).1 := by
  unfold Cgka.remove
  split
  · exact h
  · split
    · exact h
    · rename_i c1 hr
      have hx := Ext.replayIfNeeded hr
      split
      · exact h.after_replay hr
      · split
        · exact h.after_replay hr
        · rename_i tree li rk hrem
          dsimp only
          obtain ⟨op, hop, hpay⟩ := hs (.remove id li rk c1.graph.heads)
          rw [hop]
          dsimp only
          have h1 := h.after_replay hr
          refine SInv.own (op := op) hH h hr ?_ (by rw [hx.graph]) ?_ rfl hx.orig hx.init ?_
          · intro x
            rw [hpay, hx.graph]
            simp [Payload.preds, mem_sextend]
          · unfold treeOp
            rw [hpay]
            simp only [hrem, bind, Except.bind, pure, Except.pure]
          · exact ⟨h1.coh.val, h1.coh.ops⟩

theorem SInv.update {H : SOp → Nat} (hH : Function.Injective H) {sign : Payload → Res SOp} (hs : GoodSigner sign)
    (g : BeeKem.Gen) (n : Nat) {c : Cgka} (h : SInv H c) (newSk : Sk) : SInv H (c.update H sign g n newSk).1 := by
  unfold Cgka.update
  split
  · exact h
  · rename_i c1 hr
    have hx := Ext.replayIfNeeded hr
    have h1 := h.after_replay hr
    split
    · exact h1
    · dsimp only
      split
      · exact h1.congr (Ext.of_eq rfl rfl rfl rfl rfl rfl) rfl rfl
      · rename_i uid upk usk _ _ tree sks n' k pc henc
        obtain ⟨op, hop, hpay⟩ := hs (.update uid pc c1.graph.heads)
        rw [hop]
        dsimp only
        refine SInv.own (op := op) hH h hr ?_ (by simp only [Cgka.insertPcsKey, hx.graph]) ?_ rfl hx.orig hx.init ?_
        · intro x
          rw [hpay, hx.graph]
          simp [Payload.preds, mem_sextend]
        · unfold treeOp
          rw [hpay]
          exact BeeKem.encryptPath_applies henc
        · apply (Ext.insertPcsKey _ _ _).coh
          exact ⟨h1.coh.val, h1.coh.ops⟩

theorem currentRoot_tg (c : Cgka) (h : PcsHash) : tg (c.currentRootFor h).1 = tg c ∧ (c.currentRootFor h).1.pending = c.pending := by
  unfold Cgka.currentRootFor
  split
  · exact ⟨rfl, rfl⟩
  · exact ⟨rfl, rfl⟩
  · split
    · split <;> exact ⟨rfl, rfl⟩
    · rename_i c' k hr
      exact treeRoot_tg hr

theorem derive_tg {H : SOp → Nat} {c c' : Cgka} {o : Nat} {k : Sk} (h : c.derivePcsKeyForOp H o = .ok (c', k)) :
    tg c' = tg c ∧ c'.pending = c.pending := by
  unfold Cgka.derivePcsKeyForOp at h
  split at h
  · simp at h
  · simp only [bind, Except.bind] at h
    split at h
    · simp at h
    · unfold Cgka.rebuildPcsKey at h
      simp only [bind, Except.bind] at h
      split at h
      · simp at h
      · split at h
        · simp at h
        · split at h
          · simp at h
          · split at h
            · simp at h
            · cases h; exact ⟨rfl, rfl⟩

theorem decrypt_tg (H : SOp → Nat) (c : Cgka) (e : EncContent) :
    tg (c.decryptionKeyFor H e).1 = tg c ∧ (c.decryptionKeyFor H e).1.pending = c.pending := by
  have hfh : tg (c.pcsKeyFromHashes H e.pcsKeyHash e.pcsUpdateOpHash).1 = tg c ∧
      (c.pcsKeyFromHashes H e.pcsKeyHash e.pcsUpdateOpHash).1.pending = c.pending := by
    unfold Cgka.pcsKeyFromHashes
    split
    · exact ⟨rfl, rfl⟩
    · have hx := currentRoot_tg c e.pcsKeyHash
      split
      · rename_i c1 _ he; rw [he] at hx; exact hx
      · rename_i c1 _ he; rw [he] at hx; exact hx
      · rename_i c1 he
        rw [he] at hx
        split
        · exact hx
        · rename_i c2 k hd
          have := derive_tg hd
          exact ⟨this.1.trans hx.1, this.2.trans hx.2⟩
  unfold Cgka.decryptionKeyFor
  split
  · rename_i c1 err he; rw [he] at hfh; exact hfh
  · rename_i c1 k he
    rw [he] at hfh
    dsimp only
    split
    · exact hfh
    · exact hfh

theorem SInv.decrypt {H : SOp → Nat} {c : Cgka} (h : SInv H c) (e : EncContent) : SInv H (c.decryptionKeyFor H e).1 :=
  h.congr (Ext.decrypt H c e) (congrArg Prod.fst (decrypt_tg H c e).1) (decrypt_tg H c e).2

theorem SInv.encrypt {H : SOp → Nat} (hH : Function.Injective H) {sign : Payload → Res SOp} (hs : GoodSigner sign)
    (g : BeeKem.Gen) (n : Nat) {c : Cgka} (h : SInv H c) (r ps : Nat) : SInv H (c.newAppSecretFor H sign g n r ps).1 := by
  have hfin : ∀ (c : Cgka) (k : Sk) (op : Option SOp), (c.finishAppSecret k op r ps).1 = c := by
    intro c k op; unfold Cgka.finishAppSecret; split <;> rfl
  unfold Cgka.newAppSecretFor
  split
  · exact h
  · have hu := SInv.update hH hs g (n + 1) h (g n)
    split
    · rename_i c1 e he; rw [he] at hu; exact hu
    · rename_i c1 k op he
      rw [he] at hu
      rw [hfin]
      exact hu.congr (Ext.insertPcsKey _ _ _) rfl rfl
  · split
    · exact h
    · rename_i c1 k hr
      have hx := Ext.treeRoot hr
      have h1 := h.congr hx (congrArg Prod.fst (treeRoot_tg hr).1) (treeRoot_tg hr).2
      split
      · rw [hfin]; exact h1
      · split
        · rw [hfin]; exact h1
        · rw [hfin]; exact h1.congr (Ext.insertPcsKey _ _ _) rfl rfl

theorem SInv.new {H : SOp → Nat} {id : MemberId} {pk : Pk} {op : SOp} {c : Cgka} (hp : First op.payload id pk)
    (hn : Cgka.newFromInitAdd H id pk op = .ok c) : SInv H c := by
  obtain ⟨f1, f2, f3, f4, f5, f6, f7, f8, f9⟩ := newFromInitAdd_frame hn
  refine ⟨?_, ⟨?_, ?_⟩, ?_, ?_, ?_⟩
  · rw [f1]
    exact GInv.new hp.preds
  · intro x k hx; rw [f2] at hx; simp at hx
  · intro x; rw [f2, f3]
  · rw [f1, f4, f5]
    refine ⟨?_, hp⟩
    show AMap.get (AMap.insert [] (H op) op) _ = _
    simp
  · intro hc; rw [f6] at hc; simp at hc
  · intro _
    rw [f1, f5]
    refine .start ?_
    rw [f4]; exact f9

theorem reachOk_inv {H : SOp → Nat} (hH : Function.Injective H) {c : Cgka} (h : ReachOk H c) : SInv H c := by
  induction h with
  | new hp hn => exact SInv.new hp hn
  | owner me sks _ ih => exact ih.withOwner me sks
  | @call c cmd _ hc ih =>
    cases cmd with
    | add sign id pk => exact SInv.add hH hc ih id pk
    | remove sign id => exact SInv.remove hH hc ih id
    | update sign g n sk => exact SInv.update hH hc g n ih sk
    | encrypt sign g n r ps => exact SInv.encrypt hH hc g n ih r ps
    | decrypt e => exact ih.decrypt e
    | receive op => exact ih.receive op

end Verif.Cgka
