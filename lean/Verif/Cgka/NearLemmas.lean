import Verif.Cgka.SerialLemmas

/-! # Helper lemmas: no call panics or loops when no removal is concurrent with anything, conflicting leaf keys apart -/

namespace Verif.Cgka

open Verif.BeeKem Relation BeeKem

/-- The tree of a replica is well formed, and as long as the replica has not put off a replay it has as many leaves as the
replay would give. -/
def Near (H : SOp → Nat) (c : Cgka) : Prop :=
  ∃ h, WInv c.tree h ∧ (c.pending = false →
    ∀ r, rebuilt H c.originalMember c.initAddOp c.graph = .ok r → c.tree.nextLeafIdx = r.tree.nextLeafIdx)

/-- An own call leaves the record and the tree alone, or replays, or makes one operation. -/
def Step3 (H : SOp → Nat) (c c' : Cgka) : Prop :=
  (c'.graph = c.graph ∧ c'.tree = c.tree ∧ c'.pending = c.pending) ∨
  (c'.graph = c.graph ∧ ∃ c1, c.replayIfNeeded H = .ok c1 ∧ c'.tree = c1.tree ∧ c'.pending = c1.pending) ∨
  ∃ op, c'.graph = c.graph.addLocalOp H op

theorem step3_update (H : SOp → Nat) {sign : Payload → Res SOp} (hs : GoodSigner sign) (c : Cgka) (g : BeeKem.Gen)
    (n : Nat) (sk : Sk) : Step3 H c (c.update H sign g n sk).1 := by
  unfold Cgka.update
  split
  · exact .inl ⟨rfl, rfl, rfl⟩
  · rename_i c1 hr
    have hx := (Ext.replayIfNeeded hr).graph
    split
    · exact .inr (.inl ⟨hx, c1, hr, rfl, rfl⟩)
    · rename_i uid upk usk hu
      dsimp only
      split
      · exact .inr (.inl ⟨hx, c1, hr, rfl, rfl⟩)
      · rename_i t sks n' k pc henc
        obtain ⟨o, ho, hpay⟩ := hs (.update uid pc c1.graph.heads)
        rw [ho]
        dsimp only
        refine .inr (.inr ⟨o, ?_⟩)
        show c1.graph.addLocalOp H o = _
        rw [hx]

theorem own_step3 (H : SOp → Nat) (c : Cgka) {cmd : Cmd} (ho : cmd.Own) (hs : cmd.Signs) : Step3 H c (step H c cmd) := by
  cases cmd with
  | add sign id pk =>
    show Step3 H c (c.add H sign id pk).1
    unfold Cgka.add
    split
    · exact .inl ⟨rfl, rfl, rfl⟩
    · split
      · exact .inl ⟨rfl, rfl, rfl⟩
      · rename_i c1 hr
        have hx := (Ext.replayIfNeeded hr).graph
        split
        · exact .inr (.inl ⟨hx, c1, hr, rfl, rfl⟩)
        · rename_i t i hp
          dsimp only
          obtain ⟨o, ho, hpay⟩ := hs (.add id pk i c1.graph.heads c1.graph.addHeads)
          rw [ho]
          dsimp only
          refine .inr (.inr ⟨o, ?_⟩)
          show c1.graph.addLocalOp H o = _
          rw [hx]
  | remove sign id =>
    show Step3 H c (c.remove H sign id).1
    unfold Cgka.remove
    split
    · exact .inl ⟨rfl, rfl, rfl⟩
    · split
      · exact .inl ⟨rfl, rfl, rfl⟩
      · rename_i c1 hr
        have hx := (Ext.replayIfNeeded hr).graph
        split
        · exact .inr (.inl ⟨hx, c1, hr, rfl, rfl⟩)
        · split
          · exact .inr (.inl ⟨hx, c1, hr, rfl, rfl⟩)
          · rename_i t i rk hp
            dsimp only
            obtain ⟨o, ho, hpay⟩ := hs (.remove id i rk c1.graph.heads)
            rw [ho]
            dsimp only
            refine .inr (.inr ⟨o, ?_⟩)
            show c1.graph.addLocalOp H o = _
            rw [hx]
  | update sign g n sk => exact step3_update H hs c g n sk
  | encrypt sign g n r ps =>
    show Step3 H c (c.newAppSecretFor H sign g n r ps).1
    unfold Cgka.newAppSecretFor
    split
    · exact .inl ⟨rfl, rfl, rfl⟩
    · have hu := step3_update H hs c g (n + 1) (g n)
      split
      · rename_i c1 e he; rw [he] at hu; exact hu
      · rename_i c1 k op he
        rw [he] at hu
        rw [finish_fst]
        exact hu
    · split
      · exact .inl ⟨rfl, rfl, rfl⟩
      · rename_i c1 k hr
        obtain ⟨h1, h2⟩ := treeRoot_tg hr
        simp only [tg, Prod.mk.injEq] at h1
        have : Step3 H c c1 := .inl ⟨h1.2, h1.1, h2⟩
        split
        · rw [finish_fst]; exact this
        · split
          · rw [finish_fst]; exact this
          · rw [finish_fst]
            exact this
  | decrypt e =>
    obtain ⟨h1, h2⟩ := decrypt_tg H c e
    simp only [tg, Prod.mk.injEq] at h1
    exact .inl ⟨h1.2, h1.1, h2⟩
  | receive op => exact ho.elim

section
variable {H : SOp → Nat} (hH : Function.Injective H)
include hH

/-- A replay succeeds and gives a well-formed tree, the one a replay of everything gives. -/
theorem replayIf_ok {c : Cgka} (hc : Trusted H c) (h1 : OneRootG c.graph) (hs : SerialG c.graph) :
    ∃ c1 r h, c.replayIfNeeded H = .ok c1 ∧ rebuilt H c.originalMember c.initAddOp c.graph = .ok r ∧ c1.tree = r.tree ∧
      WInv c1.tree h := by
  have sc := reachOk_inv hH (trusted_ok hc)
  obtain ⟨r, h, e1, e2, -⟩ := rebuilds hH hc h1 hs
  by_cases hl : c.graph.heads.length = 1
  · refine ⟨c, r, h, ?_, e1, ?_, ?_⟩
    · unfold Cgka.replayIfNeeded
      rw [if_neg]
      rw [shouldReplay_eq sc]
      simpa using hl
    all_goals
      obtain ⟨r', f1, f2⟩ := (sc.settled hl).rebuilt sc.graph h1 (trusted_tidy hH hc) sc.root.1 (root_preds sc)
      rw [e1] at f1
      cases f1
      rw [← f2]
    exact e2
  · obtain ⟨c', f1, f2⟩ := replay_of_rebuilt sc.graph h1 sc.root.1 (root_preds sc) hl e1
    refine ⟨c', r, h, ?_, e1, f2, by rw [f2]; exact e2⟩
    unfold Cgka.replayIfNeeded
    rw [if_pos ((shouldReplay_eq sc).2 hl)]
    exact f1

theorem near_single {c : Cgka} (hc : Trusted H c) (h1 : OneRootG c.graph) (hs : SerialG c.graph) (hl : c.graph.heads.length = 1) :
    Near H c := by
  have sc := reachOk_inv hH (trusted_ok hc)
  obtain ⟨c1, r, h, e1, e2, e3, e4⟩ := replayIf_ok hH hc h1 hs
  have := replay_single sc hl e1
  subst this
  refine ⟨h, e4, fun _ r' hr' => ?_⟩
  rw [e2] at hr'
  cases hr'
  rw [e3]

/-- Whoever made an operation whose predecessors are known knew nothing else. -/
theorem maker_known {c m : Cgka} {op : SOp} {t t' : BeeKem} (sc : SInv H c) (sm : SInv H m) (hm : Makes H m op t t')
    (hp : ∀ p ∈ op.payload.preds, AMap.get c.graph.ops p ≠ none) : KnownIn m.graph c.graph := by
  intro y hy
  obtain ⟨s, hs, hys⟩ := sm.graph.reach_head hy
  have := hp s ((hm.preds s).2 hs)
  rcases hys with rfl | hys
  · exact this
  · exact (past_agree hH sc.graph sm.graph this hys).1

/-- The path of an update fits the tree of whoever knows what it builds on. -/
theorem update_fits {c m : Cgka} {op : SOp} {t t' : BeeKem} {r : Cgka} (hc : Trusted H c) (h1 : OneRootG c.graph) (hs : SerialG c.graph)
    (hm : Trusted H m) (hmk : Makes H m op t t') (hp : ∀ p ∈ op.payload.preds, AMap.get c.graph.ops p ≠ none)
    (hlast : ∀ R, LastG c.graph R → AMap.get m.graph.ops R ≠ none)
    (hr : rebuilt H c.originalMember c.initAddOp c.graph = .ok r) {id : MemberId} {pc : PathChange} {ps : List Nat}
    (hpay : op.payload = .update id pc ps) : Fits pc r.tree.nextLeafIdx := by
  have sc := reachOk_inv hH (trusted_ok hc)
  have sm := reachOk_inv hH (trusted_ok hm)
  have k1 := maker_known hH sc sm hmk hp
  obtain ⟨R, hR⟩ := last_exists sc hs
  have hRm := hlast R hR
  have hlastm : LastG m.graph R := by
    refine ⟨hRm, ?_, ?_⟩
    · rcases hR.kind with hr | hr
      · left
        intro p hp'
        exact hr p (((sub_of_known hH sm.graph sc.graph k1).pred sm.graph sc.graph hRm).1 hp')
      · right
        exact (removal_iff hH sm.graph sc.graph hRm hR.known).2 hr
    · intro y hy
      have hym : AMap.get m.graph.ops y ≠ none := by
        obtain ⟨o', _, _, _, _, ho', _⟩ := hy; rw [ho']; simp
      rcases hR.last y ((removal_iff hH sm.graph sc.graph hym (k1 y hym)).1 hy) with e | e
      · exact .inl e
      · exact .inr (past_agree hH sm.graph sc.graph hRm e).2
  obtain ⟨w, w1, w2, -⟩ := trusted_maker hH hc R hR.known
  obtain ⟨r0, h0, e1, e2, e3⟩ := rebuilds hH hc h1 hs
  rw [hr] at e1
  cases e1
  obtain ⟨rm, hm0, f1, f2, f3⟩ := rebuilds hH hm (oneRoot_sub hH sm.graph sc.graph k1 h1) (serial_sub hH sm.graph sc.graph k1 hs)
  obtain ⟨r', f4, f5⟩ := settled_tree hH hm (oneRoot_sub hH sm.graph sc.graph k1 h1) hmk.settled
  rw [f1] at f4
  cases f4
  have e4 := e3 R w hR w1 w2
  have f6 := f3 R w hlastm w1 w2
  rw [f5] at f2 f6
  obtain ⟨g, n, uid, pk, sks, s', sks', n', k, henc⟩ := hmk.path id pc ps hpay
  refine (encryptPath_fits f2 henc).1.mono ?_
  rw [e4, f6]
  apply Nat.add_le_add_left
  apply Finset.card_le_card
  intro y hy
  unfold late at hy ⊢
  rw [Finset.mem_filter, mem_opSet] at hy ⊢
  obtain ⟨y1, y2, y3⟩ := hy
  refine ⟨k1 y y1, ?_, y3⟩
  unfold isAddAt at y2 ⊢
  rw [← ops_agree hH sm.graph sc.graph y1 (k1 y y1)]
  exact y2

/-- What applying an update that is concurrent with no known removal does to a tree with enough leaves. -/
theorem update_applies {c m : Cgka} {op : SOp} {t t' : BeeKem} {h : Nat} (hc : Trusted H c) (h1 : OneRootG c.graph)
    (hs : SerialG c.graph) (hm : Trusted H m) (hmk : Makes H m op t t')
    (hp : ∀ p ∈ op.payload.preds, AMap.get c.graph.ops p ≠ none)
    (hlast : ∀ R, RemovalG c.graph R → AMap.get m.graph.ops R ≠ none) (hst : op.payload.isStructural = false)
    (w : WInv c.tree h) (hn : ∀ r, rebuilt H c.originalMember c.initAddOp c.graph = .ok r → c.tree.nextLeafIdx = r.tree.nextLeafIdx) :
    ∃ t1, treeOp c.tree op = .ok t1 ∧ WInv t1 h ∧ t1.nextLeafIdx = c.tree.nextLeafIdx := by
  have sc := reachOk_inv hH (trusted_ok hc)
  have sm := reachOk_inv hH (trusted_ok hm)
  have k1 := maker_known hH sc sm hmk hp
  obtain ⟨r, h0, e1, e2, e3⟩ := rebuilds hH hc h1 hs
  cases hpay : op.payload with
  | add id pk i ps qs => rw [hpay] at hst; simp [Payload.isStructural] at hst
  | remove id i ks ps => rw [hpay] at hst; simp [Payload.isStructural] at hst
  | update id pc ps =>
    have hlast' : ∀ R, LastG c.graph R → AMap.get m.graph.ops R ≠ none := by
      intro R hR
      rcases hR.kind with hr | hr
      · have hmr : AMap.get m.graph.ops (H m.initAddOp) ≠ none := by rw [sm.root.1]; simp
        have : H m.initAddOp = R := by
          refine h1 _ _ (k1 _ hmr) hR.known ?_ hr
          intro p hp'
          exact root_pred sm p (((sub_of_known hH sm.graph sc.graph k1).pred sm.graph sc.graph hmr).2 hp')
        rw [← this]; exact hmr
      · exact hlast R hr
    have hf := update_fits hH hc h1 hs hm hmk hp hlast' e1 hpay
    rw [← hn r e1] at hf
    obtain ⟨t1, f1, f2, -, f4, -⟩ := applyPath_fits w hf
    refine ⟨t1, ?_, f2, f4⟩
    unfold treeOp
    rw [hpay]
    exact f1

/-- An update adds no leaf to what a replay gives. -/
theorem next_same {c c' : Cgka} {op : SOp} {r r' : Cgka} (hc : Trusted H c) (hc' : Trusted H c') (h1 : OneRootG c'.graph)
    (hs : SerialG c'.graph) (hg : ∀ y, AMap.get c'.graph.ops y = if y = H op then some op else AMap.get c.graph.ops y)
    (hf : AMap.get c.graph.ops (H op) = none) (hst : op.payload.isStructural = false)
    (hr : rebuilt H c.originalMember c.initAddOp c.graph = .ok r)
    (hr' : rebuilt H c'.originalMember c'.initAddOp c'.graph = .ok r') : r'.tree.nextLeafIdx = r.tree.nextLeafIdx := by
  have sc := reachOk_inv hH (trusted_ok hc)
  have sc' := reachOk_inv hH (trusted_ok hc')
  have hk : KnownIn c.graph c'.graph := by
    intro y hy
    rw [hg]
    split
    · simp
    · exact hy
  have h1c := oneRoot_sub hH sc.graph sc'.graph hk h1
  have hsc := serial_sub hH sc.graph sc'.graph hk hs
  obtain ⟨_, _, e1, _, e3⟩ := rebuilds hH hc h1c hsc
  rw [hr] at e1
  cases e1
  obtain ⟨_, _, f1, _, f3⟩ := rebuilds hH hc' h1 hs
  rw [hr'] at f1
  cases f1
  obtain ⟨R, hR⟩ := last_exists sc hsc
  have hRc' := hk R hR.known
  have hnr : ∀ y, RemovalG c'.graph y → AMap.get c.graph.ops y ≠ none := by
    rintro y ⟨o, id, i, ks, ps, ho, hpay⟩
    rw [hg] at ho
    split at ho
    · cases ho
      rw [hpay] at hst
      simp [Payload.isStructural] at hst
    · rw [ho]; simp
  have hR' : LastG c'.graph R := by
    refine ⟨hRc', ?_, ?_⟩
    · rcases hR.kind with hr | hr
      · left
        intro p hp'
        exact hr p (((sub_of_known hH sc.graph sc'.graph hk).pred sc.graph sc'.graph hR.known).2 hp')
      · right
        exact (removal_iff hH sc.graph sc'.graph hR.known hRc').1 hr
    · intro y hy
      have hyc := hnr y hy
      rcases hR.last y ((removal_iff hH sc.graph sc'.graph hyc (hk y hyc)).2 hy) with e | e
      · exact .inl e
      · exact .inr (trans_up hH sc.graph sc'.graph hk e)
  obtain ⟨w, w1, w2, -⟩ := trusted_maker hH hc R hR.known
  rw [e3 R w hR w1 w2, f3 R w hR' w1 w2]
  congr 2
  ext y
  unfold late
  rw [Finset.mem_filter, Finset.mem_filter, mem_opSet, mem_opSet]
  unfold isAddAt
  rw [hg y]
  split
  · rename_i he
    subst he
    rw [hf]
    cases hpay : op.payload <;> simp_all [Payload.isStructural, Payload.isAdd]
  · rfl

theorem trusted_near {c : Cgka} (hc : Trusted H c) : OneRootG c.graph → SerialG c.graph → Near H c := by
  induction hc with
  | @new id pk op c h1 h2 =>
    intro a b
    refine near_single hH (.new h1 h2) a b ?_
    unfold Cgka.newFromInitAdd at h2
    simp only [bind, Except.bind] at h2
    split at h2
    · simp at h2
    · cases h2; rfl
  | owner me sks h hk ih => exact ih
  | @call c cmd ht ho hg ih =>
    intro a b
    have ht' := Trusted.call ht ho hg
    have sc := reachOk_inv hH (trusted_ok ht)
    rcases own_step3 H c ho hg with ⟨e1, e2, e3⟩ | ⟨e1, c1, e2, e3, e4⟩ | ⟨op, e1⟩
    · rw [e1] at a b
      obtain ⟨h, w, hn⟩ := ih a b
      have sc' := reachOk_inv hH (trusted_ok ht')
      obtain ⟨i1, i2⟩ := root_agree hH sc sc' (by rw [e1]; exact fun _ h => h) a
      refine ⟨h, by rw [e2]; exact w, ?_⟩
      intro hp r hr
      rw [e2]
      rw [e3] at hp
      rw [i1, i2, e1] at hr
      exact hn hp r hr
    · rw [e1] at a b
      have sc' := reachOk_inv hH (trusted_ok ht')
      obtain ⟨i1, i2⟩ := root_agree hH sc sc' (by rw [e1]; exact fun _ h => h) a
      obtain ⟨c1', r, h, f1, f2, f3, f4⟩ := replayIf_ok hH ht a b
      rw [e2] at f1
      cases f1
      refine ⟨h, by rw [e3]; exact f4, ?_⟩
      intro _ r' hr'
      rw [i1, i2, e1, f2] at hr'
      cases hr'
      rw [e3, f3]
    · exact near_single hH ht' a b (by rw [e1]; rfl)
  | @receive c d x0 op ht hd hop ih ihd =>
    intro a b
    have ht' := Trusted.receive ht hd hop
    have sc := reachOk_inv hH (trusted_ok ht)
    have sd := reachOk_inv hH (trusted_ok hd)
    have sc' := reachOk_inv hH (trusted_ok ht')
    have hk := Props.receive_cases H c op
    have hkn : KnownIn c.graph (step H c (.receive op)).graph := by
      intro y hy
      show AMap.get (c.mergeConcurrentOperation H op).1.graph.ops y ≠ none
      rcases hk with ⟨hk, _⟩ | ⟨hk, _, _⟩
      · rw [hk]; exact hy
      · rw [hk]
        show AMap.get (AMap.insert c.graph.ops (H op) op) y ≠ none
        rw [AMap.get_insert]
        split <;> simp_all
    have a0 := oneRoot_sub hH sc.graph sc'.graph hkn a
    have b0 := serial_sub hH sc.graph sc'.graph hkn b
    obtain ⟨h, w, hn⟩ := ih a0 b0
    by_cases hl : (step H c (.receive op)).graph.heads.length = 1
    · exact near_single hH ht' a b hl
    have keep : step H c (.receive op) = c → Near H (step H c (.receive op)) := by
      intro e; rw [e]; exact ⟨h, w, hn⟩
    have hstep : step H c (.receive op) = (c.mergeConcurrentOperation H op).1 := rfl
    rw [hstep] at keep ht' a b hl sc' hkn ⊢
    unfold Cgka.mergeConcurrentOperation at keep ht' a b hl sc' hkn ⊢
    by_cases h1 : c.graph.containsOpHash (H op) = true
    · rw [if_pos h1] at keep ⊢
      exact keep rfl
    rw [if_neg h1] at keep ht' a b hl sc' hkn ⊢
    have hf : AMap.get c.graph.ops (H op) = none := by
      rw [containsOpHash_iff] at h1; simpa using h1
    by_cases h2 : (!c.graph.containsPredecessors op.payload.preds) = true
    · rw [if_pos h2] at keep ⊢
      exact keep rfl
    rw [if_neg h2] at keep ht' a b hl sc' hkn ⊢
    have hpk : ∀ p ∈ op.payload.preds, AMap.get c.graph.ops p ≠ none := by
      rw [← containsPredecessors_iff]; simpa using h2
    by_cases h3 : (!c.graph.headsContainedIn op.payload.preds) = true
    · rw [if_pos h3] at keep ht' a b hl sc' hkn ⊢
      by_cases h4 : c.pending = true
      · rw [if_pos h4]
        refine ⟨h, w, ?_⟩
        intro hc
        rw [h4] at hc
        simp at hc
      · rw [if_neg h4] at keep ht' a b hl sc' hkn ⊢
        by_cases h5 : op.payload.isStructural = true
        · rw [if_pos h5]
          exact ⟨h, w, by intro hc; simp at hc⟩
        · rw [if_neg h5] at keep ht' a b hl sc' hkn ⊢
          have hst : op.payload.isStructural = false := by simpa using h5
          have hpf : c.pending = false := by simpa using h4
          cases hap : c.applyOperation H op with
          | error e => rw [hap] at keep; simp only [hap]; exact keep rfl
          | ok c1 =>
            simp only [hap] at ht' a b hl sc' hkn ⊢
            obtain ⟨hg1, hg2⟩ := applyOperation_tree hf hap
            have hops : ∀ y, AMap.get c1.graph.ops y = if y = H op then some op else AMap.get c.graph.ops y := by
              intro y
              rw [hg2]
              show AMap.get (AMap.insert c.graph.ops (H op) op) y = _
              rw [AMap.get_insert]
            obtain ⟨i1, i2⟩ := root_agree hH sc' sc hkn a
            have hh := sd.graph.hash _ _ hop
            obtain ⟨v, v1, v2, v3, v4⟩ := trusted_maker hH hd (H op) (by rw [hh, hop]; simp)
            have sv := reachOk_inv hH (trusted_ok v1)
            rcases v4 with ⟨id', pk', op', hf', _, hx⟩ | ⟨m, op', t, hm, hmk, hg, hx⟩
            · have := hH hx
              subst this
              obtain ⟨_, _, hf'⟩ := hf'
              rw [hf'] at hst
              simp [Payload.isStructural] at hst
            · have := hH hx
              subst this
              have sm := reachOk_inv hH (trusted_ok hm)
              have hlast : ∀ R, RemovalG c.graph R → AMap.get m.graph.ops R ≠ none := by
                intro R hR
                have hRc : AMap.get c.graph.ops R ≠ none := by
                  obtain ⟨o', _, _, _, _, ho', _⟩ := hR; rw [ho']; simp
                have hopc : AMap.get c1.graph.ops (H op) ≠ none := by rw [hops]; simp
                have hvk : KnownIn v.graph c1.graph := by
                  intro y hy
                  rcases head_all sv.graph v2 hy with rfl | hy
                  · exact hopc
                  · exact (past_agree hH sc'.graph sv.graph hopc hy).1
                obtain ⟨k1, k2, k3, k4, k5, k6⟩ := maker_lt hH sv sm hg hmk hvk
                rcases b R (H op) ((removal_iff hH sc.graph sc'.graph hRc (hkn R hRc)).1 hR) hopc with e | e | e
                · rw [← e] at hRc; exact absurd hf hRc
                · exact (k6 R).1 (past_agree hH sv.graph sc'.graph (by rw [k4]; simp) e).2
                · exact absurd hf (past_agree hH sc.graph sc'.graph hRc e).1
              obtain ⟨t1, q1, q2, q3⟩ := update_applies hH ht a0 b0 hm hmk hpk hlast hst w (hn hpf)
              have q4 : c1.tree = t1 := by rw [q1] at hg1; cases hg1; rfl
              refine ⟨h, by rw [q4]; exact q2, ?_⟩
              intro _ r' hr'
              obtain ⟨r, _, hr, -⟩ := rebuilds hH ht a0 b0
              rw [q4, q3, hn hpf r hr]
              exact (next_same hH ht ht' a b hops hf hst hr hr').symm
    · rw [if_neg h3] at keep ht' a b hl sc' hkn ⊢
      obtain ⟨c1, r, h0, f1, f2, f3, f4⟩ := replayIf_ok hH ht a0 b0
      simp only [f1] at keep ht' a b hl sc' hkn ⊢
      cases hap : c1.applyOperation H op with
      | error e =>
        simp only [hap] at ht' a b sc' hkn ⊢
        have hx := Ext.replayIfNeeded f1
        refine ⟨h0, f4, ?_⟩
        intro _ r' hr'
        rw [hx.orig, hx.init, hx.graph, f2] at hr'
        cases hr'
        rw [f3]
      | ok c2 =>
        exfalso
        simp only [hap] at hl sc'
        have hx := Ext.replayIfNeeded f1
        obtain ⟨_, hg2⟩ := applyOperation_tree (by rw [hx.graph]; exact hf) hap
        apply hl
        rw [hx.graph] at hg2
        have hcov : ∀ x ∈ c.graph.heads, x ∈ op.payload.preds := by
          intro x hxh
          have h3' : c.graph.headsContainedIn op.payload.preds = true := by simpa using h3
          have := List.all_eq_true.1 h3' x hxh
          simpa using this
        have hgi := sc.graph.addOp hf hpk
        rw [hg2]
        have : (c.graph.addOp H op op.payload.preds).heads.Perm [H op] := by
          rw [List.perm_ext_iff_of_nodup hgi.headsN (by simp)]
          intro x
          simp only [Graph.addOp, Graph.addOpAndUpdateHeads, mem_sinsert, mem_foldl_sremove, List.mem_singleton]
          constructor
          · rintro (hx1 | ⟨hx1, hx2⟩)
            · exact hx1
            · exact absurd (hcov x hx1) hx2
          · exact Or.inl
        simpa using this.length_eq

/-- An operation is taken in as soon as what it builds on is known. -/
theorem receive_accepts {c d : Cgka} {op : SOp} (ht : Trusted H c) (hd : Trusted H d) (a : OneRootG c.graph) (b : SerialG c.graph)
    (hop : AMap.get d.graph.ops (H op) = some op) (hf : AMap.get c.graph.ops (H op) = none)
    (hpk : ∀ p ∈ op.payload.preds, AMap.get c.graph.ops p ≠ none)
    (hrem : ∀ R, RemovalG c.graph R → TransGen d.graph.Pred R (H op)) :
    (c.mergeConcurrentOperation H op).2 = .ok true := by
  have sc := reachOk_inv hH (trusted_ok ht)
  have sd := reachOk_inv hH (trusted_ok hd)
  obtain ⟨h, w, hn⟩ := trusted_near hH ht a b
  obtain ⟨v, v1, v2, v3, v4⟩ := trusted_maker hH hd (H op) (by rw [hop]; simp)
  have sv := reachOk_inv hH (trusted_ok v1)
  unfold Cgka.mergeConcurrentOperation
  rw [if_neg (by rw [containsOpHash_iff, hf]; simp), if_neg (by rw [(containsPredecessors_iff _ _).2 hpk]; simp)]
  rcases v4 with ⟨id', pk', op', hf', _, hx⟩ | ⟨m, op', t, hm, hmk, hg, hx⟩
  · have := hH hx
    subst this
    obtain ⟨_, _, hf'⟩ := hf'
    have hno : c.graph.headsContainedIn op.payload.preds = false := by
      rw [hf']
      obtain ⟨s, hs⟩ := List.exists_mem_of_ne_nil _ sc.graph.ne
      unfold Graph.headsContainedIn
      rw [List.all_eq_false]
      exact ⟨s, hs, by simp [Payload.preds, sextend]⟩
    rw [hno]
    simp only [Bool.not_false, if_true]
    split
    · rfl
    · rw [if_pos (by rw [hf']; rfl)]
  · have := hH hx
    subst this
    have sm := reachOk_inv hH (trusted_ok hm)
    obtain ⟨k1, k2, k3, k4, k5, k6⟩ := maker_lt hH sv sm hg hmk v3
    have kc := maker_known hH sc sm hmk hpk
    split
    · split
      · rfl
      · rename_i hpend
        split
        · rfl
        · rename_i hst
          have hpf : c.pending = false := by simpa using hpend
          have hlast : ∀ R, RemovalG c.graph R → AMap.get m.graph.ops R ≠ none := by
            intro R hR
            exact (k6 R).1 (past_agree hH sv.graph sd.graph (by rw [k4]; simp) (hrem R hR)).2
          obtain ⟨t1, q1, _, _⟩ := update_applies hH ht a b hm hmk hpk hlast (by simpa using hst) w (hn hpf)
          rw [applyOperation_eq hf, q1]
          rfl
    · rename_i h3
      have hcov : ∀ x ∈ c.graph.heads, x ∈ op.payload.preds := by
        intro x hxh
        have h3' : c.graph.headsContainedIn op.payload.preds = true := by simpa using h3
        have := List.all_eq_true.1 h3' x hxh
        simpa using this
      -- whoever made it knew exactly this
      have hcm : KnownIn c.graph m.graph := by
        intro y hy
        obtain ⟨s, hs, hys⟩ := sc.graph.reach_head hy
        have hsm := ((sm.graph.heads s).1 ((hmk.preds s).1 (hcov s hs))).1
        rcases hys with rfl | hys
        · exact hsm
        · exact (past_agree hH sm.graph sc.graph hsm hys).1
      have hsame : SameOps m.graph c.graph := by
        intro y
        by_cases hy : AMap.get m.graph.ops y = none
        · rw [hy]
          by_contra hcon
          exact hcm y (fun e => hcon e.symm) hy
        · exact ops_agree hH sm.graph sc.graph hy (kc y hy)
      obtain ⟨c1, r, h0, f1, f2, f3, f4⟩ := replayIf_ok hH ht a b
      rw [f1]
      have a' := oneRoot_sub hH sm.graph sc.graph kc a
      obtain ⟨rm, g1, g2⟩ := settled_tree hH hm a' hmk.settled
      obtain ⟨i1, i2⟩ := root_agree hH sc sm kc a
      rw [i1, i2, rebuilt_congr hsame sm.graph sc.graph a', f2] at g1
      cases g1
      have hx := Ext.replayIfNeeded f1
      simp only
      rw [applyOperation_eq (by rw [hx.graph]; exact hf), f3, g2, hmk.tree]
      rfl

end

end Verif.Cgka
