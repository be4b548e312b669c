import Verif.Cgka.TrustLemmas
import Verif.BeeKem.Props
import Verif.Cgka.CalmLemmas
import Verif.Cgka.LaterProps

/-! # Helper lemmas: without concurrency every member can open the tree -/

namespace Verif.Cgka

open Verif.BeeKem

/-- Every leaf has one key and belongs to the identity it names; every inner node with one key is openable by those
it was made for. -/
def Strong (t : BeeKem) : Prop := ∃ h, BeeKem.SInv t h ∧ BeeKem.Good t

theorem strong_new {id : MemberId} {pk : Pk} {t : BeeKem} (h : BeeKem.new id pk = .ok t) : Strong t := by
  obtain ⟨t', h1, h2, h3, _⟩ := BeeKem.new_ok id pk
  rw [h] at h1
  cases h1
  exact ⟨1, h2, h3⟩

theorem strong_push {t t' : BeeKem} {id : MemberId} {pk : Pk} {i : Nat} (hs : Strong t) (hn : t.containsId id = false)
    (h : t.pushLeaf id (.share pk) = .ok (t', i)) : Strong t' := by
  obtain ⟨k, w, hg⟩ := hs
  have hno : AMap.get t.idToLeafIdx id = none := BeeKem.contains_false.1 hn
  obtain ⟨t1, k', e1, e2, e3, e4, e5, e6, e7⟩ := BeeKem.pushLeaf_full w.toWInv id (.share pk)
  rw [h] at e1
  simp only [Except.ok.injEq, Prod.mk.injEq] at e1
  obtain ⟨rfl, rfl⟩ := e1
  refine ⟨k', BeeKem.pushLeaf_strong w (.share pk) hno e2 e5 e6, hg.blank e2.shape e7 ?_⟩
  intro j l hl
  rw [e6] at hl
  split at hl
  · cases hl; exact ⟨pk.of, rfl⟩
  · exact hg.single.leaf j l hl

theorem strong_remove {t t' : BeeKem} {id : MemberId} {x : Nat × List Pk} (hs : Strong t)
    (h : t.removeId id = .ok (t', x)) : Strong t' := by
  obtain ⟨k, w, hg⟩ := hs
  have hm : t.memberCount ≠ 1 := by
    intro hm
    unfold BeeKem.removeId at h
    rw [if_pos hm] at h
    simp at h
  cases hid : AMap.get t.idToLeafIdx id with
  | none =>
    unfold BeeKem.removeId at h
    rw [if_neg hm] at h
    simp [BeeKem.leafIndexForId, hid, bind, Except.bind] at h
  | some i =>
    obtain ⟨t1, B, e1, e2, e3, e4, e5, e6, e7⟩ := BeeKem.removeId_ok w.toWInv hid hm
    rw [h] at e1
    simp only [Except.ok.injEq, Prod.mk.injEq] at e1
    obtain ⟨rfl, rfl⟩ := e1
    refine ⟨k, BeeKem.removeId_strong w hid e2 e3 e4, hg.blank e2.shape e7 ?_⟩
    intro j l hl
    rw [e4] at hl
    split at hl
    · simp at hl
    · exact hg.single.leaf j l hl

theorem rootKey_of {t : BeeKem} {k : Sk} (h : Spec.RootSecret t k) :
    t.hasRootKey = .ok true ∧ t.nodeKeyForIndex (TreeMath.root t.treeSize) = .ok (.share ⟨k⟩) := by
  obtain ⟨j, st, v, h1, h2, h3, h4⟩ := h
  constructor
  · unfold BeeKem.hasRootKey
    rw [h1]
    simp [BeeKem.innerNode, h2, bind, Except.bind, SecretStore.hasConflict, h3, pure, Except.pure]
  · rw [h1]
    simp [BeeKem.nodeKeyForIndex, BeeKem.innerNode, h2, bind, Except.bind, SecretStore.nodeKey, NodeKey.ofSlice, h3, h4]

theorem root_unique {t : BeeKem} {k k' : Sk} (h : Spec.RootSecret t k)
    (h' : t.nodeKeyForIndex (TreeMath.root t.treeSize) = .ok (.share ⟨k'⟩)) : k = k' := by
  rw [(rootKey_of h).2] at h'
  simpa using h'

/-- After a key update the root has one key, whose secret is the one returned. -/
theorem strong_update {t t' : BeeKem} {g : BeeKem.Gen} {c n : Nat} {id : MemberId} {sk : Sk} {sks sks' : ShareKeyMap}
    {k : Sk} {pc : PathChange} (hs : Strong t) (hsk : AMap.get sks ⟨sk⟩ = some sk)
    (h : t.encryptPath g c id ⟨sk⟩ sks = .ok (t', sks', n, k, pc)) : Strong t' ∧ Spec.RootSecret t' k := by
  obtain ⟨hh, w, hg⟩ := hs
  cases hid : AMap.get t.idToLeafIdx id with
  | none =>
    unfold BeeKem.encryptPath at h
    simp [BeeKem.leafIndexForId, hid, bind, Except.bind] at h
  | some i =>
    obtain ⟨l, hl, _⟩ := w.ids id i hid
    obtain ⟨s', newp, ν, e1, R⟩ := BeeKem.encryptPath_ok g c w.shape hg.single (w.lt hid) hid hl hsk
    rw [h] at e1
    simp only [Except.ok.injEq, Prod.mk.injEq] at e1
    obtain ⟨rfl, rfl, rfl, rfl, rfl⟩ := e1
    obtain ⟨a1, a2, _⟩ := BeeKem.encryptPath_inv g c w hg hid R
    exact ⟨⟨hh, a1, a2⟩, BeeKem.Props.rootSecret_of a1.shape R.rootKey⟩

/-- A member of such a tree with the secret of its own leaf obtains the root secret. -/
theorem strong_decrypt {t : BeeKem} {me : MemberId} {sks : ShareKeyMap} (hs : Strong t)
    (hr : t.hasRootKey = .ok true) (hp : Pure sks) (hl : HoldsLeaf t me sks) :
    ∃ sks' k, t.decryptTreeSecret me sks = .ok (sks', k) ∧ Spec.RootSecret t k := by
  obtain ⟨h, w, hg⟩ := hs
  obtain ⟨pk, sk, h1, h2⟩ := hl
  rw [BeeKem.hasRootKey_ok w.shape] at hr
  have hroot : t.skipD h 0 = false := by simpa using hr
  unfold BeeKem.nodeKeyForId BeeKem.leafIndexForId at h1
  cases hid : AMap.get t.idToLeafIdx me with
  | none => simp [hid, bind, Except.bind] at h1
  | some i =>
    obtain ⟨l, hl, _⟩ := w.ids me i hid
    simp only [hid, bind, Except.bind, BeeKem.nodeKeyForIndex, BeeKem.leaf_ok w.shape (w.lt hid), hl, Except.ok.injEq] at h1
    have := hp.get _ _ h2
    subst this
    obtain ⟨sks', r, d1, d2, _⟩ := BeeKem.decryptTreeSecret_ok w.toWInv hg hroot hid hl h1 hp.get h2
    exact ⟨sks', r, d1, BeeKem.Props.rootSecret_of w.shape d2⟩

/-! ## One step without concurrency -/

theorem replay_single {H : SOp → Nat} {c c1 : Cgka} (hs : SInv H c) (hl : c.graph.heads.length = 1)
    (h : c.replayIfNeeded H = .ok c1) : c1 = c := (settle hs h).2.2.1 hl

theorem strong_update_call {H : SOp → Nat} {sign : Payload → Res SOp} (hg : GoodSigner sign) {c : Cgka} (hs : SInv H c)
    (hl : c.graph.heads.length = 1) (hc : Clean c) (hst : Strong c.tree) (g : BeeKem.Gen) (n : Nat) (sk : Sk) :
    Strong (c.update H sign g n sk).1.tree ∧
    ∀ k op, (c.update H sign g n sk).2 = .ok (k, op) → Spec.RootSecret (c.update H sign g n sk).1.tree k := by
  unfold Cgka.update
  split
  · exact ⟨hst, by simp⟩
  · rename_i c1 hr
    have := replay_single hs hl hr
    subst this
    split
    · exact ⟨hst, by simp⟩
    · rename_i uid upk usk ht
      have := updateTarget_pure hc ht
      subst this
      dsimp only
      split
      · exact ⟨hst, by simp⟩
      · rename_i t sks n' k pc henc
        obtain ⟨o, ho, _⟩ := hg (.update uid pc c1.graph.heads)
        rw [ho]
        dsimp only
        obtain ⟨a, b⟩ := strong_update hst (AMap.get_insert_self _ _ _) henc
        refine ⟨a, ?_⟩
        intro k' op' he
        simp only [Except.ok.injEq, Prod.mk.injEq] at he
        rw [← he.1]
        exact b

theorem finish_fst (c : Cgka) (k : Sk) (op : Option SOp) (r ps : Nat) : (c.finishAppSecret k op r ps).1 = c := by
  unfold Cgka.finishAppSecret; split <;> rfl

theorem strong_own {H : SOp → Nat} {c : Cgka} (hs : SInv H c) (hl : c.graph.heads.length = 1) (hc : Clean c)
    (hst : Strong c.tree) {cmd : Cmd} (ho : cmd.Own) (hg : cmd.Signs) : Strong (step H c cmd).tree := by
  cases cmd with
  | add sign id pk =>
    show Strong (c.add H sign id pk).1.tree
    unfold Cgka.add
    split
    · exact hst
    · rename_i hn
      split
      · exact hst
      · rename_i c1 hr
        have := replay_single hs hl hr
        subst this
        split
        · exact hst
        · rename_i t i hp
          dsimp only
          obtain ⟨o, ho, _⟩ := hg (.add id pk i c1.graph.heads c1.graph.addHeads)
          rw [ho]
          exact strong_push hst (by simpa using hn) hp
  | remove sign id =>
    show Strong (c.remove H sign id).1.tree
    unfold Cgka.remove
    split
    · exact hst
    · split
      · exact hst
      · rename_i c1 hr
        have := replay_single hs hl hr
        subst this
        split
        · exact hst
        · split
          · exact hst
          · rename_i t i rk hp
            dsimp only
            obtain ⟨o, ho, _⟩ := hg (.remove id i rk c1.graph.heads)
            rw [ho]
            exact strong_remove hst hp
  | update sign g n sk => exact (strong_update_call hg hs hl hc hst g n sk).1
  | encrypt sign g n r ps =>
    show Strong (c.newAppSecretFor H sign g n r ps).1.tree
    unfold Cgka.newAppSecretFor
    split
    · exact hst
    · have hu := (strong_update_call hg hs hl hc hst g (n + 1) (g n)).1
      split
      · rename_i c1 e he; rw [he] at hu; exact hu
      · rename_i c1 k op he
        rw [he] at hu
        rw [finish_fst]
        exact hu
    · split
      · exact hst
      · rename_i c1 k hr
        have ht : c1.tree = c.tree := by
          have := (treeRoot_tg hr).1
          simp only [tg, Prod.mk.injEq] at this
          exact this.1
        split
        · rw [finish_fst, ht]; exact hst
        · split
          · rw [finish_fst, ht]; exact hst
          · rw [finish_fst]
            show Strong c1.tree
            rw [ht]; exact hst
  | decrypt e =>
    show Strong (c.decryptionKeyFor H e).1.tree
    have := (decrypt_tg H c e).1
    simp only [tg, Prod.mk.injEq] at this
    rw [this.1]
    exact hst
  | receive op => exact ho.elim

/-- The record is unchanged, or has one new operation that names all heads. -/
def AtopHeads (H : SOp → Nat) (g g' : Graph) : Prop :=
  g' = g ∨ ∃ op, (∀ x, x ∈ op.payload.preds ↔ x ∈ g.heads) ∧ g' = g.addLocalOp H op

theorem own_graph_update (H : SOp → Nat) {sign : Payload → Res SOp} (hs : HonestSigner sign) (c : Cgka) (g : BeeKem.Gen)
    (n : Nat) (sk : Sk) : AtopHeads H c.graph (c.update H sign g n sk).1.graph := by
  unfold Cgka.update
  split
  · exact .inl rfl
  · rename_i c1 hr
    have hx := (Ext.replayIfNeeded hr).graph
    split
    · exact .inl hx
    · dsimp only
      split
      · exact .inl hx
      · split
        · exact .inl hx
        · rename_i op hop
          refine .inr ⟨op, ?_, ?_⟩
          · intro x
            rw [hs _ _ hop]
            simp [Payload.preds, mem_sextend, hx]
          · show c1.graph.addLocalOp H op = _
            rw [hx]

/-- An own call records nothing, or one operation on top of everything known. -/
theorem own_graph (H : SOp → Nat) (c : Cgka) {cmd : Cmd} (ho : cmd.Own) (hs : cmd.Honest) :
    AtopHeads H c.graph (step H c cmd).graph := by
  cases cmd with
  | add sign id pk =>
    show AtopHeads H c.graph (c.add H sign id pk).1.graph
    unfold Cgka.add
    split
    · exact .inl rfl
    · split
      · exact .inl rfl
      · rename_i c1 hr
        have hx := (Ext.replayIfNeeded hr).graph
        split
        · exact .inl hx
        · dsimp only
          split
          · exact .inl hx
          · rename_i op hop
            refine .inr ⟨op, ?_, ?_⟩
            · intro x
              rw [hs _ _ hop]
              simp [Payload.preds, mem_sextend, hx]
            · show c1.graph.addLocalOp H op = _
              rw [hx]
  | remove sign id =>
    show AtopHeads H c.graph (c.remove H sign id).1.graph
    unfold Cgka.remove
    split
    · exact .inl rfl
    · split
      · exact .inl rfl
      · rename_i c1 hr
        have hx := (Ext.replayIfNeeded hr).graph
        split
        · exact .inl hx
        · split
          · exact .inl hx
          · dsimp only
            split
            · exact .inl hx
            · rename_i op hop
              refine .inr ⟨op, ?_, ?_⟩
              · intro x
                rw [hs _ _ hop]
                simp [Payload.preds, mem_sextend, hx]
              · show c1.graph.addLocalOp H op = _
                rw [hx]
  | update sign g n sk => exact own_graph_update H hs c g n sk
  | encrypt sign g n r ps =>
    show AtopHeads H c.graph (c.newAppSecretFor H sign g n r ps).1.graph
    unfold Cgka.newAppSecretFor
    split
    · exact .inl rfl
    · have hu := own_graph_update H hs c g (n + 1) (g n)
      split
      · rename_i c1 e he; rw [he] at hu; exact hu
      · rename_i c1 k op he
        rw [he] at hu
        rw [finish_fst]
        exact hu
    · split
      · exact .inl rfl
      · rename_i c1 k hr
        have ht : c1.graph = c.graph := by
          have := (treeRoot_tg hr).1
          simp only [tg, Prod.mk.injEq] at this
          exact this.2
        split
        · rw [finish_fst, ht]; exact .inl rfl
        · split
          · rw [finish_fst, ht]; exact .inl rfl
          · rw [finish_fst]
            exact .inl ht
  | decrypt e => exact .inl (Ext.decrypt H c e).graph
  | receive op => exact ho.elim

/-! ## Histories without concurrency -/

open Relation

def LinearG (g : Graph) : Prop := ∀ x y, AMap.get g.ops x ≠ none → AMap.get g.ops y ≠ none →
  x = y ∨ TransGen g.Pred x y ∨ TransGen g.Pred y x

theorem linear_iff {H : SOp → Nat} {c : Cgka} (h : GInv H c.graph) : Linear c ↔ LinearG c.graph := by
  unfold Linear LinearG
  simp only [knows_iff, before_iff h]

theorem ops_agree {H : SOp → Nat} (hH : Function.Injective H) {g g' : Graph} (h : GInv H g) (h' : GInv H g') {x : Nat}
    (hx : AMap.get g.ops x ≠ none) (hx' : AMap.get g'.ops x ≠ none) : AMap.get g.ops x = AMap.get g'.ops x := by
  cases h1 : AMap.get g.ops x with
  | none => exact absurd h1 hx
  | some o =>
    cases h2 : AMap.get g'.ops x with
    | none => exact absurd h2 hx'
    | some o' => rw [hH ((h.hash _ _ h1).trans (h'.hash _ _ h2).symm)]

/-- The past of an operation that two replicas know is the same for both. -/
theorem past_agree {H : SOp → Nat} (hH : Function.Injective H) {g g' : Graph} (h : GInv H g) (h' : GInv H g') {x y : Nat}
    (hx : AMap.get g.ops x ≠ none) (hy : TransGen g'.Pred y x) : AMap.get g.ops y ≠ none ∧ TransGen g.Pred y x := by
  have one : ∀ {p q : Nat}, AMap.get g.ops q ≠ none → g'.Pred p q → AMap.get g.ops p ≠ none ∧ g.Pred p q := by
    intro p q hq hp
    have hk := h'.known_pred hp
    have ha := ops_agree hH h h' hq hk.2
    have : g.Pred p q := by
      rw [h.predOf, ha, ← h'.predOf]; exact hp
    exact ⟨(h.known_pred this).1, this⟩
  induction hy with
  | single hp =>
    obtain ⟨a, b⟩ := one hx hp
    exact ⟨a, .single b⟩
  | tail _ hp ih =>
    obtain ⟨a, b⟩ := one hx hp
    obtain ⟨a', b'⟩ := ih a
    exact ⟨a', b'.tail b⟩

theorem LinearG.sub {H : SOp → Nat} (hH : Function.Injective H) {g g' : Graph} (h : GInv H g) (h' : GInv H g')
    (hsub : ∀ x, AMap.get g.ops x ≠ none → AMap.get g'.ops x ≠ none) (hl : LinearG g') : LinearG g := by
  intro x y hx hy
  rcases hl x y (hsub x hx) (hsub y hy) with h1 | h1 | h1
  · exact .inl h1
  · exact .inr (.inl (past_agree hH h h' hy h1).2)
  · exact .inr (.inr (past_agree hH h h' hx h1).2)

theorem LinearG.heads {H : SOp → Nat} {g : Graph} (h : GInv H g) (hl : LinearG g) : ∃ x, g.heads = [x] := by
  have hlt : ∀ {x y}, TransGen g.Pred x y → x ∉ g.heads := by
    intro x y hxy hx
    obtain ⟨q, hq, _⟩ := TransGen.head'_iff.1 hxy
    exact ((h.heads x).1 hx).2 q hq
  cases hh : g.heads with
  | nil => exact absurd hh h.ne
  | cons x l =>
    cases l with
    | nil => exact ⟨x, rfl⟩
    | cons y l =>
      have hx : x ∈ g.heads := by rw [hh]; simp
      have hy : y ∈ g.heads := by rw [hh]; simp
      rcases hl x y ((h.heads x).1 hx).1 ((h.heads y).1 hy).1 with h1 | h1 | h1
      · have := h.headsN
        rw [hh, h1] at this
        simp at this
      · exact absurd hx (hlt h1)
      · exact absurd hy (hlt h1)

theorem LinearG.oneRoot {g : Graph} (hl : LinearG g) : OneRootG g := by
  intro a b ha hb ra rb
  rcases hl a b ha hb with h1 | h1 | h1
  · exact h1
  · obtain ⟨q, _, hq⟩ := TransGen.tail'_iff.1 h1
    exact absurd hq (rb q)
  · obtain ⟨q, _, hq⟩ := TransGen.tail'_iff.1 h1
    exact absurd hq (ra q)

/-- Somebody was once in the state whose last operation is `x`, with a tree every member could open if there was no
concurrency up to then. -/
def Witness (H : SOp → Nat) (c : Cgka) (x : Nat) : Prop :=
  ∃ w, Trusted H w ∧ w.graph.heads = [x] ∧ (∀ y, AMap.get w.graph.ops y ≠ none → AMap.get c.graph.ops y ≠ none) ∧
    (LinearG w.graph → Strong w.tree)

theorem head_all {H : SOp → Nat} {g : Graph} (h : GInv H g) {x y : Nat} (hx : g.heads = [x])
    (hy : AMap.get g.ops y ≠ none) : y = x ∨ TransGen g.Pred y x := by
  obtain ⟨s, hs, h1⟩ := h.reach_head hy
  rw [hx] at hs
  simp only [List.mem_singleton] at hs
  subst hs; exact h1

theorem head_known {H : SOp → Nat} {g : Graph} (h : GInv H g) {x : Nat} (hx : g.heads = [x]) :
    AMap.get g.ops x ≠ none := ((h.heads x).1 (by rw [hx]; simp)).1

theorem strong_of_witness {H : SOp → Nat} (hH : Function.Injective H) {c : Cgka} (hc : Trusted H c)
    (hw : ∀ x, AMap.get c.graph.ops x ≠ none → Witness H c x) (hl : LinearG c.graph) : Strong c.tree := by
  have sc := reachOk_inv hH (trusted_ok hc)
  obtain ⟨x, hx⟩ := hl.heads sc.graph
  obtain ⟨w, w1, w2, w3, w4⟩ := hw x (head_known sc.graph hx)
  have sw := reachOk_inv hH (trusted_ok w1)
  have hk : ∀ y, Knows w y ↔ Knows c y := by
    intro y
    rw [knows_iff, knows_iff]
    refine ⟨w3 y, fun hy => ?_⟩
    rcases head_all sc.graph hx hy with rfl | h1
    · exact head_known sw.graph w2
    · exact (past_agree hH sw.graph sc.graph (head_known sw.graph w2) h1).1
  have hlw := hl.sub hH sw.graph sc.graph w3
  have hrw : w.replayIfNeeded H = .ok w := by
    unfold Cgka.replayIfNeeded
    rw [if_neg]
    rw [shouldReplay_eq sw, w2]
    simp
  obtain ⟨c', h1, h2⟩ := Props.C12_convergence hH (trusted_ok w1) (trusted_ok hc)
    ((oneRoot_iff sw.graph).2 hlw.oneRoot) hk hrw
  have := replay_single sc (by rw [hx]; rfl) h1
  subst this
  rw [h2]
  exact w4 hlw

theorem trusted_witness {H : SOp → Nat} (hH : Function.Injective H) {c : Cgka} (h : Trusted H c) :
    ∀ x, AMap.get c.graph.ops x ≠ none → Witness H c x := by
  induction h with
  | @new id pk op c h1 h2 =>
    have hc := Trusted.new h1 h2
    intro x hx
    unfold Cgka.newFromInitAdd at h2
    simp only [bind, Except.bind] at h2
    split at h2
    · simp at h2
    · rename_i t ht
      cases h2
      refine ⟨_, hc, ?_, fun _ h => h, fun _ => strong_new ht⟩
      have hx : AMap.get (AMap.insert ([] : AMap Nat SOp) (H op) op) x ≠ none := hx
      rw [AMap.get_insert] at hx
      split at hx
      · subst x; rfl
      · simp at hx
  | owner me sks h hk ih =>
    intro x hx
    obtain ⟨w, w1, w2, w3, w4⟩ := ih x hx
    exact ⟨w, w1, w2, w3, w4⟩
  | @call c cmd ht ho hg ih =>
    have sc := reachOk_inv hH (trusted_ok ht)
    have ht' := Trusted.call ht ho hg
    have sc' := reachOk_inv hH (trusted_ok ht')
    have hh : cmd.Honest := by
      cases cmd <;> first | exact Sample.good_honest hg | trivial
    have hgs := own_graph H c ho hh
    intro x hx
    have keep : (∀ y, AMap.get c.graph.ops y ≠ none → AMap.get (step H c cmd).graph.ops y ≠ none) →
        AMap.get c.graph.ops x ≠ none → Witness H (step H c cmd) x := by
      intro hk h0
      obtain ⟨w, w1, w2, w3, w4⟩ := ih x h0
      exact ⟨w, w1, w2, fun y hy => hk y (w3 y hy), w4⟩
    rcases hgs with hgs | ⟨op, _, hgs⟩
    · rw [hgs] at hx
      exact keep (by rw [hgs]; exact fun _ h => h) hx
    · have hsub : ∀ y, AMap.get c.graph.ops y ≠ none → AMap.get (step H c cmd).graph.ops y ≠ none := by
        intro y hy
        rw [hgs]
        show AMap.get (AMap.insert c.graph.ops (H op) op) y ≠ none
        rw [AMap.get_insert]
        split <;> simp_all
      by_cases h0 : AMap.get c.graph.ops x = none
      · rw [hgs] at hx
        have hx' : AMap.get (AMap.insert c.graph.ops (H op) op) x ≠ none := hx
        rw [AMap.get_insert] at hx'
        split at hx'
        · subst x
          refine ⟨step H c cmd, ht', by rw [hgs]; rfl, fun _ h => h, fun hl => ?_⟩
          have hlc := hl.sub hH sc.graph sc'.graph hsub
          obtain ⟨y, hy⟩ := hlc.heads sc.graph
          exact strong_own sc (by rw [hy]; rfl) (trusted_clean hH ht) (strong_of_witness hH ht ih hlc) ho hg
        · exact absurd h0 hx'
      · exact keep hsub h0
  | @receive c d x0 op ht hd hop ih ihd =>
    have ht' := Trusted.receive ht hd hop
    have sc' := reachOk_inv hH (trusted_ok ht')
    have sd := reachOk_inv hH (trusted_ok hd)
    have hk := Props.receive_cases H c op
    intro x hx
    have hx0 : AMap.get (c.mergeConcurrentOperation H op).1.graph.ops x ≠ none := hx
    have keep : (∀ y, AMap.get c.graph.ops y ≠ none → AMap.get (c.mergeConcurrentOperation H op).1.graph.ops y ≠ none) →
        AMap.get c.graph.ops x ≠ none → Witness H (step H c (.receive op)) x := by
      intro hk h0
      obtain ⟨w, w1, w2, w3, w4⟩ := ih x h0
      exact ⟨w, w1, w2, fun y hy => hk y (w3 y hy), w4⟩
    rcases hk with ⟨hk, _⟩ | ⟨hk, _, _⟩
    · rw [hk] at hx0
      exact keep (by rw [hk]; exact fun _ h => h) hx0
    · by_cases h0 : AMap.get c.graph.ops x = none
      · rw [hk] at hx0
        have hx' : AMap.get (AMap.insert c.graph.ops (H op) op) x ≠ none := hx0
        rw [AMap.get_insert] at hx'
        split at hx'
        · subst x
          have hh := sd.graph.hash _ _ hop
          obtain ⟨w, w1, w2, w3, w4⟩ := ihd (H op) (by rw [hh, hop]; simp)
          have sw := reachOk_inv hH (trusted_ok w1)
          refine ⟨w, w1, w2, fun y hy => ?_, w4⟩
          rcases head_all sw.graph w2 hy with rfl | h1
          · exact hx
          · exact (past_agree hH sc'.graph sw.graph hx h1).1
        · exact absurd h0 hx'
      · refine keep ?_ h0
        intro y hy
        rw [hk]
        show AMap.get (AMap.insert c.graph.ops (H op) op) y ≠ none
        rw [AMap.get_insert]
        split <;> simp_all

/-- Without concurrency, every member of the group can open the tree. -/
theorem linear_strong {H : SOp → Nat} (hH : Function.Injective H) {c : Cgka} (hc : Trusted H c) (hl : Linear c) :
    Strong c.tree :=
  strong_of_witness hH hc (trusted_witness hH hc) ((linear_iff (reachOk_inv hH (trusted_ok hc)).graph).1 hl)

theorem Strong.calm {c : Cgka} (h : Strong c.tree) : Calm c.pcsKeyFromTreeRoot := by
  obtain ⟨_, w, _⟩ := h
  exact treeRoot_calm w.toWInv

/-! ## What the library's own operations name -/

theorem TidyG.sub {H : SOp → Nat} (hH : Function.Injective H) {g g' : Graph} (h : GInv H g) (h' : GInv H g')
    (ht : TidyG g) {x p q : Nat} (hx : AMap.get g.ops x ≠ none) (hp : g'.Pred p x) (hq : g'.Pred q x) :
    ¬ TransGen g'.Pred p q := by
  intro hpq
  have h1 := past_agree hH h h' hx (.single hp)
  have h2 := past_agree hH h h' hx (.single hq)
  have h3 := past_agree hH h h' h2.1 hpq
  have one : ∀ {r}, g'.Pred r x → g.Pred r x := by
    intro r hr
    rw [h.predOf, ops_agree hH h h' hx (h'.known_pred hr).2, ← h'.predOf]
    exact hr
  exact ht x p q (one hp) (one hq) h3.2

theorem trusted_tidy {H : SOp → Nat} (hH : Function.Injective H) {c : Cgka} (h : Trusted H c) : TidyG c.graph := by
  induction h with
  | @new id pk op c h1 h2 =>
    have sc := reachOk_inv hH (.new h1 h2)
    intro x p q hp _
    have hk := (sc.graph.predOf p x).1 hp
    obtain ⟨o, ho, hp⟩ := hk
    unfold Cgka.newFromInitAdd at h2
    simp only [bind, Except.bind] at h2
    split at h2
    · simp at h2
    · cases h2
      have ho : AMap.get (AMap.insert ([] : AMap Nat SOp) (H op) op) x = some o := ho
      rw [AMap.get_insert] at ho
      split at ho
      · cases ho
        obtain ⟨n, ps, hpay⟩ := h1
        rw [hpay] at hp
        simp [Payload.preds, sextend] at hp
      · simp at ho
  | owner me sks _ _ ih => exact ih
  | @call c cmd ht ho hg ih =>
    have sc := reachOk_inv hH (trusted_ok ht)
    have sc' := reachOk_inv hH (trusted_ok (.call ht ho hg))
    have hh : cmd.Honest := by
      cases cmd <;> first | exact Sample.good_honest hg | trivial
    intro x p q hp hq
    by_cases h0 : AMap.get c.graph.ops x = none
    · intro hpq
      have hp0 := (sc'.graph.known_pred hp).2
      rcases own_graph H c ho hh with hgr | ⟨op, hpr, hgr⟩
      · rw [hgr] at hp0
        exact hp0 h0
      · have hx : x = H op := by
          rw [hgr] at hp0
          have hp0 : AMap.get (AMap.insert c.graph.ops (H op) op) x ≠ none := hp0
          rw [AMap.get_insert] at hp0
          split at hp0
          · assumption
          · exact absurd h0 hp0
        have hin : ∀ {r}, (step H c cmd).graph.Pred r x → r ∈ c.graph.heads := by
          intro r hr
          rw [sc'.graph.predOf, hgr] at hr
          obtain ⟨o, ho, hr⟩ := hr
          have ho : AMap.get (AMap.insert c.graph.ops (H op) op) x = some o := ho
          rw [hx, AMap.get_insert_self] at ho
          cases ho
          exact (hpr r).1 hr
        have h1 := past_agree hH sc.graph sc'.graph ((sc.graph.heads q).1 (hin hq)).1 hpq
        obtain ⟨y, hy, _⟩ := TransGen.head'_iff.1 h1.2
        exact ((sc.graph.heads p).1 (hin hp)).2 y hy
    · exact ih.sub hH sc.graph sc'.graph h0 hp hq
  | @receive c d x0 op ht hd hop ih ihd =>
    have sc := reachOk_inv hH (trusted_ok ht)
    have sd := reachOk_inv hH (trusted_ok hd)
    have sc' := reachOk_inv hH (trusted_ok (.receive ht hd hop))
    intro x p q hp hq
    by_cases h0 : AMap.get c.graph.ops x = none
    · have hx := (sc'.graph.known_pred hp).2
      rcases Props.receive_cases H c op with ⟨hk, _⟩ | ⟨hk, _, _⟩
      · exact absurd h0 (by rw [← hk]; exact hx)
      · change AMap.get (c.mergeConcurrentOperation H op).1.graph.ops x ≠ none at hx
        rw [hk] at hx
        have hx' : AMap.get (AMap.insert c.graph.ops (H op) op) x ≠ none := hx
        rw [AMap.get_insert] at hx'
        split at hx'
        · subst x
          have hh := sd.graph.hash _ _ hop
          exact ihd.sub hH sd.graph sc'.graph (by rw [hh, hop]; simp) hp hq
        · exact absurd h0 hx'
    · exact ih.sub hH sc.graph sc'.graph h0 hp hq

/-! ## Writing and reading -/

/-- Where a content key comes from: it belongs to the key at the root of the writer's tree. -/
theorem encrypt_root {H : SOp → Nat} (hH : Function.Injective H) {a a' : Cgka} (ha : Trusted H a)
    {sign : Payload → Res SOp} (hs : GoodSigner sign) {g : BeeKem.Gen} {n r ps : Nat} {s : AppSecret} {op : Option SOp}
    (he : a.newAppSecretFor H sign g n r ps = (a', .ok (s, op))) (hl : LinearG a.graph) :
    ∃ k o, s = deriveApplicationSecret k r ps o ∧ a'.tree.hasRootKey = .ok true ∧
      a'.tree.nodeKeyForIndex (TreeMath.root a'.tree.treeSize) = .ok (.share ⟨k⟩) := by
  have sa := reachOk_inv hH (trusted_ok ha)
  obtain ⟨x, hx⟩ := hl.heads sa.graph
  have hst := strong_of_witness hH ha (trusted_witness hH ha) hl
  have hc := trusted_clean hH ha
  have hfin : ∀ (c : Cgka) (k : Sk) (o : Option SOp), c.finishAppSecret k o r ps = (a', .ok (s, op)) →
      a' = c ∧ ∃ h, s = deriveApplicationSecret k r ps h := by
    intro c k o hf
    unfold Cgka.finishAppSecret at hf
    split at hf
    · simp at hf
    · rename_i y hy
      simp only [Prod.mk.injEq, Except.ok.injEq] at hf
      exact ⟨hf.1.symm, y, hf.2.1.symm⟩
  have hroot : a.hasPcsKey = .ok true → a.tree.hasRootKey = .ok true := by
    intro h
    unfold Cgka.hasPcsKey at h
    cases hq : a.tree.hasRootKey with
    | error e => rw [hq] at h; simp [bind, Except.bind] at h
    | ok b =>
      rw [hq] at h
      simp only [bind, Except.bind, pure, Except.pure, Except.ok.injEq, Bool.and_eq_true] at h
      rw [h.1.1]
  unfold Cgka.newAppSecretFor at he
  split at he
  · simp at he
  · have hu := (strong_update_call hs sa (by rw [hx]; rfl) hc hst g (n + 1) (g n)).2
    split at he
    · simp at he
    · rename_i c1 k o hq
      rw [hq] at hu
      obtain ⟨rfl, y, hy⟩ := hfin _ _ _ he
      have := rootKey_of (hu k o rfl)
      exact ⟨k, y, hy, this.1, this.2⟩
  · rename_i hp
    split at he
    · simp at he
    · rename_i c1 k hr
      have ht : c1.tree = a.tree := by
        have := (treeRoot_tg hr).1
        simp only [tg, Prod.mk.injEq] at this
        exact this.1
      have hk := (hc.treeRoot hr).2.1
      rw [← ht] at hk
      have hb : c1.tree.hasRootKey = .ok true := by rw [ht]; exact hroot hp
      split at he
      · obtain ⟨rfl, y, hy⟩ := hfin _ _ _ he
        exact ⟨k, y, hy, hb, hk⟩
      · split at he
        · obtain ⟨rfl, y, hy⟩ := hfin _ _ _ he
          exact ⟨k, y, hy, hb, hk⟩
        · obtain ⟨rfl, y, hy⟩ := hfin _ _ _ he
          exact ⟨k, y, hy, hb, hk⟩

theorem HoldsLeaf.grow {t : BeeKem} {me : MemberId} {m m' : ShareKeyMap} (h : HoldsLeaf t me m) (hg : Grow m m') :
    HoldsLeaf t me m' := by
  obtain ⟨pk, sk, h1, h2⟩ := h
  cases hq : AMap.get m' pk with
  | none => exact absurd hq (hg pk (by rw [h2]; simp))
  | some sk' => exact ⟨pk, sk', h1, hq⟩

theorem open_tree {t : BeeKem} (hst : Strong t) {me : MemberId} {sks : ShareKeyMap} (hp : Pure sks)
    (hl : HoldsLeaf t me sks) {k : Sk} (hr : t.hasRootKey = .ok true)
    (hk : t.nodeKeyForIndex (TreeMath.root t.treeSize) = .ok (.share ⟨k⟩)) {c : Cgka} (ht : c.tree = t)
    (ho : c.ownerId = me) (hs : c.ownerSks = sks) : ∃ c', c.pcsKeyFromTreeRoot = .ok (c', k) := by
  obtain ⟨sks', k', h1, h2⟩ := strong_decrypt hst hr hp hl
  have := root_unique h2 hk
  subst this
  unfold Cgka.pcsKeyFromTreeRoot
  rw [ht, ho, hs, h1]
  exact ⟨_, rfl⟩

end Verif.Cgka
