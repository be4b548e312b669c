import Verif.Cgka.LinearLemmas
import Verif.Cgka.OriginLemmas
import Verif.BeeKem.Packed

/-! # Helper lemmas: how each known operation of a group came about -/

namespace Verif.Cgka

open Verif.BeeKem Relation

/-- `op` was made, on top of all it knew, by a replica in state `m`, whose tree after taking in everything was `t`; its tree was
`t'` afterwards. -/
structure Makes (H : SOp → Nat) (m : Cgka) (op : SOp) (t t' : BeeKem) : Prop where
  preds : ∀ x, x ∈ op.payload.preds ↔ x ∈ m.graph.heads
  settled : ∃ m1, m.replayIfNeeded H = .ok m1 ∧ m1.tree = t
  tree : treeOp t op = .ok t'
  path : ∀ id pc ps, op.payload = .update id pc ps →
    ∃ g n uid pk sks s' sks' n' k, t.encryptPath g n uid pk sks = .ok (s', sks', n', k, pc)
  target : ∀ id pc ps, op.payload = .update id pc ps →
    ∃ m1 sk pk usk g n s' sks' n' k, m.replayIfNeeded H = .ok m1 ∧ m1.updateTarget sk = .ok (id, pk, usk) ∧
      t.encryptPath g n id pk (AMap.insert m1.ownerSks pk usk) = .ok (s', sks', n', k, pc)
  absent : ∀ id pk i ps qs, op.payload = .add id pk i ps qs → m.tree.containsId id = false

/-- The call leaves the record alone or makes one operation. -/
def Step1 (H : SOp → Nat) (c c' : Cgka) : Prop :=
  c'.graph = c.graph ∨ ∃ op t, Makes H c op t c'.tree ∧ c'.graph = c.graph.addLocalOp H op

theorem step1_update (H : SOp → Nat) {sign : Payload → Res SOp} (hs : GoodSigner sign) (c : Cgka) (g : BeeKem.Gen)
    (n : Nat) (sk : Sk) : Step1 H c (c.update H sign g n sk).1 := by
  unfold Cgka.update
  split
  · exact .inl rfl
  · rename_i c1 hr
    have hx := (Ext.replayIfNeeded hr).graph
    split
    · exact .inl hx
    · rename_i uid upk usk hu
      dsimp only
      split
      · exact .inl hx
      · rename_i t sks n' k pc henc
        obtain ⟨o, ho, hpay⟩ := hs (.update uid pc c1.graph.heads)
        rw [ho]
        dsimp only
        refine .inr ⟨o, c1.tree, ⟨?_, ⟨c1, hr, rfl⟩, ?_, ?_, ?_, ?_⟩, ?_⟩
        · intro x
          rw [hpay]
          simp [Payload.preds, mem_sextend, hx]
        · unfold treeOp
          rw [hpay]
          exact BeeKem.encryptPath_applies henc
        · intro id pc' ps he
          rw [hpay] at he
          cases he
          exact ⟨_, _, _, _, _, _, _, _, _, henc⟩
        · intro id pc' ps he
          rw [hpay] at he
          cases he
          exact ⟨c1, sk, _, _, _, _, _, _, _, _, hr, hu, henc⟩
        · intro id pk i ps qs he
          rw [hpay] at he
          cases he
        · show c1.graph.addLocalOp H o = _
          rw [hx]

theorem own_makes (H : SOp → Nat) (c : Cgka) {cmd : Cmd} (ho : cmd.Own) (hs : cmd.Signs) : Step1 H c (step H c cmd) := by
  cases cmd with
  | add sign id pk =>
    show Step1 H c (c.add H sign id pk).1
    unfold Cgka.add
    split
    · exact .inl rfl
    · rename_i hn
      split
      · exact .inl rfl
      · rename_i c1 hr
        have hx := (Ext.replayIfNeeded hr).graph
        split
        · exact .inl hx
        · rename_i t i hp
          dsimp only
          obtain ⟨o, ho, hpay⟩ := hs (.add id pk i c1.graph.heads c1.graph.addHeads)
          rw [ho]
          dsimp only
          refine .inr ⟨o, c1.tree, ⟨?_, ⟨c1, hr, rfl⟩, ?_, ?_, ?_, ?_⟩, ?_⟩
          · intro x
            rw [hpay]
            simp [Payload.preds, mem_sextend, hx]
          · unfold treeOp
            rw [hpay]
            simp [hp, bind, Except.bind, pure, Except.pure]
          · intro id pc' ps he
            rw [hpay] at he
            cases he
          · intro id pc' ps he
            rw [hpay] at he
            cases he
          · intro id' pk' i' ps qs he
            rw [hpay] at he
            cases he
            simpa using hn
          · show c1.graph.addLocalOp H o = _
            rw [hx]
  | remove sign id =>
    show Step1 H c (c.remove H sign id).1
    unfold Cgka.remove
    split
    · exact .inl rfl
    · split
      · exact .inl rfl
      · rename_i c1 hr
        have hx := (Ext.replayIfNeeded hr).graph
        split
        · exact .inl hx
        · split
          · exact .inl hx
          · rename_i t i rk hp
            dsimp only
            obtain ⟨o, ho, hpay⟩ := hs (.remove id i rk c1.graph.heads)
            rw [ho]
            dsimp only
            refine .inr ⟨o, c1.tree, ⟨?_, ⟨c1, hr, rfl⟩, ?_, ?_, ?_, ?_⟩, ?_⟩
            · intro x
              rw [hpay]
              simp [Payload.preds, mem_sextend, hx]
            · unfold treeOp
              rw [hpay]
              simp [hp, bind, Except.bind, pure, Except.pure]
            · intro id pc' ps he
              rw [hpay] at he
              cases he
            · intro id pc' ps he
              rw [hpay] at he
              cases he
            · intro id' pk' i' ps qs he
              rw [hpay] at he
              cases he
            · show c1.graph.addLocalOp H o = _
              rw [hx]
  | update sign g n sk => exact step1_update H hs c g n sk
  | encrypt sign g n r ps =>
    show Step1 H c (c.newAppSecretFor H sign g n r ps).1
    unfold Cgka.newAppSecretFor
    split
    · exact .inl rfl
    · have hu := step1_update H hs c g (n + 1) (g n)
      split
      · rename_i c1 e he; rw [he] at hu; exact hu
      · rename_i c1 k op he
        rw [he] at hu
        rw [finish_fst]
        exact hu
    · split
      · exact .inl rfl
      · rename_i c1 k hr
        have ht : c1.graph = c.graph := by
          have := (treeRoot_tg hr).1
          simp only [tg, Prod.mk.injEq] at this
          exact this.2
        split
        · rw [finish_fst]; exact .inl ht
        · split
          · rw [finish_fst]; exact .inl ht
          · rw [finish_fst]
            exact .inl ht
  | decrypt e => exact .inl (Ext.decrypt H c e).graph
  | receive op => exact ho.elim

/-- Somebody was once in the state whose last operation is `x`: as the first state of the group, or by making `x` on top of
what they knew. -/
def Maker (H : SOp → Nat) (c : Cgka) (x : Nat) : Prop :=
  ∃ w, Trusted H w ∧ w.graph.heads = [x] ∧ (∀ y, AMap.get w.graph.ops y ≠ none → AMap.get c.graph.ops y ≠ none) ∧
    ((∃ id pk op, First op.payload id pk ∧ Cgka.newFromInitAdd H id pk op = .ok w ∧ x = H op) ∨
     ∃ m op t, Trusted H m ∧ Makes H m op t w.tree ∧ w.graph = m.graph.addLocalOp H op ∧ x = H op)

theorem trusted_maker {H : SOp → Nat} (hH : Function.Injective H) {c : Cgka} (h : Trusted H c) :
    ∀ x, AMap.get c.graph.ops x ≠ none → Maker H c x := by
  induction h with
  | @new id pk op c h1 h2 =>
    have hc := Trusted.new h1 h2
    have h2' := h2
    intro x hx
    unfold Cgka.newFromInitAdd at h2
    simp only [bind, Except.bind] at h2
    split at h2
    · simp at h2
    · rename_i t ht
      cases h2
      have hx : AMap.get (AMap.insert ([] : AMap Nat SOp) (H op) op) x ≠ none := hx
      rw [AMap.get_insert] at hx
      split at hx
      · subst x
        exact ⟨_, hc, rfl, fun _ h => h, .inl ⟨id, pk, op, h1, h2', rfl⟩⟩
      · simp at hx
  | owner me sks h hk ih =>
    intro x hx
    obtain ⟨w, w1, w2, w3, w4⟩ := ih x hx
    exact ⟨w, w1, w2, w3, w4⟩
  | @call c cmd ht ho hg ih =>
    have ht' := Trusted.call ht ho hg
    have hgs := own_makes H c ho hg
    intro x hx
    have keep : (∀ y, AMap.get c.graph.ops y ≠ none → AMap.get (step H c cmd).graph.ops y ≠ none) →
        AMap.get c.graph.ops x ≠ none → Maker H (step H c cmd) x := by
      intro hk h0
      obtain ⟨w, w1, w2, w3, w4⟩ := ih x h0
      exact ⟨w, w1, w2, fun y hy => hk y (w3 y hy), w4⟩
    rcases hgs with hgs | ⟨op, t, hm, hgs⟩
    · rw [hgs] at hx
      exact keep (by rw [hgs]; exact fun _ h => h) hx
    · have hsub : ∀ y, AMap.get c.graph.ops y ≠ none → AMap.get (step H c cmd).graph.ops y ≠ none := by
        intro y hy
        rw [hgs]
        show AMap.get (AMap.insert c.graph.ops (H op) op) y ≠ none
        rw [AMap.get_insert]
        split <;> simp_all
      by_cases h0 : AMap.get c.graph.ops x = none
      · rw [hgs] at hx
        have hx' : AMap.get (AMap.insert c.graph.ops (H op) op) x ≠ none := hx
        rw [AMap.get_insert] at hx'
        split at hx'
        · subst x
          exact ⟨step H c cmd, ht', by rw [hgs]; rfl, fun _ h => h, .inr ⟨c, op, t, ht, hm, hgs, rfl⟩⟩
        · exact absurd h0 hx'
      · exact keep hsub h0
  | @receive c d x0 op ht hd hop ih ihd =>
    have ht' := Trusted.receive ht hd hop
    have sc' := reachOk_inv hH (trusted_ok ht')
    have sd := reachOk_inv hH (trusted_ok hd)
    have hk := Props.receive_cases H c op
    intro x hx
    have hx0 : AMap.get (c.mergeConcurrentOperation H op).1.graph.ops x ≠ none := hx
    have keep : (∀ y, AMap.get c.graph.ops y ≠ none → AMap.get (c.mergeConcurrentOperation H op).1.graph.ops y ≠ none) →
        AMap.get c.graph.ops x ≠ none → Maker H (step H c (.receive op)) x := by
      intro hk h0
      obtain ⟨w, w1, w2, w3, w4⟩ := ih x h0
      exact ⟨w, w1, w2, fun y hy => hk y (w3 y hy), w4⟩
    rcases hk with ⟨hk, _⟩ | ⟨hk, _, _⟩
    · rw [hk] at hx0
      exact keep (by rw [hk]; exact fun _ h => h) hx0
    · by_cases h0 : AMap.get c.graph.ops x = none
      · rw [hk] at hx0
        have hx' : AMap.get (AMap.insert c.graph.ops (H op) op) x ≠ none := hx0
        rw [AMap.get_insert] at hx'
        split at hx'
        · subst x
          have hh := sd.graph.hash _ _ hop
          obtain ⟨w, w1, w2, w3, w4⟩ := ihd (H op) (by rw [hh, hop]; simp)
          have sw := reachOk_inv hH (trusted_ok w1)
          refine ⟨w, w1, w2, fun y hy => ?_, w4⟩
          rcases head_all sw.graph w2 hy with rfl | h1
          · exact hx
          · exact (past_agree hH sc'.graph sw.graph hx h1).1
        · exact absurd h0 hx'
      · refine keep ?_ h0
        intro y hy
        rw [hk]
        show AMap.get (AMap.insert c.graph.ops (H op) op) y ≠ none
        rw [AMap.get_insert]
        split <;> simp_all

end Verif.Cgka
