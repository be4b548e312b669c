import Verif.Keyhive.HeldProps
import Verif.Keyhive.KeyTreeProps
import Verif.Keyhive.HandedLemmas
import Verif.Cgka.HandLemmas

/-! # Helper lemmas: the key operation of a revocation -/

namespace Verif.Cgka

open Verif.BeeKem

variable {H : SOp → Nat}

/-- What `remove` records. -/
theorem remove_makes {sign : Payload → Res SOp} (hs : GoodSigner sign) {c c1 : Cgka} (hcur : Current c) {id : MemberId} {o : Option SOp}
    (hin : c.tree.containsId id = true) (h : c.remove H sign id = (c1, .ok o)) :
    ∃ op i rk, o = some op ∧ op.payload = .remove id i rk c.graph.heads ∧ c1.graph = c.graph.addLocalOp H op := by
  unfold Cgka.remove at h
  rw [hin, hcur.replay H] at h
  simp only [Bool.not_true, Bool.false_eq_true, if_false] at h
  split at h
  · cases h
  · split at h
    · cases h
    · rename_i tree i rk hr
      obtain ⟨op, h1, h2⟩ := hs (.remove id i rk c.graph.heads)
      rw [h1] at h
      cases h
      exact ⟨op, i, rk, rfl, h2, rfl⟩

theorem knows_addLocal {c c1 : Cgka} {op : SOp} (hg : c1.graph = c.graph.addLocalOp H op) (x : Nat) :
    Knows c1 x ↔ Knows c x ∨ x = H op := by
  unfold Knows
  rw [hg]
  show (∃ o, AMap.get (AMap.insert c.graph.ops (H op) op) x = some o) ↔ _
  rw [AMap.get_insert]
  by_cases hx : x = H op
  · simp [hx]
  · simp [hx, Ne.symm hx]

/-- An operation made on top of the heads comes after everything known. -/
theorem local_after (hH : Function.Injective H) {c c1 : Cgka} (hc : Trusted H c) (hc1 : Trusted H c1) {op : SOp}
    (hg : c1.graph = c.graph.addLocalOp H op) (hp : ∀ x, x ∈ op.payload.preds ↔ x ∈ c.graph.heads) {y : Nat} (hy : Knows c y) :
    Before c1 y (H op) := by
  have gc := (reachOk_inv hH (trusted_ok hc)).graph
  have gc1 := (reachOk_inv hH (trusted_ok hc1)).graph
  have hop : AMap.get c1.graph.ops (H op) = some op := by
    rw [hg]
    show AMap.get (AMap.insert c.graph.ops (H op) op) (H op) = some op
    rw [AMap.get_insert]
    simp
  have hn : ∀ x ∈ c.graph.heads, Names c1 x (H op) := fun x hx => ⟨op, hop, (hp x).2 hx⟩
  rcases (Props.C13_heads_cover hH (Props.reachOk_reach (trusted_ok hc)) y).1 hy with h | ⟨x, hx, h⟩
  · exact .direct (hn y h)
  · exact .more (within_before hH gc gc1 (fun z hz => (knows_addLocal hg z).2 (.inl hz)) h) (hn x hx)

/-- The member whose keys an update replaces is in the tree. -/
theorem update_member {sign : Payload → Res SOp} (hs : GoodSigner sign) {c c1 : Cgka} (hcur : Current c) {g : BeeKem.Gen} {n : Nat} {sk : Sk}
    {k : Sk} {op : SOp} (h : c.update H sign g n sk = (c1, .ok (k, op))) :
    ∃ uid path, op.payload = .update uid path c.graph.heads ∧ c.tree.containsId uid = true := by
  unfold Cgka.update at h
  rw [hcur.replay H] at h
  simp only at h
  split at h
  · cases h
  · rename_i uid upk usk _
    split at h
    · cases h
    · rename_i tree sks x k' path hp
      obtain ⟨op', h1, h2⟩ := hs (.update uid path c.graph.heads)
      rw [h1] at h
      cases h
      refine ⟨uid, path, h2, ?_⟩
      unfold BeeKem.encryptPath BeeKem.leafIndexForId at hp
      unfold BeeKem.containsId AMap.contains
      cases hg : AMap.get c.tree.idToLeafIdx uid with
      | none => rw [hg] at hp; cases hp
      | some i => rfl

/-- A write that gives keys to nobody outside the tree. -/
theorem encrypt_gives (hH : Function.Injective H) {sign : Payload → Res SOp} (hs : GoodSigner sign) {c c1 : Cgka} (hcur : Current c) {g : BeeKem.Gen}
    {n r ps : Nat} {res : AppSecret × Option SOp} (h : c.newAppSecretFor H sign g n r ps = (c1, .ok res)) {op : SOp}
    (hop : AMap.get c1.graph.ops (H op) = some op) {id : MemberId} (hg : op.payload.GivesTo id) (hout : c.tree.containsId id = false) :
    AMap.get c.graph.ops (H op) = some op := by
  have h0 := (has_encrypt hH (sign := sign) c g n r ps op).1 (by rw [h]; exact hop)
  rcases h0 with h0 | ⟨s, h0⟩
  · exact h0
  · rw [h] at h0
    have fin : ∀ (c1 : Cgka) k o {q : Option SOp} {s}, (c1.finishAppSecret k o r ps).2 = .ok (s, q) → q = o := by
      intro c1 k o q s
      unfold Cgka.finishAppSecret
      split
      · intro h; cases h
      · intro h; cases h; rfl
    cases h0
    unfold Cgka.newAppSecretFor at h
    split at h
    · cases h
    · split at h
      · cases h
      · rename_i c2 k op' hu
        have := fin _ _ _ (by rw [h])
        cases this
        obtain ⟨uid, path, h1, h2⟩ := update_member hs hcur hu
        rw [h1] at hg
        cases hg
        rw [h2] at hout
        cases hout
    · split at h
      · cases h
      · split at h
        · exact absurd (fin _ _ _ (by rw [h])) (by simp)
        · split at h
          · exact absurd (fin _ _ _ (by rw [h])) (by simp)
          · exact absurd (fin _ _ _ (by rw [h])) (by simp)

end Verif.Cgka

namespace Verif.Keyhive

open Verif.Group Verif.Cgka Verif.BeeKem

variable {E : Env}

/-- The individuals taken out of the key group: an operation removes each, after everything known before. -/
theorem removeCgkaMembers_makes {H : SOp → Nat} (hH : Function.Injective H) {sign : Payload → Res SOp} (hs : GoodSigner sign) :
    ∀ {l : List Id} {d d' : Doc} {acc ops : List SOp} {c : Cgka}, d.cgka = some c → Trusted H c → Current c →
    d.removeCgkaMembers H sign l acc = (d', .ok ops) → (∀ o ∈ acc, o ∈ ops) ∧
    ∃ c', d'.cgka = some c' ∧ Trusted H c' ∧ (∀ y, Knows c y → Knows c' y) ∧
      (∀ op, AMap.get c'.graph.ops (H op) = some op → AMap.get c.graph.ops (H op) = some op ∨ ∃ id i rk qs, op.payload = .remove id i rk qs) ∧
      ∀ j ∈ l, c.tree.containsId j = true → ∃ op i rk qs, op ∈ ops ∧ op.payload = .remove j i rk qs ∧
        AMap.get c'.graph.ops (H op) = some op ∧ ∀ y, Knows c y → Before c' y (H op) := by
  intro l
  induction l with
  | nil =>
    intro d d' acc ops c hc ht hcur h
    cases h
    exact ⟨fun _ h => h, c, hc, ht, fun _ h => h, fun _ h => .inl h, by simp⟩
  | cons p l ih =>
    intro d d' acc ops c hc ht hcur h
    unfold Doc.removeCgkaMembers at h
    rw [hc] at h
    simp only at h
    split at h
    · cases h
    · rename_i c1 o h1
      have t1 : Trusted H c1 := by
        have := Trusted.call (cmd := .remove sign p) ht trivial hs
        have he : step H c (.remove sign p) = c1 := by show (c.remove H sign p).1 = c1; rw [h1]
        rwa [he] at this
      obtain ⟨h2, h3⟩ := hcur.remove h1
      obtain ⟨i0, c', i1, i2, i3, i4, i5⟩ := ih (c := c1) rfl t1 h2 h
      have g1 := (reachOk_inv hH (trusted_ok t1)).graph
      have g' := (reachOk_inv hH (trusted_ok i2)).graph
      by_cases hp : c.tree.containsId p = true
      · obtain ⟨op, i, rk, rfl, hpay, hg⟩ := remove_makes hs hcur hp h1
        have hk : ∀ y, Knows c y → Knows c1 y := fun y hy => (knows_addLocal hg y).2 (.inl hy)
        have hin : AMap.get c1.graph.ops (H op) = some op := by
          rw [hg]
          show AMap.get (AMap.insert c.graph.ops (H op) op) (H op) = some op
          rw [AMap.get_insert]
          simp
        refine ⟨fun o ho => i0 o (by simp [ho]), c', i1, i2, fun y hy => i3 y (hk y hy), fun o ho => ?_, fun j hj hcj => ?_⟩
        · rcases i4 o ho with h | h
          · rw [hg] at h
            change AMap.get (AMap.insert c.graph.ops (H op) op) (H o) = some o at h
            rw [AMap.get_insert] at h
            split at h
            · cases h; exact .inr ⟨_, _, _, _, hpay⟩
            · exact .inl h
          · exact .inr h
        · by_cases hjp : j = p
          · subst hjp
            refine ⟨op, i, rk, _, i0 op (by simp), hpay, within_op hH g1 g' i3 hin, fun y hy => ?_⟩
            refine within_before hH g1 g' i3 (local_after hH ht t1 hg (fun x => ?_) hy)
            rw [hpay]
            show x ∈ sextend [] c.graph.heads ↔ _
            simp [mem_sextend]
          · have hjl : j ∈ l := (List.mem_cons.1 hj).resolve_left hjp
            obtain ⟨o', a, b, qs, e1, e2, e3, e4⟩ := i5 j hjl ((h3 j).2 ⟨hjp, hcj⟩)
            exact ⟨o', a, b, qs, e1, e2, e3, fun y hy => e4 y (hk y hy)⟩
      · have hsame : c1 = c ∧ o = none := by
          unfold Cgka.remove at h1
          rw [Bool.not_eq_true] at hp
          rw [hp] at h1
          simp only [Bool.not_false, if_true] at h1
          cases h1
          exact ⟨rfl, rfl⟩
        obtain ⟨rfl, rfl⟩ := hsame
        refine ⟨fun o ho => i0 o (by simp [ho]), c', i1, i2, i3, i4, fun j hj hcj => ?_⟩
        rcases List.mem_cons.1 hj with rfl | hj
        · exact absurd hcj hp
        · exact i5 j hj hcj

/-- The key operations of a revocation from a document. -/
theorem revoke_makes (hH : ∀ i, Function.Injective (E.hashCgka i)) {w w1 : Keyhive} (hw : Fleet E w) {L : Local}
    (hs : ∀ doc, GoodSigner (L.signCgka doc)) {did member : Id} {retain : Bool} {content : Content} {ops : List SOp} {doc doc1 : Doc} {c c1 : Cgka}
    (hd : AMap.get w.docs did = some doc) (hc : doc.cgka = some c) (hcur : Current c)
    (h : w.revokeFromDoc E L did member retain content = (w1, .ok ops)) (hd1 : AMap.get w1.docs did = some doc1) (hc1 : doc1.cgka = some c1) :
    Current c1 ∧ (∀ y, Knows c y → Knows c1 y) ∧
    (∀ op, AMap.get c1.graph.ops (E.hashCgka did op) = some op → AMap.get c.graph.ops (E.hashCgka did op) = some op ∨
      ∃ id i rk qs, op.payload = .remove id i rk qs) ∧
    ∀ j, c.tree.containsId j = true → c1.tree.containsId j = false → ∃ op i rk qs, op ∈ ops ∧ op.payload = .remove j i rk qs ∧
      AMap.get c1.graph.ops (E.hashCgka did op) = some op ∧ ∀ y, Knows c y → Before c1 y (E.hashCgka did op) := by
  have ht := fleet_trusted hH hw hd hc
  unfold Keyhive.revokeFromDoc at h
  rw [hd] at h
  simp only at h
  split at h
  · cases h
  · rename_i ids hids
    split at h
    · cases h
    · rename_i g' revs dlgs hrev
      obtain ⟨s1, s2, _⟩ := storeAll_same (E := E) revs dlgs w
      have hd2 : AMap.get (w.storeAll E revs dlgs).docs did = some doc := by rw [s2]; exact hd
      have hg1 : AMap.get ((w.storeAll E revs dlgs).setDoc did { doc with group := g' }).docs did = some { doc with group := g' } := by
        rw [get_setDoc hd2, if_pos rfl]
      split at h
      · cases h
      · rename_i still hstill
        split at h
        · cases h
        · rename_i doc'' ops' hm
          cases h
          have hfin : AMap.get (((w.storeAll E revs dlgs).setDoc did { doc with group := g' }).setDoc did doc'').docs did = some doc'' := by
            rw [get_setDoc hg1, if_pos rfl]
          rw [hfin] at hd1
          cases hd1
          obtain ⟨-, c', i1, i2, i3, i4, i5⟩ := removeCgkaMembers_makes (hH did) (hs did) (d := { doc with group := g' }) hc ht hcur hm
          rw [hc1] at i1
          cases i1
          obtain ⟨c'', j1, j2, j3⟩ := removeCgkaMembers_tree (d := { doc with group := g' }) hc hcur hm
          rw [hc1] at j1
          cases j1
          refine ⟨j2, i3, i4, fun j h1 h2 => i5 j ?_ h1⟩
          by_contra hn
          rw [(j3 j).2 ⟨hn, h1⟩] at h2
          cases h2

end Verif.Keyhive
