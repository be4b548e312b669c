import Verif.Keyhive.ShutLemmas
import Verif.Keyhive.PlaceProps

/-! # Helper lemmas: the key operation of an addition -/

namespace Verif.Cgka

open Verif.BeeKem

variable {H : SOp → Nat}

/-- What `add` records. -/
theorem add_makes {sign : Payload → Res SOp} (hs : GoodSigner sign) {c c1 : Cgka} (hcur : Current c) {id : MemberId} {pk : Pk} {o : Option SOp}
    (hin : c.tree.containsId id = false) (h : c.add H sign id pk = (c1, .ok o)) :
    ∃ op i, o = some op ∧ op.payload = .add id pk i c.graph.heads c.graph.addHeads ∧ c1.graph = c.graph.addLocalOp H op := by
  unfold Cgka.add at h
  rw [hin, hcur.replay H] at h
  simp only [Bool.false_eq_true, if_false] at h
  split at h
  · cases h
  · rename_i tree i hr
    obtain ⟨op, h1, h2⟩ := hs (.add id pk i c.graph.heads c.graph.addHeads)
    rw [h1] at h
    cases h
    exact ⟨op, i, rfl, h2, rfl⟩

/-- After an addition on top of everything, a write makes an update, and everybody stays. -/
theorem encrypt_after (hH : Function.Injective H) {sign : Payload → Res SOp} {c c1 : Cgka} (hc : Trusted H c) (hcur : Current c) {y : Nat} {oy : SOp}
    (hy : AMap.get c.graph.ops y = some oy) (hadd : ∀ z o, AMap.get c.graph.ops z = some o → ¬ o.payload.isStructural → Before c z y)
    (hys : oy.payload.isStructural = true) {g : BeeKem.Gen} {n r ps : Nat} {s : AppSecret} {o : Option SOp}
    (h : c.newAppSecretFor H sign g n r ps = (c1, .ok (s, o))) :
    (∃ op, o = some op) ∧ ∀ j, c1.tree.containsId j = c.tree.containsId j := by
  have hg := (reachOk_inv hH (trusted_ok hc)).graph
  obtain ⟨b, hb, hall⟩ := Props.C16_current_secret hH (trusted_ok hc)
  have hbf : c.hasPcsKey = .ok false := by
    cases b with
    | false => exact hb
    | true =>
      obtain ⟨-, -, x, id, path, preds, i, sig, h1, h2, h3⟩ := hall rfl
      exfalso
      have hx := hadd x _ h2 (by simp [Payload.isStructural])
      rcases (h3 y).1 ⟨oy, hy⟩ with rfl | h4
      · rw [hy] at h2
        cases h2
        cases hys
      · exact hg.noLoop (((before_iff hg _ _).1 h4).trans ((before_iff hg _ _).1 hx))
  unfold Cgka.newAppSecretFor at h
  rw [hbf] at h
  simp only at h
  split at h
  · cases h
  · rename_i c2 k op hu
    have hop : o = some op ∧ c1 = c2.insertPcsKey k (H op) := by
      unfold Cgka.finishAppSecret at h
      split at h
      · cases h
      · cases h; exact ⟨rfl, rfl⟩
    refine ⟨⟨op, hop.1⟩, fun j => ?_⟩
    rw [hop.2]
    show c2.tree.containsId j = _
    unfold Cgka.update at hu
    rw [hcur.replay H] at hu
    simp only at hu
    split at hu
    · cases hu
    · split at hu
      · cases hu
      · rename_i tree sks m k' path hp
        split at hu
        · cases hu
        · cases hu
          show tree.containsId j = _
          unfold BeeKem.containsId
          rw [BeeKem.encryptPath_ids hp]

end Verif.Cgka

namespace Verif.Keyhive

open Verif.Group Verif.Cgka Verif.BeeKem

variable {E : Env}

/-- The individuals added to the key group: an operation adds each, after everything known before. -/
theorem addCgkaMembers_makes {H : SOp → Nat} (hH : Function.Injective H) {sign : Payload → Res SOp} (hs : GoodSigner sign) :
    ∀ {l : List (Id × Pk)} {d d' : Doc} {acc ops : List SOp} {c : Cgka}, d.cgka = some c → Trusted H c → Current c →
    d.addCgkaMembers H sign l acc = (d', .ok ops) → (∀ o ∈ acc, o ∈ ops) ∧
    ∃ c', d'.cgka = some c' ∧ Trusted H c' ∧ (∀ y, Knows c y → Knows c' y) ∧
      (∀ x op, AMap.get c'.graph.ops x = some op → AMap.get c.graph.ops x = some op ∨ op.payload.isStructural = true) ∧
      ∀ j ∈ l.map (·.1), c.tree.containsId j = false → ∃ op pk i qs as, op ∈ ops ∧ op.payload = .add j pk i qs as ∧
        AMap.get c'.graph.ops (H op) = some op ∧ ∀ y, Knows c y → Before c' y (H op) := by
  intro l
  induction l with
  | nil =>
    intro d d' acc ops c hc ht hcur h
    cases h
    exact ⟨fun _ h => h, c, hc, ht, fun _ h => h, fun _ _ h => .inl h, by simp⟩
  | cons p l ih =>
    obtain ⟨p, pk⟩ := p
    intro d d' acc ops c hc ht hcur h
    unfold Doc.addCgkaMembers at h
    rw [hc] at h
    simp only at h
    split at h
    · cases h
    · rename_i c1 o h1
      have t1 : Trusted H c1 := by
        have := Trusted.call (cmd := .add sign p pk) ht trivial hs
        have he : step H c (.add sign p pk) = c1 := by show (c.add H sign p pk).1 = c1; rw [h1]
        rwa [he] at this
      obtain ⟨h2, h3⟩ := hcur.add h1
      obtain ⟨i0, c', i1, i2, i3, i4, i5⟩ := ih (c := c1) rfl t1 h2 h
      have g1 := (reachOk_inv hH (trusted_ok t1)).graph
      have g' := (reachOk_inv hH (trusted_ok i2)).graph
      cases hp : c.tree.containsId p with
      | false =>
        obtain ⟨op, i, rfl, hpay, hg⟩ := add_makes hs hcur hp h1
        have hk : ∀ y, Knows c y → Knows c1 y := fun y hy => (knows_addLocal hg y).2 (.inl hy)
        have hin : AMap.get c1.graph.ops (H op) = some op := by
          rw [hg]
          show AMap.get (AMap.insert c.graph.ops (H op) op) (H op) = some op
          rw [AMap.get_insert]
          simp
        refine ⟨fun o ho => i0 o (by simp [ho]), c', i1, i2, fun y hy => i3 y (hk y hy), fun x o ho => ?_, fun j hj hcj => ?_⟩
        · rcases i4 x o ho with h | h
          · rw [hg] at h
            change AMap.get (AMap.insert c.graph.ops (H op) op) x = some o at h
            rw [AMap.get_insert] at h
            split at h
            · cases h; exact .inr (by rw [hpay]; rfl)
            · exact .inl h
          · exact .inr h
        · by_cases hjp : j = p
          · subst hjp
            refine ⟨op, pk, i, _, _, i0 op (by simp), hpay, within_op hH g1 g' i3 hin, fun y hy => ?_⟩
            refine within_before hH g1 g' i3 (local_after hH ht t1 hg (fun x => ?_) hy)
            rw [hpay]
            show x ∈ sextend [] c.graph.heads ↔ _
            simp [mem_sextend]
          · have hjl : j ∈ l.map (·.1) := (List.mem_cons.1 hj).resolve_left hjp
            obtain ⟨o', a, b, qs, as, e1, e2, e3, e4⟩ := i5 j hjl (by
              cases hq : c1.tree.containsId j with
              | false => rfl
              | true =>
                rcases (h3 j).1 hq with h | h
                · exact absurd h hjp
                · rw [hcj] at h; cases h)
            exact ⟨o', a, b, qs, as, e1, e2, e3, fun y hy => e4 y (hk y hy)⟩
      | true =>
        have hsame : c1 = c ∧ o = none := by
          unfold Cgka.add at h1
          rw [hp] at h1
          simp only [if_true] at h1
          cases h1
          exact ⟨rfl, rfl⟩
        obtain ⟨rfl, rfl⟩ := hsame
        refine ⟨fun o ho => i0 o (by simp [ho]), c', i1, i2, i3, i4, fun j hj hcj => ?_⟩
        rcases List.mem_cons.1 hj with rfl | hj
        · rw [hp] at hcj; cases hcj
        · exact i5 j hj hcj

/-- The key operations of an addition to a document. -/
theorem join_makes (hH : ∀ i, Function.Injective (E.hashCgka i)) {w w1 : Keyhive} (hw : Fleet E w) {L : Local}
    (hs : ∀ doc, GoodSigner (L.signCgka doc)) {did : Id} {who : Agent} {can : Access} {content : Content} {dl : Dlg} {ops : List SOp} {doc doc1 : Doc}
    {c c1 : Cgka} (hd : AMap.get w.docs did = some doc) (hc : doc.cgka = some c) (hcur : Current c)
    (h : w.addMemberToDoc E L did who can content = (w1, .ok (dl, ops))) (hd1 : AMap.get w1.docs did = some doc1) (hc1 : doc1.cgka = some c1) :
    Current c1 ∧ (∀ y, Knows c y → Knows c1 y) ∧
    (∀ x op, AMap.get c1.graph.ops x = some op → AMap.get c.graph.ops x = some op ∨ op.payload.isStructural = true) ∧
    ∀ j, c.tree.containsId j = false → c1.tree.containsId j = true → ∃ op pk i qs as, op ∈ ops ∧ op.payload = .add j pk i qs as ∧
      AMap.get c1.graph.ops (E.hashCgka did op) = some op ∧ ∀ y, Knows c y → Before c1 y (E.hashCgka did op) := by
  have ht := fleet_trusted hH hw hd hc
  unfold Keyhive.addMemberToDoc at h
  rw [hd] at h
  simp only at h
  split at h
  · cases h
  · rename_i g' d' hadd
    have hg1 : AMap.get ((w.storeDlg E d').setDoc did { doc with group := g' }).docs did = some { doc with group := g' } := by
      rw [get_setDoc (k := w.storeDlg E d') hd, if_pos rfl]
    split at h
    · split at h
      · cases h
      · rename_i prekeys hpk
        split at h
        · cases h
        · rename_i doc'' ops' hm
          cases h
          have hfin : AMap.get (((w.storeDlg E dl).setDoc did { doc with group := g' }).setDoc did doc'').docs did = some doc'' := by
            rw [get_setDoc hg1, if_pos rfl]
          rw [hfin] at hd1
          cases hd1
          obtain ⟨-, c', i1, i2, i3, i4, i5⟩ := addCgkaMembers_makes (hH did) (hs did) (d := { doc with group := g' }) hc ht hcur hm
          rw [hc1] at i1
          cases i1
          obtain ⟨c'', j1, j2, j3⟩ := addCgkaMembers_tree (d := { doc with group := g' }) hc hcur hm
          rw [hc1] at j1
          cases j1
          refine ⟨j2, i3, i4, fun j h1 h2 => i5 j ?_ h1⟩
          rcases (j3 j).1 h2 with h | h
          · exact h
          · rw [h1] at h; cases h
    · cases h
      rw [hg1] at hd1
      cases hd1
      have hcc : c1 = c := by
        have : some c1 = some c := hc1.symm.trans hc
        cases this
        rfl
      subst hcc
      exact ⟨hcur, fun _ h => h, fun _ _ h => .inl h, fun j h1 h2 => by rw [h1] at h2; cases h2⟩

end Verif.Keyhive
