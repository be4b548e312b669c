import Verif.Keyhive.JoinLemmas

/-! # Helper lemmas: the key operations of a change in a group, document by document -/

namespace Verif.Keyhive

open Verif.Group Verif.Cgka Verif.BeeKem

variable {E : Env}

/-- The key state goes from `c` to `c'` by removals, each individual lost by one of `ops`. -/
structure Cuts (H : SOp → Nat) (c c' : Cgka) (ops : List SOp) : Prop where
  trusted : Trusted H c'
  current : Current c'
  keeps : ∀ y, Knows c y → Knows c' y
  made : ∀ op, AMap.get c'.graph.ops (H op) = some op → AMap.get c.graph.ops (H op) = some op ∨ ∃ id i rk qs, op.payload = .remove id i rk qs
  lost : ∀ j, c.tree.containsId j = true → c'.tree.containsId j = false → ∃ op i rk qs, op ∈ ops ∧ op.payload = .remove j i rk qs ∧
    AMap.get c'.graph.ops (H op) = some op ∧ ∀ y, Knows c y → Before c' y (H op)

/-- The key state goes from `c` to `c'` by additions, each individual gained by one of `ops`. -/
structure Lets (H : SOp → Nat) (c c' : Cgka) (ops : List SOp) : Prop where
  trusted : Trusted H c'
  current : Current c'
  keeps : ∀ y, Knows c y → Knows c' y
  made : ∀ x op, AMap.get c'.graph.ops x = some op → AMap.get c.graph.ops x = some op ∨ op.payload.isStructural = true
  won : ∀ j, c.tree.containsId j = false → c'.tree.containsId j = true → ∃ op pk i qs as, op ∈ ops ∧ op.payload = .add j pk i qs as ∧
    AMap.get c'.graph.ops (H op) = some op ∧ ∀ y, Knows c y → Before c' y (H op)

section
variable {H : SOp → Nat}

theorem Cuts.refl {c : Cgka} (ht : Trusted H c) (hc : Current c) (ops : List SOp) : Cuts H c c ops :=
  ⟨ht, hc, fun _ h => h, fun _ h => .inl h, fun j h1 h2 => by rw [h1] at h2; cases h2⟩

theorem Lets.refl {c : Cgka} (ht : Trusted H c) (hc : Current c) (ops : List SOp) : Lets H c c ops :=
  ⟨ht, hc, fun _ h => h, fun _ _ h => .inl h, fun j h1 h2 => by rw [h1] at h2; cases h2⟩

theorem Cuts.trans (hH : Function.Injective H) {c c1 c2 : Cgka} {ops ops' : List SOp} (h1 : Cuts H c c1 ops) (h2 : Cuts H c1 c2 ops') :
    Cuts H c c2 (ops ++ ops') := by
  have g1 := (reachOk_inv hH (trusted_ok h1.trusted)).graph
  have g2 := (reachOk_inv hH (trusted_ok h2.trusted)).graph
  refine ⟨h2.trusted, h2.current, fun y hy => h2.keeps y (h1.keeps y hy), fun op hop => ?_, fun j ha hb => ?_⟩
  · exact (h2.made op hop).elim (h1.made op) .inr
  · cases hj : c1.tree.containsId j with
    | false =>
      obtain ⟨op, i, rk, qs, e1, e2, e3, e4⟩ := h1.lost j ha hj
      exact ⟨op, i, rk, qs, by simp [e1], e2, within_op hH g1 g2 h2.keeps e3, fun y hy => within_before hH g1 g2 h2.keeps (e4 y hy)⟩
    | true =>
      obtain ⟨op, i, rk, qs, e1, e2, e3, e4⟩ := h2.lost j hj hb
      exact ⟨op, i, rk, qs, by simp [e1], e2, e3, fun y hy => e4 y (h1.keeps y hy)⟩

theorem Lets.trans (hH : Function.Injective H) {c c1 c2 : Cgka} {ops ops' : List SOp} (h1 : Lets H c c1 ops) (h2 : Lets H c1 c2 ops') :
    Lets H c c2 (ops ++ ops') := by
  have g1 := (reachOk_inv hH (trusted_ok h1.trusted)).graph
  have g2 := (reachOk_inv hH (trusted_ok h2.trusted)).graph
  refine ⟨h2.trusted, h2.current, fun y hy => h2.keeps y (h1.keeps y hy), fun x op hop => ?_, fun j ha hb => ?_⟩
  · exact (h2.made x op hop).elim (h1.made x op) .inr
  · cases hj : c1.tree.containsId j with
    | true =>
      obtain ⟨op, pk, i, qs, as, e1, e2, e3, e4⟩ := h1.won j ha hj
      exact ⟨op, pk, i, qs, as, by simp [e1], e2, within_op hH g1 g2 h2.keeps e3, fun y hy => within_before hH g1 g2 h2.keeps (e4 y hy)⟩
    | false =>
      obtain ⟨op, pk, i, qs, as, e1, e2, e3, e4⟩ := h2.won j hj hb
      exact ⟨op, pk, i, qs, as, by simp [e1], e2, e3, fun y hy => e4 y (h1.keeps y hy)⟩

/-- One removal, whether or not it succeeds. -/
theorem remove_cuts (hH : Function.Injective H) {sign : Payload → Res SOp} (hs : GoodSigner sign) {c : Cgka} (ht : Trusted H c) (hcur : Current c)
    (p : Id) : Cuts H c (c.remove H sign p).1 (match (c.remove H sign p).2 with | .ok o => o.toList | .error _ => []) := by
  have t1 : Trusted H (c.remove H sign p).1 := Trusted.call (cmd := .remove sign p) ht trivial hs
  have hany := (remove_any (H := H) (sign := sign) hcur p).1
  cases hr : c.remove H sign p with
  | mk c1 r =>
    rw [hr] at t1 hany
    cases r with
    | error e =>
      have : c1 = c := by
        unfold Cgka.remove at hr
        split at hr
        · cases hr
        · rw [hcur.replay H] at hr
          simp only at hr
          split at hr
          · cases hr; rfl
          · split at hr
            · cases hr; rfl
            · rename_i tree i rk _
              obtain ⟨op, h1, _⟩ := hs (.remove p i rk c.graph.heads)
              rw [h1] at hr
              cases hr
      subst this
      exact .refl ht hcur _
    | ok o =>
      cases hp : c.tree.containsId p with
      | false =>
        unfold Cgka.remove at hr
        rw [hp] at hr
        simp only [Bool.not_false, if_true] at hr
        cases hr
        exact .refl ht hcur _
      | true =>
        obtain ⟨op, i, rk, rfl, hpay, hg⟩ := remove_makes hs hcur hp hr
        obtain ⟨h2, h3⟩ := hcur.remove hr
        have hin : AMap.get c1.graph.ops (H op) = some op := by
          rw [hg]
          show AMap.get (AMap.insert c.graph.ops (H op) op) (H op) = some op
          rw [AMap.get_insert]
          simp
        refine ⟨t1, h2, fun y hy => (knows_addLocal hg y).2 (.inl hy), fun o ho => ?_, fun j ha hb => ?_⟩
        · rw [hg] at ho
          change AMap.get (AMap.insert c.graph.ops (H op) op) (H o) = some o at ho
          rw [AMap.get_insert] at ho
          split at ho
          · cases ho; exact .inr ⟨_, _, _, _, hpay⟩
          · exact .inl ho
        · have hjp : j = p := by
            by_contra hn
            rw [(h3 j).2 ⟨hn, ha⟩] at hb
            cases hb
          subst hjp
          refine ⟨op, i, rk, _, by simp, hpay, hin, fun y hy => local_after hH ht t1 hg (fun x => ?_) hy⟩
          rw [hpay]
          show x ∈ sextend [] c.graph.heads ↔ _
          simp [mem_sextend]

/-- Removals that go on after errors. -/
theorem drop_cuts (hH : Function.Injective H) {sign : Payload → Res SOp} (hs : GoodSigner sign) : ∀ {l : List Id} {d : Doc} {acc : List SOp} {c : Cgka},
    d.cgka = some c → Trusted H c → Current c → ∃ c' new, (d.dropCgkaMembers H sign l acc).1.cgka = some c' ∧
      (d.dropCgkaMembers H sign l acc).2 = acc ++ new ∧ Cuts H c c' new := by
  intro l
  induction l with
  | nil => intro d acc c hc ht hcur; exact ⟨c, [], hc, by simp [Doc.dropCgkaMembers], .refl ht hcur _⟩
  | cons p l ih =>
    intro d acc c hc ht hcur
    have h1 := remove_cuts hH hs ht hcur p
    unfold Doc.dropCgkaMembers
    rw [hc]
    simp only
    split
    · rename_i c1 e heq
      rw [heq] at h1
      obtain ⟨c', new, e1, e2, e3⟩ := ih (d := { d with cgka := some c1 }) (acc := acc) rfl h1.trusted h1.current
      exact ⟨c', new, e1, e2, h1.trans hH e3⟩
    · rename_i c1 o heq
      rw [heq] at h1
      obtain ⟨c', new, e1, e2, e3⟩ := ih (d := { d with cgka := some c1 }) (acc := acc ++ o.toList) rfl h1.trusted h1.current
      exact ⟨c', o.toList ++ new, e1, by rw [e2]; simp, h1.trans hH e3⟩

end

/-- What happens to the keys of document `i` between two states of a device. -/
def CutsAt (E : Env) (i : Id) (k k' : Keyhive) (ops : List SOp) : Prop :=
  ∀ d c, AMap.get k.docs i = some d → d.cgka = some c → Trusted (E.hashCgka i) c → Current c →
    ∃ d' c', AMap.get k'.docs i = some d' ∧ d'.cgka = some c' ∧ Cuts (E.hashCgka i) c c' ops

/-- As `CutsAt`, for additions. -/
def LetsAt (E : Env) (i : Id) (k k' : Keyhive) (ops : List SOp) : Prop :=
  ∀ d c, AMap.get k.docs i = some d → d.cgka = some c → Trusted (E.hashCgka i) c → Current c →
    ∃ d' c', AMap.get k'.docs i = some d' ∧ d'.cgka = some c' ∧ Lets (E.hashCgka i) c c' ops

theorem CutsAt.same {i : Id} {k k' : Keyhive} {ops : List SOp} (h : AMap.get k'.docs i = AMap.get k.docs i) : CutsAt E i k k' ops :=
  fun d c hd hc ht hcur => ⟨d, c, h.trans hd, hc, .refl ht hcur _⟩

theorem LetsAt.same {i : Id} {k k' : Keyhive} {ops : List SOp} (h : AMap.get k'.docs i = AMap.get k.docs i) : LetsAt E i k k' ops :=
  fun d c hd hc ht hcur => ⟨d, c, h.trans hd, hc, .refl ht hcur _⟩

theorem CutsAt.trans (hH : ∀ i, Function.Injective (E.hashCgka i)) {i : Id} {k k1 k2 : Keyhive} {ops ops' : List SOp} (h1 : CutsAt E i k k1 ops)
    (h2 : CutsAt E i k1 k2 ops') : CutsAt E i k k2 (ops ++ ops') := by
  intro d c hd hc ht hcur
  obtain ⟨d1, c1, a1, a2, a3⟩ := h1 d c hd hc ht hcur
  obtain ⟨d2, c2, b1, b2, b3⟩ := h2 d1 c1 a1 a2 a3.trusted a3.current
  exact ⟨d2, c2, b1, b2, a3.trans (hH i) b3⟩

theorem LetsAt.trans (hH : ∀ i, Function.Injective (E.hashCgka i)) {i : Id} {k k1 k2 : Keyhive} {ops ops' : List SOp} (h1 : LetsAt E i k k1 ops)
    (h2 : LetsAt E i k1 k2 ops') : LetsAt E i k k2 (ops ++ ops') := by
  intro d c hd hc ht hcur
  obtain ⟨d1, c1, a1, a2, a3⟩ := h1 d c hd hc ht hcur
  obtain ⟨d2, c2, b1, b2, b3⟩ := h2 d1 c1 a1 a2 a3.trusted a3.current
  exact ⟨d2, c2, b1, b2, a3.trans (hH i) b3⟩

theorem propagateRemove_cuts (hH : ∀ i, Function.Injective (E.hashCgka i)) {L : Local} (hs : ∀ doc, GoodSigner (L.signCgka doc)) {gid : Id}
    {ids : List Id} {k k' : Keyhive} {did : Id} {ops : List SOp} (h : k.propagateRemove E L gid ids did = (k', .ok ops)) (i : Id) :
    CutsAt E i k k' ops := by
  unfold Keyhive.propagateRemove at h
  split at h
  · cases h; exact .same rfl
  · rename_i doc hd
    split at h
    · cases h
    · split at h
      · cases h; exact .same rfl
      · cases h
        by_cases hi : i = did
        · subst hi
          intro d c hd' hc ht hcur
          rw [hd] at hd'
          cases hd'
          obtain ⟨c', new, e1, e2, e3⟩ := drop_cuts (hH i) (hs i) hc ht hcur
          refine ⟨_, c', by rw [get_setDoc hd, if_pos rfl], e1, ?_⟩
          rw [e2]
          exact e3
        · exact .same (by rw [get_setDoc hd, if_neg hi])

theorem propagateRemoves_cuts (hH : ∀ i, Function.Injective (E.hashCgka i)) {L : Local} (hs : ∀ doc, GoodSigner (L.signCgka doc)) {gid : Id}
    {ids : List Id} : ∀ {dids : List Id} {k k' : Keyhive} {acc ops : List SOp}, k.propagateRemoves E L gid ids dids acc = (k', .ok ops) →
    ∃ new, ops = acc ++ new ∧ ∀ i, CutsAt E i k k' new := by
  intro dids
  induction dids with
  | nil => intro k k' acc ops h; cases h; exact ⟨[], by simp, fun i => .same rfl⟩
  | cons did dids ih =>
    intro k k' acc ops h
    unfold Keyhive.propagateRemoves at h
    split at h
    · cases h
    · rename_i k1 ops1 h1
      obtain ⟨new, rfl, e2⟩ := ih h
      exact ⟨ops1 ++ new, by simp, fun i => (propagateRemove_cuts hH hs h1 i).trans hH (e2 i)⟩

/-- The key operations of a revocation from a group. -/
theorem revokeFromGroup_cuts (hH : ∀ i, Function.Injective (E.hashCgka i)) {w w1 : Keyhive} {L : Local}
    (hs : ∀ doc, GoodSigner (L.signCgka doc)) {gid member : Id} {retain : Bool} {content : Content} {ops : List SOp}
    (h : w.revokeFromGroup E L gid member retain content = (w1, .ok ops)) (i : Id) : CutsAt E i w w1 ops := by
  unfold Keyhive.revokeFromGroup at h
  split at h
  · cases h
  · rename_i g hg
    split at h
    · cases h
    · rename_i ids hids
      split at h
      · cases h
      · rename_i g' revs dlgs hrev
        obtain ⟨_, s2, _⟩ := storeAll_same (E := E) revs dlgs w
        have h0 : CutsAt E i w { w.storeAll E revs dlgs with groups := AMap.insert w.groups gid g' } [] :=
          .same (by show AMap.get (w.storeAll E revs dlgs).docs i = _; rw [s2])
        split at h
        · cases h; exact h0
        · obtain ⟨new, rfl, e2⟩ := propagateRemoves_cuts hH hs h
          exact h0.trans hH (e2 i)

theorem addCgkaMembers_lets {H : SOp → Nat} (hH : Function.Injective H) {sign : Payload → Res SOp} (hs : GoodSigner sign) {l : List (Id × Pk)}
    {d d' : Doc} {ops : List SOp} {c : Cgka} (hc : d.cgka = some c) (ht : Trusted H c) (hcur : Current c)
    (h : d.addCgkaMembers H sign l [] = (d', .ok ops)) : ∃ c', d'.cgka = some c' ∧ Lets H c c' ops := by
  obtain ⟨-, c', i1, i2, i3, i4, i5⟩ := addCgkaMembers_makes hH hs hc ht hcur h
  obtain ⟨c'', j1, j2, j3⟩ := addCgkaMembers_tree hc hcur h
  rw [i1] at j1
  cases j1
  refine ⟨c', i1, i2, j2, i3, i4, fun j h1 h2 => i5 j ?_ h1⟩
  rcases (j3 j).1 h2 with h | h
  · exact h
  · rw [h1] at h; cases h

theorem propagateAdd_lets (hH : ∀ i, Function.Injective (E.hashCgka i)) {L : Local} (hs : ∀ doc, GoodSigner (L.signCgka doc)) {gid : Id}
    {who : Agent} {k k' : Keyhive} {did : Id} {ops : List SOp} (h : k.propagateAdd E L gid who did = (k', .ok ops)) (i : Id) :
    LetsAt E i k k' ops := by
  unfold Keyhive.propagateAdd at h
  split at h
  · cases h; exact .same rfl
  · rename_i doc hd
    split at h
    · cases h
    · split at h
      · cases h; exact .same rfl
      · split at h
        · cases h
        · split at h
          · cases h
          · rename_i doc' ops' hadd
            cases h
            by_cases hi : i = did
            · subst hi
              intro d c hd' hc ht hcur
              rw [hd] at hd'
              cases hd'
              obtain ⟨c', e1, e2⟩ := addCgkaMembers_lets (hH i) (hs i) hc ht hcur hadd
              exact ⟨_, c', by rw [get_setDoc hd, if_pos rfl], e1, e2⟩
            · exact .same (by rw [get_setDoc hd, if_neg hi])

theorem propagateAdds_lets (hH : ∀ i, Function.Injective (E.hashCgka i)) {L : Local} (hs : ∀ doc, GoodSigner (L.signCgka doc)) {gid : Id}
    {who : Agent} : ∀ {dids : List Id} {k k' : Keyhive} {acc ops : List SOp}, k.propagateAdds E L gid who dids acc = (k', .ok ops) →
    ∃ new, ops = acc ++ new ∧ ∀ i, LetsAt E i k k' new := by
  intro dids
  induction dids with
  | nil => intro k k' acc ops h; cases h; exact ⟨[], by simp, fun i => .same rfl⟩
  | cons did dids ih =>
    intro k k' acc ops h
    unfold Keyhive.propagateAdds at h
    split at h
    · cases h
    · rename_i k1 ops1 h1
      obtain ⟨new, rfl, e2⟩ := ih h
      exact ⟨ops1 ++ new, by simp, fun i => (propagateAdd_lets hH hs h1 i).trans hH (e2 i)⟩

/-- The key operations of an addition to a group. -/
theorem addMemberToGroup_lets (hH : ∀ i, Function.Injective (E.hashCgka i)) {w w1 : Keyhive} {L : Local}
    (hs : ∀ doc, GoodSigner (L.signCgka doc)) {gid : Id} {who : Agent} {can : Access} {content : Content} {dl : Dlg} {ops : List SOp}
    (h : w.addMemberToGroup E L gid who can content = (w1, .ok (dl, ops))) (i : Id) : LetsAt E i w w1 ops := by
  unfold Keyhive.addMemberToGroup at h
  split at h
  · cases h
  · split at h
    · cases h
    · rename_i g' d' hadd
      have h0 : LetsAt E i w { w.storeDlg E d' with groups := AMap.insert w.groups gid g' } [] := .same rfl
      split at h
      · dsimp only at h
        split at h
        · cases h
        · rename_i k2 ops' hp
          cases h
          obtain ⟨new, rfl, e2⟩ := propagateAdds_lets hH hs hp
          exact h0.trans hH (e2 i)
      · cases h
        exact .same rfl

/-! ## What follows for the next write -/

variable {K : Sk → Prop} {me : Id}

/-- Those lost cannot read what is written by a device with the removals. -/
theorem cuts_shut (hp : K publicSk) (hH : ∀ i, Function.Injective (E.hashCgka i)) {w w1 v v' k : Keyhive} (hw1 : Fleet E w1) {did : Id}
    {ops : List SOp} {d d1 : Doc} {c c1 : Cgka} (hd : AMap.get w.docs did = some d) (hc : d.cgka = some c) (hd1 : AMap.get w1.docs did = some d1)
    (hc1 : d1.cgka = some c1) (hcut : Cuts (E.hashCgka did) c c1 ops) {id : MemberId}
    (hin : c.tree.containsId id = true) (hout : c1.tree.containsId id = false)
    (hv : Fleet E v) {L' : Local} (hL' : L'.Honest E) (hs' : ∀ doc, GoodSigner (L'.signCgka doc)) {r ps x : Nat} {e : EncContent} {o : Option SOp}
    (he : v.encryptContent E L' did r ps x = (v', .ok (e, o))) (hall : ∀ op, HasKeyOp E w1 did op → HasKeyOp E v' did op)
    (hgive : ∀ op, HasKeyOp E v' did op → op.payload.GivesTo id → HasKeyOp E w did op) {da db : Doc} {a b : Cgka}
    (hda : AMap.get v'.docs did = some da) (hca : da.cgka = some a) (h1 : ChangesApart a) (h2 : UpdatesInTurn a)
    (hk : Fleet E k) (hK : Holder E K k) (hdb : AMap.get k.docs did = some db) (hcb : db.cgka = some b)
    (hkn : ∀ op, HasKeyOp E v' did op → HasKeyOp E k did op) (hf : FreshKeys b) (hdk : DistinctKeys b) (hu : ∀ s, K s → OnlyOf a id s)
    (res : Nat × AppKey) : (k.decryptContent E did e).2 ≠ .ok res := by
  have g1 := (reachOk_inv (hH did) (trusted_ok (fleet_trusted hH hw1 hd1 hc1))).graph
  have ga := (reachOk_inv (hH did) (trusted_ok (fleet_trusted hH (fleet_write hv hL' hs' he) hda hca))).graph
  have hwi := known_of hda hca hd1 hc1 g1 hall
  obtain ⟨op, i, rk, qs, -, e2, e3, e4⟩ := hcut.lost id hin hout
  obtain ⟨da', a', f1, f2, f3⟩ := hall op ⟨d1, c1, hd1, hc1, e3⟩
  rw [hda] at f1
  cases f1
  rw [hca] at f2
  cases f2
  refine HeldProps.C07_devices_partial hp hH hk hK hv hL' hs' he hdb hcb hda hca h1 h2 hkn hf hdk f3 e2 ?_ hu res
  intro y o' hy hg
  have hy' := ga.hash y o' hy
  subst hy'
  obtain ⟨d', c', q1, q2, q3⟩ := hgive o' ⟨da, a, hda, hca, hy⟩ hg
  rw [hd] at q1
  cases q1
  rw [hc] at q2
  cases q2
  exact within_before (hH did) g1 ga hwi (e4 _ ⟨o', q3⟩)

/-- Nor what the device that made the removals writes next. -/
theorem cuts_next (hp : K publicSk) (hH : ∀ i, Function.Injective (E.hashCgka i)) {w w1 v' k : Keyhive} (hw1 : Fleet E w1) {did : Id}
    {ops : List SOp} {d d1 : Doc} {c c1 : Cgka} (hd : AMap.get w.docs did = some d) (hc : d.cgka = some c) (hd1 : AMap.get w1.docs did = some d1)
    (hc1 : d1.cgka = some c1) (hcut : Cuts (E.hashCgka did) c c1 ops) {id : MemberId}
    (hin : c.tree.containsId id = true) (hout : c1.tree.containsId id = false)
    {L' : Local} (hL' : L'.Honest E) (hs' : ∀ doc, GoodSigner (L'.signCgka doc)) {r ps x : Nat} {e : EncContent} {o : Option SOp}
    (he : w1.encryptContent E L' did r ps x = (v', .ok (e, o))) {da db : Doc} {a b : Cgka}
    (hda : AMap.get v'.docs did = some da) (hca : da.cgka = some a) (h1 : ChangesApart a) (h2 : UpdatesInTurn a)
    (hk : Fleet E k) (hK : Holder E K k) (hdb : AMap.get k.docs did = some db) (hcb : db.cgka = some b)
    (hkn : ∀ op, HasKeyOp E v' did op → HasKeyOp E k did op) (hf : FreshKeys b) (hdk : DistinctKeys b) (hu : ∀ s, K s → OnlyOf a id s)
    (res : Nat × AppKey) : (k.decryptContent E did e).2 ≠ .ok res := by
  obtain ⟨d0, a0, a', s, f1, f2, f3, -, f5⟩ := encrypt_tree he
  rw [hd1] at f1
  cases f1
  rw [hc1] at f2
  cases f2
  rw [f5] at hda
  cases hda
  cases hca
  refine cuts_shut hp hH hw1 hd hc hd1 hc1 hcut hin hout hw1 hL' hs' he ?_ ?_ f5 rfl h1 h2 hk hK hdb hcb hkn hf hdk hu res
  · rintro op ⟨d', c', g1, g2, g3⟩
    rw [hd1] at g1
    cases g1
    rw [hc1] at g2
    cases g2
    refine ⟨_, _, f5, rfl, ?_⟩
    have := (has_encrypt (hH did) (sign := L'.signCgka did) c1 L'.gen 0 r ps op).2 (.inl g3)
    rw [f3] at this
    exact this
  · rintro op ⟨d', c', g1, g2, g3⟩ hg
    rw [f5] at g1
    cases g1
    cases g2
    have hop := encrypt_gives (hH did) (hs' did) hcut.current f3 g3 hg hout
    rcases hcut.made op hop with h' | ⟨_, _, _, _, h'⟩
    · exact ⟨d, c, hd, hc, h'⟩
    · rw [h'] at hg
      exact hg.elim

/-- Those gained read what the device that made the additions writes next. -/
theorem lets_next (hH : ∀ i, Function.Injective (E.hashCgka i)) {w1 v' k : Keyhive} (hw1 : Fleet E w1) {did : Id}
    {ops : List SOp} {d1 : Doc} {c c1 : Cgka} (hd1 : AMap.get w1.docs did = some d1) (hc1 : d1.cgka = some c1)
    (hlet : Lets (E.hashCgka did) c c1 ops) (hout : c.tree.containsId me = false) (hin : c1.tree.containsId me = true)
    {L' : Local} (hL' : L'.Honest E) (hs' : ∀ doc, GoodSigner (L'.signCgka doc)) {r ps x : Nat} {e : EncContent} {o : Option SOp}
    (he : w1.encryptContent E L' did r ps x = (v', .ok (e, o))) (hk : OnlyDevice E me k) {db : Doc} {b : Cgka}
    (hdb : AMap.get k.docs did = some db) (hcb : db.cgka = some b) (hme : b.ownerId = me) (h1 : ChangesApart b) (h2 : UpdatesInTurn b)
    (h3 : FreshKeys b) (h4 : DistinctKeys b) (hkn : ∀ op, HasKeyOp E v' did op → HasKeyOp E k did op)
    (hown : ∀ op, HasKeyOp E k did op → op.payload.GivesTo me → Places me op) :
    (∃ op, o = some op) ∧ ∃ key, (k.decryptContent E did e).2 = .ok (x, key) := by
  obtain ⟨oa, pk, i, qs, as, -, e2, e3, e4⟩ := hlet.won me hout hin
  obtain ⟨d0, a0, a', s, f1, f2, f3, -, f5⟩ := encrypt_tree he
  rw [hd1] at f1
  cases f1
  rw [hc1] at f2
  cases f2
  obtain ⟨⟨op, rfl⟩, g2⟩ := encrypt_after (hH did) (fleet_trusted hH hw1 hd1 hc1) hlet.current e3 (fun z o' hz hn => by
    rcases hlet.made z o' hz with h' | h'
    · exact e4 z ⟨o', h'⟩
    · exact absurd h' hn) (by rw [e2]; rfl) f3
  refine ⟨⟨op, rfl⟩, ?_⟩
  subst hme
  exact PlaceProps.C113_reads_partial hH hk hw1 hL' hs' he hdb hcb f5 rfl h1 h2 h3 h4 hkn (by rw [g2]; exact hin) hown

end Verif.Keyhive
