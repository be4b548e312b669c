import Verif.Keyhive.KeyHashSpec
import Verif.Keyhive.WriterProps

/-! # C118: the hash of the group key -/

namespace Verif.Keyhive.KeyHashProps

open Verif.Group Verif.Cgka Verif.BeeKem

variable {E : Env}

theorem hash_of {k : Keyhive} {did : Id} {h : PcsHash} (hh : KeyHash k did h) :
    ∃ d c c', AMap.get k.docs did = some d ∧ d.cgka = some c ∧ c.pcsKeyFromTreeRoot = .ok (c', h.of) := by
  unfold KeyHash Keyhive.tryPcsKeyHash at hh
  split at hh
  · cases hh
  · rename_i d hd
    unfold Doc.tryPcsKeyHash at hh
    dsimp only at hh
    split at hh
    · cases hh
    · rename_i c hc
      split at hh
      · rename_i e he
        dsimp only at hh
        split at hh <;> cases hh
      · rename_i c' key he
        cases hh
        exact ⟨d, c, c', hd, hc, he⟩

theorem of_hash {k : Keyhive} {did : Id} {d : Doc} {c c' : Cgka} {key : Sk} (hd : AMap.get k.docs did = some d) (hc : d.cgka = some c)
    (h : c.pcsKeyFromTreeRoot = .ok (c', key)) : KeyHash k did ⟨key⟩ := by
  unfold KeyHash Keyhive.tryPcsKeyHash Doc.tryPcsKeyHash
  rw [hd]
  dsimp only
  rw [hc]
  dsimp only
  rw [h]

theorem last_heads {H : SOp → Nat} (hH : Function.Injective H) {c : Cgka} (hr : Verif.Cgka.Reach H c) {x : Nat} (hx : Knows c x)
    (hl : ∀ y, Knows c y → y = x ∨ Before c y x) : c.graph.heads = [x] := by
  obtain ⟨n, ne, hm⟩ := Verif.Cgka.Props.C13_heads_exact hH hr
  have hsub : ∀ y ∈ c.graph.heads, y = x := by
    intro y hy
    obtain ⟨h1, h2⟩ := (hm y).1 hy
    rcases hl y h1 with h | h
    · exact h
    · exfalso
      have : ∃ z, Names c y z := by
        clear hl hx
        induction h with
        | direct h => exact ⟨_, h⟩
        | more _ _ ih => exact ih
      obtain ⟨z, hz⟩ := this
      exact h2 z hz
  cases hh : c.graph.heads with
  | nil => exact absurd hh ne
  | cons y l =>
    have hy : y = x := hsub y (by rw [hh]; simp)
    rw [hh] at n
    cases l with
    | nil => rw [hy]
    | cons z l =>
      have hz : z = x := hsub z (by rw [hh]; simp)
      rw [hy, hz] at n
      simp at n

theorem knows_same (hH : ∀ i, Function.Injective (E.hashCgka i)) {k w : Keyhive} (hk : Fleet E k) (hw : Fleet E w) {did : Id} {d d' : Doc} {a b : Cgka}
    (hd : AMap.get k.docs did = some d) (hc : d.cgka = some a) (hd' : AMap.get w.docs did = some d') (hc' : d'.cgka = some b)
    (hs : SameKeyOps E k w did) (x : Nat) : Knows a x ↔ Knows b x := by
  have sa := (reachOk_inv (hH did) (trusted_ok (fleet_trusted hH hk hd hc))).graph
  have sb := (reachOk_inv (hH did) (trusted_ok (fleet_trusted hH hw hd' hc'))).graph
  constructor
  · rintro ⟨op, ho⟩
    have := sa.hash x op ho
    subst this
    obtain ⟨d2, c2, e1, e2, e3⟩ := (hs op).1 ⟨d, a, hd, hc, ho⟩
    rw [hd'] at e1; cases e1
    rw [hc'] at e2; cases e2
    exact ⟨op, e3⟩
  · rintro ⟨op, ho⟩
    have := sb.hash x op ho
    subst this
    obtain ⟨d2, c2, e1, e2, e3⟩ := (hs op).2 ⟨d', b, hd', hc', ho⟩
    rw [hd] at e1; cases e1
    rw [hc] at e2; cases e2
    exact ⟨op, e3⟩

theorem last_of {H : SOp → Nat} (hH : Function.Injective H) {c : Cgka} (hr : Verif.Cgka.Reach H c) {x : Nat} (hx : c.graph.heads = [x]) (y : Nat)
    (hy : Knows c y) : y = x ∨ Before c y x := by
  have := (Verif.Cgka.Props.C13_heads_cover hH hr y).1 hy
  rw [hx] at this
  rcases this with h | ⟨z, hz, h⟩
  · exact .inl (by simpa using h)
  · have : z = x := by simpa using hz
    subst this
    exact .inr h

namespace KeyHashSample

open Verif.Keyhive.Sample FleetSample WriterSample

/-- Alice adds Bob while agent 5 writes. -/
def c6 : SOp := ⟨.add 2 ⟨22⟩ 3 [3] [3], 1, 1900⟩
/-- How agent 5 signs and draws keys when writing again. -/
def L3 : Local := ⟨sg, fun _ p => .ok ⟨p, 5, 5901⟩, fun _ i _ => .ok ⟨11 * i⟩, fun n => 1000 + n⟩
/-- The secrets agent 5 then sends. -/
def cbox1 : EncryptedSecret := { key := { lo := 55, hi := 1000 }, plain := 1001, pairedPk := ⟨55⟩ }
/-- To Alice. -/
def cbox2 : EncryptedSecret := { key := { lo := 11, hi := 1001 }, plain := 1002, pairedPk := ⟨11⟩ }
/-- To Bob. -/
def cbox3 : EncryptedSecret := { key := { lo := 22, hi := 1001 }, plain := 1002, pairedPk := ⟨22⟩ }
/-- The update made when writing again. -/
def c7 : SOp :=
  let low := { versions := [{ pk := ⟨1001⟩, sk := [(.leaf 1, cbox1), (.leaf 0, cbox1)], encrypterPk := ⟨1000⟩ }] }
  let top := { versions := [{ pk := ⟨1002⟩, sk := [(.leaf 3, cbox3), (.leaf 2, cbox2), (.inner 0, cbox2)], encrypterPk := ⟨1001⟩ }] }
  let change := { leafId := 300, leafIdx := 0, leafPk := .share ⟨1000⟩, path := [(0, low), (1, top)], removedKeys := [⟨800⟩, ⟨801⟩] }
  ⟨.update 300 change [5, 4], 5, 5901⟩

/-- Digests and signatures. -/
noncomputable def EH : Env := env (tableH [t0, t1, t2, t3, t5, c6, c7])
theorem EH_inj : ∀ i, Function.Injective (EH.hashCgka i) := fun _ => tableH_injective _

/-- Agent 5's device has written once. -/
noncomputable def five : Keyhive := ((made EH 1).encryptContent EH L2 300 7 8 42).1
/-- What Alice is told. -/
def told : List Event := [.dlg rootDlg, .dlg ⟨5, 5001, 1, .read, some (hashDlg rootDlg), [], []⟩]
/-- Alice's device before that. -/
noncomputable def ali : Keyhive := feed EH (Keyhive.start regA [(⟨11⟩, 11)]) (told ++ [t0, t1, t2, t3].map (.cgka 300 ·))
/-- Alice's device after adding Bob. -/
noncomputable def adds : Keyhive := (ali.addMemberToDoc EH LA 300 ⟨.individual, 2⟩ .read []).1
/-- Agent 5's device learns of it. -/
noncomputable def five6 : Keyhive := feed EH five ([] ++ [c6].map (.cgka 300 ·))
/-- Alice's device learns of the write. -/
noncomputable def adds5 : Keyhive := feed EH adds ([] ++ [t5].map (.cgka 300 ·))
/-- Bob's device. -/
noncomputable def bobs : Keyhive := feed EH (Keyhive.start regB [(⟨22⟩, 22)]) ([.dlg rootDlg] ++ [t0, t1, t2, t3, t5, c6].map (.cgka 300 ·))

theorem mails_fleet {w k : Keyhive} (hw : Fleet E w) (hk : Fleet E k) (es : List Event) (hes : ∀ did op, Event.cgka did op ∉ es) (ops : List SOp)
    (h : ∀ op ∈ ops, recorded w 300 (E.hashCgka 300 op) = some op) (hp : ∀ op ∈ ops, op.payload.GivesTo MemberId.pub → False) :
    Fleet E (feed E k (es ++ ops.map (.cgka 300 ·))) := by
  refine feed_fleet hw hk ?_
  intro did op ho
  rcases List.mem_append.1 ho with ho | ho
  · exact absurd ho (hes did op)
  · obtain ⟨o, ho, he⟩ := List.mem_map.1 ho
    cases he
    exact ⟨has_of (h _ ho), not_public hp _ ho⟩

theorem five_fleet : Fleet EH five := .call (.encrypt L2 300 7 8 42) (made_fleet _ 1) trivial (L2_honest _) L2_good
theorem ali_fleet : Fleet EH ali := by
  refine mails_fleet five_fleet (.start regA [(⟨11⟩, 11)] rfl (Verif.Cgka.Sample.honest_one 11)) told (by intro _ _ h; simp [told] at h) _
    (by decide +kernel) ?_
  intro op ho
  simp only [List.mem_cons, List.not_mem_nil, or_false] at ho
  rcases ho with rfl | rfl | rfl | rfl <;> exact fun h => absurd (show (_ : Nat) = _ from h) (by decide)
theorem adds_fleet : Fleet EH adds := .call (.addToDoc LA 300 ⟨.individual, 2⟩ .read []) ali_fleet trivial (LA_honest _) LA_good
theorem five6_fleet : Fleet EH five6 := by
  refine mails_fleet adds_fleet five_fleet [] (by simp) _ (by decide +kernel) ?_
  intro op ho
  simp only [List.mem_cons, List.not_mem_nil, or_false] at ho
  rcases ho with rfl
  exact fun h => absurd (show (_ : Nat) = _ from h) (by decide)
theorem adds5_fleet : Fleet EH adds5 := by
  refine mails_fleet five_fleet adds_fleet [] (by simp) _ (by decide +kernel) ?_
  intro op ho
  simp only [List.mem_cons, List.not_mem_nil, or_false] at ho
  rcases ho with rfl
  exact fun h => absurd (show (_ : Nat) = _ from h) (by decide)
theorem bobs_fleet : Fleet EH bobs := by
  refine mails_fleet five6_fleet (.start regB [(⟨22⟩, 22)] rfl (Verif.Cgka.Sample.honest_one 22)) [.dlg rootDlg] (by intro _ _ h; simp at h) _
    (by decide +kernel) ?_
  intro op ho
  simp only [List.mem_cons, List.not_mem_nil, or_false] at ho
  rcases ho with rfl | rfl | rfl | rfl | rfl | rfl <;> exact fun h => absurd (show (_ : Nat) = _ from h) (by decide)

theorem last_device (hH : ∀ i, Function.Injective (E.hashCgka i)) {k : Keyhive} (hk : Fleet E k) {did : Id} {op : SOp}
    (h : recorded k did (E.hashCgka did op) = some op) (hh : (treeOf k did).map (·.graph.heads) = some [E.hashCgka did op]) :
    LastKeyOp E k did op := by
  obtain ⟨d, c, hd, hc, ho⟩ := has_of h
  refine ⟨d, c, hd, hc, ho, last_of (hH did) (Verif.Cgka.Props.reachOk_reach (trusted_ok (fleet_trusted hH hk hd hc))) ?_⟩
  unfold treeOf at hh
  rw [hd] at hh
  simpa [hc] using hh

theorem five6_has : (treeOf five6 300).isSome = true := by decide +kernel
theorem bobs_has : (treeOf bobs 300).isSome = true := by decide +kernel
theorem adds5_has : (treeOf adds5 300).isSome = true := by decide +kernel

theorem five6_write : ((five6.encryptContent EH L3 300 9 10 43).2.toOption.map (fun p => (p.1.pcsKeyHash, p.2))) = some (⟨1002⟩, some c7) := by
  decide +kernel

end KeyHashSample

/-- C118, agreement: two devices that run the library and have the same key operations for a document, one of which comes after all others
and one before all others, do not report different hashes.
Missing: histories without a last operation. `C118_fails` shows that the reported key is then not always the one in use. -/
theorem C118_same_partial (hH : ∀ i, Function.Injective (E.hashCgka i)) {k w : Keyhive} (hk : Fleet E k) (hw : Fleet E w) {did : Id}
    (hs : SameKeyOps E k w did) {op : SOp} (hl : LastKeyOp E k did op)
    (h1 : ∀ d c, AMap.get k.docs did = some d → d.cgka = some c → OneRoot c) {x y : PcsHash} (hx : KeyHash k did x) (hy : KeyHash w did y) : x = y := by
  obtain ⟨d, a, a', hd, hc, ha⟩ := hash_of hx
  obtain ⟨d', b, b', hd', hc', hb⟩ := hash_of hy
  have ta := fleet_trusted hH hk hd hc
  have tb := fleet_trusted hH hw hd' hc'
  have sa := reachOk_inv (hH did) (trusted_ok ta)
  have sb := reachOk_inv (hH did) (trusted_ok tb)
  have hkn := knows_same hH hk hw hd hc hd' hc' hs
  obtain ⟨d2, c2, e1, e2, e3, e4⟩ := hl
  rw [hd] at e1; cases e1
  rw [hc] at e2; cases e2
  have hha := last_heads (hH did) (Verif.Cgka.Props.reachOk_reach (trusted_ok ta)) ⟨op, e3⟩ e4
  have hhb : b.graph.heads.length = 1 := by
    have hsame := (Verif.Cgka.Props.C12_same_graph (hH did) (Verif.Cgka.Props.reachOk_reach (trusted_ok ta)) (Verif.Cgka.Props.reachOk_reach (trusted_ok tb)) hkn).2.2
    rw [List.length_eq_one_iff]
    refine ⟨E.hashCgka did op, ?_⟩
    have hn := (Verif.Cgka.Props.C13_heads_exact (hH did) (Verif.Cgka.Props.reachOk_reach (trusted_ok tb)))
    have hall : ∀ z ∈ b.graph.heads, z = E.hashCgka did op := by
      intro z hz
      have := (hsame z).2 hz
      rw [hha] at this
      simpa using this
    cases hq : b.graph.heads with
    | nil => exact absurd hq hn.2.1
    | cons z l =>
      have e1 := hall z (by rw [hq]; simp)
      have hnd := hn.1
      rw [hq] at hnd
      cases l with
      | nil => rw [e1]
      | cons u l =>
        have e2 := hall u (by rw [hq]; simp)
        rw [e1, e2] at hnd
        simp at hnd
  have hra : a.replayIfNeeded (E.hashCgka did) = .ok a := by
    unfold Cgka.replayIfNeeded
    rw [if_neg]
    rw [shouldReplay_eq sa, hha]
    simp
  obtain ⟨b2, f1, f2⟩ := Verif.Cgka.Props.C12_convergence (hH did) (trusted_ok ta) (trusted_ok tb) (h1 d a hd hc) hkn hra
  have := replay_single sb hhb f1
  subst this
  have ra := ((trusted_clean (hH did) ta).treeRoot ha).2.1
  have rb := ((trusted_clean (hH did) tb).treeRoot hb).2.1
  rw [f2, ra] at rb
  cases x
  cases y
  simpa using rb

open FleetSample Verif.Keyhive.Sample WriterSample KeyHashSample in
/-- The hypotheses are met by agent 5, who wrote, and Alice, who received all that was sent; both report the new key. -/
example : (∀ i, Function.Injective (EF.hashCgka i)) ∧ Fleet EF d3 ∧ Fleet EF alice ∧ SameKeyOps EF d3 alice 300 ∧ LastKeyOp EF d3 300 t5 ∧
    (∀ d c, AMap.get d3.docs 300 = some d → d.cgka = some c → OneRoot c) ∧ KeyHash d3 300 ⟨802⟩ ∧ KeyHash alice 300 ⟨802⟩ := by
  refine ⟨EF_inj, d3_fleet, alice_fleet, fun op => ⟨all_of d3_has (by decide +kernel) op, all_of alice_has (by decide +kernel) op⟩,
    last_device EF_inj d3_fleet (by decide +kernel) (by decide +kernel), ?_, by unfold KeyHash; decide +kernel, by unfold KeyHash; decide +kernel⟩
  intro d c hd hc
  obtain ⟨d', e1, e2⟩ := doc_of d3_has
  rw [hd] at e1; cases e1
  rw [hc] at e2; cases e2
  exact Verif.Cgka.Sample.oneRoot_of 0 (by decide +kernel)

/-- C118, answers: in a document whose key operations were made one after the other, so that the tree has a secret at its root, every device that
runs the library and holds the secret of its owner's leaf reports a hash.
Missing: operations made at the same time (`C118_fails`). -/
theorem C118_given_partial (hH : ∀ i, Function.Injective (E.hashCgka i)) {k : Keyhive} (hk : Fleet E k) {did : Id} {d : Doc} {c : Cgka}
    (hd : AMap.get k.docs did = some d) (hc : d.cgka = some c) (hl : Linear c) (hr : c.tree.hasRootKey = .ok true)
    (hm : HoldsLeaf c.tree c.ownerId c.ownerSks) : ∃ x, KeyHash k did x := by
  have t := fleet_trusted hH hk hd hc
  obtain ⟨c', _, key, h, _⟩ := Verif.Cgka.DeliveryProps.C80_same_group_secret_partial (hH did) t t hl (fun _ => Iff.rfl) hr hm hm
  exact ⟨_, of_hash hd hc h⟩

open FleetSample Verif.Keyhive.Sample WriterSample KeyHashSample in
/-- Alice's device meets the hypotheses. -/
example : (∀ i, Function.Injective (EF.hashCgka i)) ∧ Fleet EF alice ∧ ∃ d c, AMap.get alice.docs 300 = some d ∧ d.cgka = some c ∧ Linear c ∧
    c.tree.hasRootKey = .ok true ∧ HoldsLeaf c.tree c.ownerId c.ownerSks := by
  obtain ⟨d, e1, e2⟩ := doc_of alice_has
  exact ⟨EF_inj, alice_fleet, d, _, e1, e2, Verif.Cgka.Sample.linear_of [4, 3, 2, 1, 0] (by decide +kernel) (by decide +kernel), by decide +kernel,
    ⟨⟨11⟩, 11, by decide +kernel, by decide +kernel⟩⟩

/-- C118, additions and removals: if the last key operation of the document adds or removes a member, the device reports that there is no
group key.
Missing: an addition or removal made at the same time as other operations (`C118_fails`). -/
theorem C118_none_partial (hH : ∀ i, Function.Injective (E.hashCgka i)) {k : Keyhive} (hk : Fleet E k) {did : Id} {op : SOp}
    (hl : LastKeyOp E k did op) (hs : (∃ id pk i ps as, op.payload = .add id pk i ps as) ∨ ∃ id i ks ps, op.payload = .remove id i ks ps) :
    NoKeyHash k did := by
  obtain ⟨d, c, hd, hc, ho, hx⟩ := hl
  have t := fleet_trusted hH hk hd hc
  have s := reachOk_inv (hH did) (trusted_ok t)
  have hh := last_heads (hH did) (Verif.Cgka.Props.reachOk_reach (trusted_ok t)) ⟨op, ho⟩ hx
  have hroot : c.tree.hasRootKey = .ok false := (s.settled (by rw [hh]; rfl)).structural s.graph hh ho (by
    rcases hs with ⟨_, _, _, _, _, h⟩ | ⟨_, _, _, _, h⟩ <;> rw [h] <;> rfl)
  have herr : ∃ e, c.pcsKeyFromTreeRoot = .error e ∧ Cgka.fatal e = false := by
    have key : ∀ who, ∃ e, c.tree.decryptTreeSecret who c.ownerSks = .error e ∧ Cgka.fatal e = false := by
      intro who
      rcases Verif.BeeKem.Props.C05_no_root_key_no_secret hroot who c.ownerSks with h | ⟨h, _⟩
      · exact ⟨_, h, rfl⟩
      · exact ⟨_, h, rfl⟩
    obtain ⟨e, he, hf⟩ := key c.ownerId
    obtain ⟨e', he', hf'⟩ := key MemberId.pub
    unfold Cgka.pcsKeyFromTreeRoot
    rw [he]
    dsimp only
    rw [hf, if_neg (by decide)]
    split
    · rw [he']
      exact ⟨e', rfl, hf'⟩
    · exact ⟨e, rfl, hf⟩
  obtain ⟨e, he, hf⟩ := herr
  unfold NoKeyHash Keyhive.tryPcsKeyHash Doc.tryPcsKeyHash
  rw [hd]
  dsimp only
  rw [hc]
  dsimp only
  rw [he]
  dsimp only
  rw [hf]
  rfl

open FleetSample Verif.Keyhive.Sample WriterSample KeyHashSample in
/-- Agent 5's device before it writes: the last operation added Alice. -/
example : (∀ i, Function.Injective (EF.hashCgka i)) ∧ Fleet EF d2 ∧ LastKeyOp EF d2 300 t3 ∧
    ((∃ id pk i ps as, t3.payload = .add id pk i ps as) ∨ ∃ id i ks ps, t3.payload = .remove id i ks ps) :=
  ⟨EF_inj, made_fleet hcF 1, last_device EF_inj (made_fleet hcF 1) (by decide +kernel) (by decide +kernel), .inl ⟨_, _, _, _, _, rfl⟩⟩

/-- C118, writing: what is written next without a key update is encrypted under the group key with the reported hash. -/
theorem C118_names {k : Keyhive} {did : Id} {L : Local} {r ps x : Nat} {e : EncContent}
    (he : (k.encryptContent E L did r ps x).2 = .ok (e, none)) : KeyHash k did e.pcsKeyHash := by
  have hfin : ∀ {c c' : Cgka} {key : Sk} {o o' : Option SOp} {s : AppSecret}, c.finishAppSecret key o r ps = (c', .ok (s, o')) →
      s.pcsKeyHash = ⟨key⟩ ∧ o' = o := by
    intro c c' key o o' s h
    unfold Cgka.finishAppSecret at h
    split at h
    · cases h
    · cases h; exact ⟨rfl, rfl⟩
  unfold Keyhive.encryptContent at he
  split at he
  · cases he
  · rename_i d hd
    unfold Doc.encryptContent at he
    dsimp only at he
    split at he
    · cases he
    · rename_i c hc
      split at he
      · cases he
      · rename_i c' s o hq
        cases he
        unfold Cgka.newAppSecretFor at hq
        split at hq
        · cases hq
        · split at hq
          · cases hq
          · exact absurd (hfin hq).2 (by simp)
        · split at hq
          · cases hq
          · rename_i c1 key hk
            have : s.pcsKeyHash = ⟨key⟩ := by
              split at hq
              · exact (hfin hq).1
              · split at hq
                · exact (hfin hq).1
                · exact (hfin hq).1
            show KeyHash k did s.pcsKeyHash
            rw [this]
            exact of_hash hd hc hk

open FleetSample Verif.Keyhive.Sample in
/-- Agent 5 writes a second time. -/
example : ∃ e, (d3.encryptContent EF L2 300 9 10 43).2 = .ok (e, none) := by
  have h : ((d3.encryptContent EF L2 300 9 10 43).2.toOption.map (fun p => p.2)) = some none := by decide +kernel
  cases hq : (d3.encryptContent EF L2 300 9 10 43).2 with
  | error e => rw [hq] at h; cases h
  | ok p => obtain ⟨a, b⟩ := p; rw [hq] at h; cases h; exact ⟨a, rfl⟩

/-- C118 fails when an addition and a write happen at the same time. All three devices run the library, have the same key operations and belong to
members. Two of them report the key of the write, and Bob's, the new member's, reports that there is none. What is written next is not encrypted
under the reported key. -/
theorem C118_fails : ∃ (E : Env) (k w v : Keyhive) (did : Id) (h : PcsHash) (L : Local) (e : EncContent) (o : SOp),
    (∀ i, Function.Injective (E.hashCgka i)) ∧ Fleet E k ∧ Fleet E w ∧ Fleet E v ∧ SameKeyOps E k w did ∧ SameKeyOps E k v did ∧
    (∀ d c, AMap.get k.docs did = some d → d.cgka = some c → OneRoot c) ∧ KeyHash k did h ∧ KeyHash w did h ∧ NoKeyHash v did ∧
    (∃ d c, AMap.get v.docs did = some d ∧ d.cgka = some c ∧ c.ownerId = 2 ∧ ∃ op, HasKeyOp E v did op ∧ op.payload.GivesTo 2) ∧
    (k.encryptContent E L did 9 10 43).2 = .ok (e, some o) ∧ e.pcsKeyHash ≠ h := by
  open FleetSample Verif.Keyhive.Sample WriterSample KeyHashSample in
  have hw : ∃ e, (five6.encryptContent EH L3 300 9 10 43).2 = .ok (e, some c7) ∧ e.pcsKeyHash = ⟨1002⟩ := by
    have h := five6_write
    cases hq : (five6.encryptContent EH L3 300 9 10 43).2 with
    | error e => rw [hq] at h; cases h
    | ok p =>
      obtain ⟨a, b⟩ := p
      rw [hq] at h
      simp only [Except.toOption, Option.map_some, Option.some.injEq, Prod.mk.injEq] at h
      exact ⟨a, by rw [h.2], h.1⟩
  obtain ⟨e, he, hh⟩ := hw
  obtain ⟨d, e1, e2⟩ := doc_of bobs_has
  refine ⟨EH, five6, adds5, bobs, 300, ⟨802⟩, L3, e, c7, EH_inj, five6_fleet, adds5_fleet, bobs_fleet,
    fun op => ⟨all_of five6_has (by decide +kernel) op, all_of adds5_has (by decide +kernel) op⟩,
    fun op => ⟨all_of five6_has (by decide +kernel) op, all_of bobs_has (by decide +kernel) op⟩, ?_,
    by unfold KeyHash; decide +kernel, by unfold KeyHash; decide +kernel, by unfold NoKeyHash; decide +kernel,
    ⟨d, _, e1, e2, by decide +kernel, c6, has_of (by decide +kernel), rfl⟩, he, by rw [hh]; decide⟩
  intro d c hd hc
  obtain ⟨d', e1, e2⟩ := doc_of five6_has
  rw [hd] at e1; cases e1
  rw [hc] at e2; cases e2
  exact Verif.Cgka.Sample.oneRoot_of 0 (by decide +kernel)

end Verif.Keyhive.KeyHashProps
