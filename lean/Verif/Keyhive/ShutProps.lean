import Verif.Keyhive.ShutLemmas

/-!
# Revoking somebody from a document shuts them out of what is written afterwards (C121)

The vocabulary is in `Verif.Keyhive.{HeldSpec, FleetSpec}` and `Verif.Cgka.CutOffSpec`.
-/

namespace Verif.Keyhive

open Verif.Group Verif.Cgka Verif.BeeKem

variable {E : Env}

namespace ShutSample

open Verif.Keyhive.Sample Verif.Keyhive.FleetSample Verif.Keyhive.HeldSample

/-- Agent 5 makes Bob an admin of the document. -/
def b3 : SOp := ⟨.add 2 ⟨22⟩ 2 [2] [1], 5, 5002⟩
/-- And Alice a reader. -/
def b4 : SOp := ⟨.add 1 ⟨11⟩ 3 [3] [3], 5, 5001⟩
/-- The removal of Alice. -/
def b5 : SOp := ⟨.remove 1 3 [] [4], 5, 5501⟩
/-- For Alice, in Bob's update. -/
def box7 : EncryptedSecret := { key := { lo := 11, hi := 900 }, plain := 901, pairedPk := ⟨11⟩ }
/-- For the first half of the tree. -/
def box8 : EncryptedSecret := { key := { lo := 701, hi := 901 }, plain := 902, pairedPk := ⟨701⟩ }
/-- The update Bob makes when writing. -/
def b6 : SOp :=
  let low := { versions := [{ pk := ⟨901⟩, sk := [(.leaf 3, box7), (.leaf 2, box7)], encrypterPk := ⟨900⟩ }] }
  let top := { versions := [{ pk := ⟨902⟩, sk := [(.inner 0, box8), (.inner 2, box8)], encrypterPk := ⟨901⟩ }] }
  let change := { leafId := 2, leafIdx := 2, leafPk := .share ⟨900⟩, path := [(2, low), (1, top)], removedKeys := [⟨22⟩] }
  ⟨.update 2 change [4], 2, 2900⟩

/-- The digest of the operations. -/
noncomputable def hcS : SOp → Nat := tableH [t0, t1, t2, b3, b4, b5, b6]
/-- Digests and signatures. -/
noncomputable def ES : Env := env hcS
theorem ES_inj : ∀ i, Function.Injective (ES.hashCgka i) := fun _ => tableH_injective _

/-- Agent 5's device: Bob is an admin of document 300 and Alice a reader. -/
noncomputable def five : Keyhive :=
  (((k0.generateDoc ES L sg 300 [] [1]).1.addMemberToDoc ES L 300 ⟨.individual, 2⟩ .admin []).1.addMemberToDoc ES L 300 ⟨.individual, 1⟩ .read []).1
theorem five_fleet : Fleet ES five :=
  .call (.addToDoc L 300 ⟨.individual, 1⟩ .read []) (.call (.addToDoc L 300 ⟨.individual, 2⟩ .admin []) (.call (.newDoc L sg 300 [] [1])
    (.start reg [(⟨55⟩, 55)] rfl (Verif.Cgka.Sample.honest_one 55)) trivial ⟨sg_signs hcS, L_honest hcS⟩ L_good) trivial (L_honest hcS) L_good)
    trivial (L_honest hcS) L_good
/-- And removes Alice. -/
noncomputable def five' : Keyhive := (five.revokeFromDoc ES L 300 1 true []).1

/-- Agent 5 is admin of the document. -/
def root : SDlg := ⟨300, 300005, 5, .admin, none, [], [(300, [1])]⟩
/-- And makes Bob one. -/
def forBob : SDlg := ⟨5, 5002, 2, .admin, some (hashDlg root), [], []⟩
/-- Alice is a reader. -/
def forAlice : SDlg := ⟨5, 5001, 1, .read, some (hashDlg root), [], []⟩
/-- And no longer. -/
def notAlice : SRev := ⟨5, 5701, hashDlg forAlice, some (hashDlg forAlice), []⟩
/-- What a device receives: the delegations, then group-key operations, then other events. -/
def post (ops : List SOp) (more : List Event) : List Event := [.dlg root, .dlg forBob, .dlg forAlice] ++ ops.map (.cgka 300 ·) ++ more

/-- Bob's device knows the same people. -/
def regB : Prekey.Registry := ⟨2, 0, [card 0, card 5, card 1, card 2], []⟩
/-- Bob's device has received the revocation of Alice, but not the group-key operation made with it. -/
noncomputable def bob : Keyhive := feed ES (Keyhive.start regB [(⟨22⟩, 22)]) (post [t0, t1, t2, b3, b4] [.rev notAlice])
/-- Before it received the revocation. -/
noncomputable def bob0 : Keyhive := feed ES (Keyhive.start regB [(⟨22⟩, 22)]) (post [t0, t1, t2, b3, b4] [])
/-- How Bob signs and draws keys. -/
def LB : Local := ⟨sg, fun _ p => .ok ⟨p, 2, 2900⟩, fun _ i _ => .ok ⟨11 * i⟩, fun n => 900 + n⟩
theorem LB_honest (hc : SOp → Nat) : LB.Honest (env hc) := ⟨sg_signs hc, fun _ _ _ h => by cases h; rfl⟩
theorem LB_good (doc : Id) : GoodSigner (LB.signCgka doc) := fun _ => ⟨_, rfl, rfl⟩
/-- Bob writes. -/
noncomputable def bob' : Keyhive := (bob.encryptContent ES LB 300 7 8 42).1
/-- Alice's device, with everything. -/
noncomputable def shut : Keyhive := feed ES (Keyhive.start regA [(⟨11⟩, 11)]) (post [t0, t1, t2, b3, b4, b6] [.rev notAlice, .cgka 300 b5])

theorem five'_fleet : Fleet ES five' := .call (.revokeFromDoc L 300 1 true []) five_fleet trivial (L_honest hcS) L_good

theorem post_cgka {ops : List SOp} {more : List Event} {did : Id} {op : SOp} (h : Event.cgka did op ∈ post ops more) :
    (did = 300 ∧ op ∈ ops) ∨ Event.cgka did op ∈ more := by
  simp only [post, List.mem_append, List.mem_cons, reduceCtorEq, List.not_mem_nil, or_false, false_or, List.mem_map, Event.cgka.injEq] at h
  rcases h with ⟨o, ho, rfl, rfl⟩ | h
  · exact .inl ⟨rfl, ho⟩
  · exact .inr h

theorem bob_fleet : Fleet ES bob := by
  refine feed_fleet five_fleet (.start regB [(⟨22⟩, 22)] rfl (Verif.Cgka.Sample.honest_one 22)) ?_
  have h : ∀ op ∈ [t0, t1, t2, b3, b4], recorded five 300 (ES.hashCgka 300 op) = some op := by decide +kernel
  intro did op ho
  rcases post_cgka ho with ⟨rfl, h1⟩ | h1
  · refine ⟨has_of (h op h1), ?_⟩
    intro pk i ps as he
    simp only [List.mem_cons, List.not_mem_nil, or_false] at h1
    rcases h1 with rfl | rfl | rfl | rfl | rfl <;> cases he
  · simp at h1

theorem bob'_fleet : Fleet ES bob' := .call (.encrypt LB 300 7 8 42) bob_fleet trivial (LB_honest _) LB_good

/-- A device that received operations some of which one device has recorded and some another. -/
theorem feed_fleet2 {w w' : Keyhive} (hw : Fleet E w) (hw' : Fleet E w') : ∀ {es : List Event} {k : Keyhive}, Fleet E k →
    (∀ did op, .cgka did op ∈ es → (HasKeyOp E w did op ∨ HasKeyOp E w' did op) ∧ PublicAsKnown op) → Fleet E (feed E k es)
  | [], _, h, _ => h
  | e :: es, _, h, he => by
    classical
    exact feed_fleet2 hw hw' (es := es)
      (.receive e h (fun did op => if HasKeyOp E w did op then w else w') (fun did op => by split <;> assumption) (fun did op ho => by
        obtain ⟨h1, h2⟩ := he did op (by rw [ho]; exact List.mem_cons_self)
        refine ⟨?_, h2⟩
        split
        · assumption
        · rename_i hn; exact h1.resolve_left hn))
      (fun did op ho => he did op (List.mem_cons_of_mem _ ho))

theorem shut_fleet : Fleet ES shut := by
  refine feed_fleet2 bob'_fleet five'_fleet (.start regA [(⟨11⟩, 11)] rfl (Verif.Cgka.Sample.honest_one 11)) ?_
  have h : ∀ op ∈ [t0, t1, t2, b3, b4, b6], recorded bob' 300 (ES.hashCgka 300 op) = some op := by decide +kernel
  have h' : recorded five' 300 (ES.hashCgka 300 b5) = some b5 := by decide +kernel
  intro did op ho
  rcases post_cgka ho with ⟨rfl, h1⟩ | h1
  · refine ⟨.inl (has_of (h op h1)), ?_⟩
    intro pk i ps as he
    simp only [List.mem_cons, List.not_mem_nil, or_false] at h1
    rcases h1 with rfl | rfl | rfl | rfl | rfl | rfl <;> cases he
  · simp only [List.mem_cons, reduceCtorEq, List.not_mem_nil, or_false, false_or, Event.cgka.injEq] at h1
    obtain ⟨rfl, rfl⟩ := h1
    exact ⟨.inr (has_of h'), fun _ _ _ _ he => by cases he⟩

theorem made_has : (treeOf (made EH 1) 300).isSome = true := by decide +kernel
theorem gone_has : (treeOf gone 300).isSome = true := by decide +kernel

theorem shut_holder : Holder ES keys shut := feed_holder (.start regA [(⟨11⟩, 11)] (by simp [keys]))

end ShutSample

namespace ShutProps

variable {K : Sk → Prop}

/-- **C121**, the operations. The device `w` revokes a member from a document, with nothing waiting to be replayed. Then for each individual the
key group loses, the operations handed back for sending contain a removal of the individual. The device has recorded it, and everything the
device had recorded before comes before it. Missing: operations waiting (`C74_fails_for_remove`). -/
theorem C121_removal_partial (hH : ∀ i, Function.Injective (E.hashCgka i)) {w w1 : Keyhive} (hw : Fleet E w) {L : Local}
    (hs : ∀ doc, GoodSigner (L.signCgka doc)) {did member : Id} {retain : Bool} {content : Content} {ops : List SOp}
    (h : w.revokeFromDoc E L did member retain content = (w1, .ok ops)) {d d1 : Doc} {c c1 : Cgka} (hd : AMap.get w.docs did = some d)
    (hc : d.cgka = some c) (hcur : Current c) (hd1 : AMap.get w1.docs did = some d1) (hc1 : d1.cgka = some c1) {id : MemberId}
    (hin : c.tree.containsId id = true) (hout : c1.tree.containsId id = false) :
    ∃ op i rk qs, op ∈ ops ∧ op.payload = .remove id i rk qs ∧ HasKeyOp E w1 did op ∧
      ∀ op', HasKeyOp E w did op' → Before c1 (E.hashCgka did op') (E.hashCgka did op) := by
  obtain ⟨-, -, -, h4⟩ := revoke_makes hH hw hs hd hc hcur h hd1 hc1
  obtain ⟨op, i, rk, qs, e1, e2, e3, e4⟩ := h4 id hin hout
  refine ⟨op, i, rk, qs, e1, e2, ⟨d1, c1, hd1, hc1, e3⟩, ?_⟩
  rintro op' ⟨d', c', f1, f2, f3⟩
  rw [hd] at f1
  cases f1
  rw [hc] at f2
  cases f2
  exact e4 _ ⟨op', f3⟩

/-- **C121**. The device `w` revokes a member from a document, and the key group loses individual `id` (for whom it loses see C52). The device `v`
writes when it has all the group-key operations `w` then has, and knows of none that gives keys to `id` other than those `w` had before the
revocation. A device `k` whose secrets are, as far as the writer knows, only ones given to `id` cannot read what is written, even with
everybody's operations. All devices run the library; for the conditions on the history see C80.
Missing: writers that know of operations concurrent with an addition or a removal, and operations waiting at the revocation. -/
theorem C121_shut_out_partial (hp : K publicSk) (hH : ∀ i, Function.Injective (E.hashCgka i)) {w w1 v v' k : Keyhive} (hw : Fleet E w) {L : Local}
    (hL : L.Honest E) (hs : ∀ doc, GoodSigner (L.signCgka doc)) {did member : Id} {retain : Bool} {content : Content} {ops : List SOp}
    (h : w.revokeFromDoc E L did member retain content = (w1, .ok ops)) {d d1 : Doc} {c c1 : Cgka} (hd : AMap.get w.docs did = some d)
    (hc : d.cgka = some c) (hcur : Current c) (hd1 : AMap.get w1.docs did = some d1) (hc1 : d1.cgka = some c1) {id : MemberId}
    (hin : c.tree.containsId id = true) (hout : c1.tree.containsId id = false)
    (hv : Fleet E v) {L' : Local} (hL' : L'.Honest E) (hs' : ∀ doc, GoodSigner (L'.signCgka doc)) {r ps x : Nat} {e : EncContent} {o : Option SOp}
    (he : v.encryptContent E L' did r ps x = (v', .ok (e, o))) (hall : ∀ op, HasKeyOp E w1 did op → HasKeyOp E v' did op)
    (hgive : ∀ op, HasKeyOp E v' did op → op.payload.GivesTo id → HasKeyOp E w did op) {da db : Doc} {a b : Cgka}
    (hda : AMap.get v'.docs did = some da) (hca : da.cgka = some a) (h1 : ChangesApart a) (h2 : UpdatesInTurn a)
    (hk : Fleet E k) (hK : Holder E K k) (hdb : AMap.get k.docs did = some db) (hcb : db.cgka = some b)
    (hkn : ∀ op, HasKeyOp E v' did op → HasKeyOp E k did op) (hf : FreshKeys b) (hdk : DistinctKeys b) (hu : ∀ s, K s → OnlyOf a id s)
    (res : Nat × AppKey) : (k.decryptContent E did e).2 ≠ .ok res := by
  have hw1 : Fleet E w1 := by
    have := Fleet.call (.revokeFromDoc L did member retain content) hw trivial hL hs
    have hr : (Call.revokeFromDoc L did member retain content).run E w = w1 := by
      show (w.revokeFromDoc E L did member retain content).1 = w1
      rw [h]
    rwa [hr] at this
  have g1 := (reachOk_inv (hH did) (trusted_ok (fleet_trusted hH hw1 hd1 hc1))).graph
  have ga := (reachOk_inv (hH did) (trusted_ok (fleet_trusted hH (fleet_write hv hL' hs' he) hda hca))).graph
  have hwi := known_of hda hca hd1 hc1 g1 hall
  obtain ⟨op, i, rk, qs, -, e2, e3, e4⟩ := C121_removal_partial hH hw hs h hd hc hcur hd1 hc1 hin hout
  obtain ⟨da', a', f1, f2, f3⟩ := hall op e3
  rw [hda] at f1
  cases f1
  rw [hca] at f2
  cases f2
  refine HeldProps.C07_devices_partial hp hH hk hK hv hL' hs' he hdb hcb hda hca h1 h2 hkn hf hdk f3 e2 ?_ hu res
  intro y o' hy hg
  have hy' := ga.hash y o' hy
  subst hy'
  exact within_before (hH did) g1 ga hwi (e4 o' (hgive o' ⟨da, a, hda, hca, hy⟩ hg))

/-- **C121** for what the revoking device itself writes next. Missing: as for `C121_shut_out_partial`. -/
theorem C121_next_write_partial (hp : K publicSk) (hH : ∀ i, Function.Injective (E.hashCgka i)) {w w1 v' k : Keyhive} (hw : Fleet E w) {L : Local}
    (hL : L.Honest E) (hs : ∀ doc, GoodSigner (L.signCgka doc)) {did member : Id} {retain : Bool} {content : Content} {ops : List SOp}
    (h : w.revokeFromDoc E L did member retain content = (w1, .ok ops)) {d d1 : Doc} {c c1 : Cgka} (hd : AMap.get w.docs did = some d)
    (hc : d.cgka = some c) (hcur : Current c) (hd1 : AMap.get w1.docs did = some d1) (hc1 : d1.cgka = some c1) {id : MemberId}
    (hin : c.tree.containsId id = true) (hout : c1.tree.containsId id = false)
    {L' : Local} (hL' : L'.Honest E) (hs' : ∀ doc, GoodSigner (L'.signCgka doc)) {r ps x : Nat} {e : EncContent} {o : Option SOp}
    (he : w1.encryptContent E L' did r ps x = (v', .ok (e, o))) {da db : Doc} {a b : Cgka}
    (hda : AMap.get v'.docs did = some da) (hca : da.cgka = some a) (h1 : ChangesApart a) (h2 : UpdatesInTurn a)
    (hk : Fleet E k) (hK : Holder E K k) (hdb : AMap.get k.docs did = some db) (hcb : db.cgka = some b)
    (hkn : ∀ op, HasKeyOp E v' did op → HasKeyOp E k did op) (hf : FreshKeys b) (hdk : DistinctKeys b) (hu : ∀ s, K s → OnlyOf a id s)
    (res : Nat × AppKey) : (k.decryptContent E did e).2 ≠ .ok res := by
  have hw1 : Fleet E w1 := by
    have := Fleet.call (.revokeFromDoc L did member retain content) hw trivial hL hs
    have hr : (Call.revokeFromDoc L did member retain content).run E w = w1 := by
      show (w.revokeFromDoc E L did member retain content).1 = w1
      rw [h]
    rwa [hr] at this
  obtain ⟨m1, -, m3, -⟩ := revoke_makes hH hw hs hd hc hcur h hd1 hc1
  obtain ⟨d0, a0, a', s, f1, f2, f3, -, f5⟩ := encrypt_tree he
  rw [hd1] at f1
  cases f1
  rw [hc1] at f2
  cases f2
  rw [f5] at hda
  cases hda
  cases hca
  refine C121_shut_out_partial hp hH hw hL hs h hd hc hcur hd1 hc1 hin hout hw1 hL' hs' he ?_ ?_ f5 rfl h1 h2 hk hK hdb hcb hkn hf hdk hu res
  · rintro op ⟨d', c', g1, g2, g3⟩
    rw [hd1] at g1
    cases g1
    rw [hc1] at g2
    cases g2
    refine ⟨_, _, f5, rfl, ?_⟩
    have := (has_encrypt (hH did) (sign := L'.signCgka did) c1 L'.gen 0 r ps op).2 (.inl g3)
    rw [f3] at this
    exact this
  · rintro op ⟨d', c', g1, g2, g3⟩ hg
    rw [f5] at g1
    cases g1
    cases g2
    have hop := encrypt_gives (hH did) (hs' did) m1 f3 g3 hg hout
    rcases m3 op hop with h' | ⟨_, _, _, _, h'⟩
    · exact ⟨d, c, hd, hc, h'⟩
    · rw [h'] at hg
      exact hg.elim

-- Agent 5 revokes Alice and writes; Alice's device, with all operations, cannot read it.
open HeldSample Verif.Keyhive.Sample Verif.Keyhive.FleetSample Verif.Cgka.CutOffProps.Example in
example : ∃ ops e o, (made EH 1).revokeFromDoc EH L 300 1 true [] = (gone, .ok ops) ∧ gone.encryptContent EH L2 300 7 8 42 = (after, .ok (e, o)) ∧
    ∀ res, (removed.decryptContent EH 300 e).2 ≠ .ok res := by
  obtain ⟨d, f1, f2⟩ := doc_of removed_has
  obtain ⟨d', f3, f4⟩ := doc_of after_has
  obtain ⟨dm, f5, f6⟩ := doc_of ShutSample.made_has
  obtain ⟨dg, f7, f8⟩ := doc_of ShutSample.gone_has
  obtain ⟨e, o, he⟩ := write_some (E := EH) (k := gone) (L := L2) (by decide +kernel)
  obtain ⟨ops, hops⟩ : ∃ ops, (made EH 1).revokeFromDoc EH L 300 1 true [] = (gone, .ok ops) := by
    have h : isOk ((made EH 1).revokeFromDoc EH L 300 1 true []).2 = true := by decide +kernel
    unfold gone
    cases hr : (made EH 1).revokeFromDoc EH L 300 1 true [] with
    | mk k' r =>
      rw [hr] at h
      cases r with
      | error err => cases h
      | ok ops => exact ⟨ops, rfl⟩
  refine ⟨ops, e, o, hops, he, fun res => C121_next_write_partial (K := keys) (id := 1) (.inl rfl) EH_inj (made_fleet hcH 1) (L_honest hcH) L_good hops
    f5 f6 (by decide +kernel) f7 f8 (by decide +kernel) (by decide +kernel) (L2_honest _) L2_good he f3 f4 (changes_of (by decide +kernel))
    (turns_of (by decide +kernel)) removed_fleet (withKey_holder _) f1 f2 (all_of after_has (by decide +kernel)) (fresh_of (by decide +kernel))
    (distinct_of (by decide +kernel)) ?_ res⟩
  intro s hs y o' hy hu
  have hl : users ((treeOf after 300).get after_has) (fun s => decide (s = 0 ∨ s = 11)) = [(3, t3)] := by decide +kernel
  have := users_of (p := fun s => decide (s = 0 ∨ s = 11)) (decide_eq_true hs) hy hu
  rw [hl] at this
  simp only [List.mem_singleton, Prod.mk.injEq] at this
  rw [this.2]; rfl

open ShutSample HeldSample Verif.Keyhive.Sample Verif.Keyhive.FleetSample in
/-- The writer needs the group-key operations. Agent 5 revokes Alice from the document. Bob's device has received the revocation and no longer
counts Alice as a member, but has not received the group-key operation the revocation made. What Bob writes, Alice's device reads, although it
has received both. All devices run the library. -/
theorem C121_fails : ∃ (E : Env) (L L' : Local) (w w1 v0 v v' k : Keyhive) (ops : List SOp) (s : SRev) (e : EncContent) (o : Option SOp) (key : AppKey),
    (∀ i, Function.Injective (E.hashCgka i)) ∧ Fleet E w ∧ Fleet E v ∧ Fleet E k ∧ Holder E keys k ∧
    w.revokeFromDoc E L 300 1 true [] = (w1, .ok ops) ∧ (∃ r ∈ w1.revs, E.srev r.2 = s) ∧ v0.receive E (.rev s) = (v, .ok ()) ∧
    (∃ d, AMap.get v.docs 300 = some d ∧ AMap.get d.group.members 1 = none) ∧
    v.encryptContent E L' 300 7 8 42 = (v', .ok (e, o)) ∧ ops ≠ [] ∧ (∀ op ∈ ops, ¬ HasKeyOp E v' 300 op ∧ HasKeyOp E k 300 op) ∧
    (k.decryptContent E 300 e).2 = .ok (42, key) := by
  have hrv : (five.revokeFromDoc ES L 300 1 true []).2.toOption = some [b5] := by decide +kernel
  have hrec : isOk (bob0.receive ES (.rev notAlice)).2 = true := by decide +kernel
  have hmem : (AMap.get bob.docs 300).map (fun d => (AMap.get d.group.members 1).isNone) = some true := by decide +kernel
  have hread : ((bob.encryptContent ES LB 300 7 8 42).2.toOption.bind (fun p => (shut.decryptContent ES 300 p.1).2.toOption.map Prod.fst)) = some 42 := by
    decide +kernel
  have hno : recorded bob' 300 (ES.hashCgka 300 b5) = none := by decide +kernel
  have hyes : recorded shut 300 (ES.hashCgka 300 b5) = some b5 := by decide +kernel
  have hs : ∃ r ∈ five'.revs, ES.srev r.2 = notAlice := by decide +kernel
  cases hw : bob.encryptContent ES LB 300 7 8 42 with
  | mk v' r =>
    rw [hw] at hread
    cases r with
    | error err => cases hread
    | ok p =>
      obtain ⟨e, o⟩ := p
      cases hdec : (shut.decryptContent ES 300 e).2 with
      | error err => simp [hdec, Except.toOption] at hread
      | ok q =>
        obtain ⟨x, key⟩ := q
        simp [hdec, Except.toOption] at hread
        subst hread
        have hv' : bob' = v' := by unfold bob'; rw [hw]
        rw [hv'] at hno
        refine ⟨ES, L, LB, five, five', bob0, bob, v', shut, [b5], notAlice, e, o, key, ES_inj, five_fleet, bob_fleet, shut_fleet, shut_holder,
          ?_, hs, ?_, ?_, hw, by simp, ?_, hdec⟩
        · unfold five'
          cases hq : five.revokeFromDoc ES L 300 1 true [] with
          | mk k' r =>
            rw [hq] at hrv
            cases r with
            | error err => cases hrv
            | ok ops => cases hrv; rfl
        · have hb : bob = (bob0.receive ES (.rev notAlice)).1 := rfl
          rw [hb]
          cases hq : bob0.receive ES (.rev notAlice) with
          | mk k' r =>
            rw [hq] at hrec
            cases r with
            | error err => cases hrec
            | ok u => rfl
        · cases hd : AMap.get bob.docs 300 with
          | none => rw [hd] at hmem; cases hmem
          | some d =>
            rw [hd] at hmem
            simp only [Option.map_some, Option.some.injEq, Option.isNone_iff_eq_none] at hmem
            exact ⟨d, rfl, hmem⟩
        · intro op hop
          simp only [List.mem_singleton] at hop
          subst hop
          exact ⟨not_recorded hno, has_of hyes⟩

end ShutProps

end Verif.Keyhive
