import Verif.Keyhive.PlaceProps

/-! # For whom a device writes and replaces keys (C114) -/

namespace Verif.Keyhive

open Verif.Group Verif.Cgka Verif.BeeKem

variable {E : Env} {me : Id}

theorem update_for {H : SOp → Nat} {sign : Payload → Res SOp} (hs : GoodSigner sign) {c c' : Cgka} {g : BeeKem.Gen} {n : Nat} {sk k : Sk} {op : SOp}
    (h : c.update H sign g n sk = (c', .ok (k, op))) :
    ∃ id pc c1, op.payload = .update id pc c.graph.heads ∧ c.replayIfNeeded H = .ok c1 ∧ c1.tree.containsId id = true ∧
      (id = c.ownerId ∨ id = MemberId.pub) := by
  unfold Cgka.update at h
  split at h
  · cases h
  · rename_i c1 hr
    have hx := Ext.replayIfNeeded hr
    split at h
    · cases h
    · rename_i uid upk usk hu
      dsimp only at h
      split at h
      · cases h
      · rename_i t sks n' k' pc henc
        split at h
        · cases h
        · rename_i o ho
          cases h
          obtain ⟨o', e1, e2⟩ := hs (.update uid pc c1.graph.heads)
          have : o' = op := by
            have ho : sign (.update uid pc c1.graph.heads) = .ok op := ho
            rw [ho] at e1; cases e1; rfl
          subst this
          refine ⟨uid, pc, c1, by rw [e2, hx.graph], hr, ?_, ?_⟩
          · unfold Cgka.updateTarget at hu
            split at hu
            · rename_i hin; cases hu; exact hin
            · split at hu
              · split at hu <;> cases hu
              · cases hu
              · rename_i pk hpk
                split at hu
                · cases hu
                · cases hu
                  cases hc : c1.tree.containsId MemberId.pub with
                  | true => rfl
                  | false =>
                    rw [BeeKem.contains_false] at hc
                    unfold BeeKem.nodeKeyForId BeeKem.leafIndexForId at hpk
                    simp only [hc, bind, Except.bind] at hpk
                    cases hpk
          · unfold Cgka.updateTarget at hu
            split at hu
            · cases hu; exact .inl hx.owner
            · split at hu
              · split at hu <;> cases hu
              · cases hu
              · split at hu
                · cases hu
                · cases hu; exact .inr rfl

theorem update_refused {H : SOp → Nat} {sign : Payload → Res SOp} {c c1 : Cgka} {g : BeeKem.Gen} {n : Nat} {sk : Sk} (hr : c.replayIfNeeded H = .ok c1)
    (h1 : c1.tree.containsId c.ownerId = false) (h2 : c1.tree.containsId MemberId.pub = false) :
    ∃ err, c.update H sign g n sk = (c1, .error err) := by
  have hx := Ext.replayIfNeeded hr
  unfold Cgka.update
  rw [hr]
  dsimp only
  unfold Cgka.updateTarget
  rw [hx.owner, h1, if_neg (by simp)]
  have : c1.tree.nodeKeyForId MemberId.pub = .error .identifierNotFound := by
    rw [BeeKem.contains_false] at h2
    unfold BeeKem.nodeKeyForId BeeKem.leafIndexForId
    simp only [h2, bind, Except.bind]
  rw [this]
  dsimp only
  split
  · rename_i e he
    exact ⟨_, rfl⟩
  · rename_i uid upk usk he
    split at he <;> cases he

theorem encrypt_for {H : SOp → Nat} {sign : Payload → Res SOp} {c c' : Cgka} {g : BeeKem.Gen} {n r ps : Nat} {s : AppSecret} {op : SOp}
    (h : c.newAppSecretFor H sign g n r ps = (c', .ok (s, some op))) : ∃ c1 k, c.update H sign g (n + 1) (g n) = (c1, .ok (k, op)) := by
  unfold Cgka.newAppSecretFor at h
  split at h
  · cases h
  · split at h
    · cases h
    · rename_i c1 k op' he
      unfold Cgka.finishAppSecret at h
      split at h
      · cases h
      · cases h; exact ⟨c1, k, he⟩
  · split at h
    · cases h
    · split at h
      · unfold Cgka.finishAppSecret at h
        split at h <;> cases h
      · split at h
        · unfold Cgka.finishAppSecret at h
          split at h <;> cases h
        · unfold Cgka.finishAppSecret at h
          split at h <;> cases h

theorem encrypt_refused {H : SOp → Nat} {sign : Payload → Res SOp} {c : Cgka} {g : BeeKem.Gen} {n r ps : Nat} (hr : c.shouldReplay = false)
    (h1 : c.tree.containsId c.ownerId = false) (h2 : c.tree.containsId MemberId.pub = false) :
    ∃ err, c.newAppSecretFor H sign g n r ps = (c, .error err) := by
  have hr' : c.replayIfNeeded H = .ok c := by unfold Cgka.replayIfNeeded; rw [hr]; rfl
  unfold Cgka.newAppSecretFor
  split
  · exact ⟨_, rfl⟩
  · obtain ⟨err, he⟩ := update_refused (sign := sign) (g := g) (n := n + 1) (sk := g n) hr' h1 h2
    rw [he]
    exact ⟨_, rfl⟩
  · have : c.pcsKeyFromTreeRoot = .error .identifierNotFound := by
      unfold Cgka.pcsKeyFromTreeRoot BeeKem.decryptTreeSecret BeeKem.leafIndexForId
      rw [BeeKem.contains_false.1 h1, BeeKem.contains_false.1 h2]
      simp [bind, Except.bind, fatal, h2]
    rw [this]
    exact ⟨_, rfl⟩

namespace WriterSample

open Verif.Keyhive.Sample FleetSample PlaceSample

/-- How Bob signs and draws keys. -/
def LB : Local := ⟨sg, fun _ p => .ok ⟨p, 2, 2900⟩, fun _ i _ => .ok ⟨11 * i⟩, fun n => 800 + n⟩
/-- How Alice does. -/
def LA : Local := ⟨sg, fun _ p => .ok ⟨p, 1, 1900⟩, fun _ i _ => .ok ⟨11 * i⟩, fun n => 900 + n⟩
/-- Bob's update: the one agent 5 makes in `FleetSample`, but signed by Bob. -/
def r4 : SOp := ⟨t5.payload, 2, 2900⟩
/-- What Alice sends next. -/
def rbox1 : EncryptedSecret := { key := { lo := 900, hi := 902 }, plain := 901, pairedPk := ⟨902⟩ }
/-- To the other half of the tree. -/
def rbox2 : EncryptedSecret := { key := { lo := 801, hi := 901 }, plain := 903, pairedPk := ⟨801⟩ }
/-- Alice's update. -/
def r5 : SOp :=
  let low := { versions := [{ pk := ⟨901⟩, sk := [(.leaf 2, rbox1)], encrypterPk := ⟨900⟩ }] }
  let top := { versions := [{ pk := ⟨903⟩, sk := [(.inner 0, rbox2), (.inner 2, rbox2)], encrypterPk := ⟨901⟩ }] }
  let change := { leafId := 1, leafIdx := 2, leafPk := .share ⟨900⟩, path := [(2, low), (1, top)], removedKeys := [⟨11⟩, ⟨802⟩] }
  ⟨.update 1 change [4], 1, 1900⟩

/-- Digests and signatures. -/
noncomputable def EW : Env := env (tableH [t0, t1, t2, t3, r4, r5])
theorem EW_inj : ∀ i, Function.Injective (EW.hashCgka i) := fun _ => tableH_injective _

/-- Agent 5 creates document 300, makes Alice a reader and lets Bob relay it. -/
noncomputable def x1 : Keyhive := ((made EW 1).addMemberToDoc EW L 300 ⟨.individual, 2⟩ .relay []).1
/-- Bob's device knows the same people. -/
def regB : Prekey.Registry := ⟨2, 0, [card 0, card 5, card 1, card 2], []⟩
/-- The root of the document. -/
def rootDlg : SDlg := ⟨300, 300005, 5, .admin, none, [], [(300, [1])]⟩
/-- The delegations both receive. -/
def given : List Event := [.dlg rootDlg, .dlg ⟨5, 5001, 1, .read, some (hashDlg rootDlg), [], []⟩, .dlg ⟨5, 5002, 2, .relay, some (hashDlg rootDlg), [], []⟩]
/-- Bob's device. -/
noncomputable def bob1 : Keyhive := feed EW (Keyhive.start regB [(⟨22⟩, 22)]) (given ++ [t0, t1, t2, t3].map (.cgka 300 ·))
/-- Bob asks for a key update. -/
noncomputable def bob2 : Keyhive := (bob1.forcePcsUpdate EW LB 300).1
/-- Alice's device receives everything. -/
noncomputable def alice1 : Keyhive := feed EW (Keyhive.start regA [(⟨11⟩, 11)]) (given ++ [t0, t1, t2, t3, r4].map (.cgka 300 ·))
/-- Alice replaces their key. -/
noncomputable def alice2 : Keyhive := (alice1.forcePcsUpdate EW LA 300).1
/-- And writes. -/
noncomputable def alice3 : Keyhive := (alice2.encryptContent EW LA 300 7 8 42).1
/-- Bob's device receives Alice's update. -/
noncomputable def bob3 : Keyhive := feed EW bob2 ([] ++ [r5].map (.cgka 300 ·))
/-- The creator's device receives both. -/
noncomputable def x3 : Keyhive := feed EW x1 ([] ++ [r4, r5].map (.cgka 300 ·))

theorem LA_honest (hc : SOp → Nat) : LA.Honest (env hc) := ⟨sg_signs hc, fun _ _ _ h => by cases h; rfl⟩
theorem LA_good (doc : Id) : GoodSigner (LA.signCgka doc) := fun _ => ⟨_, rfl, rfl⟩
theorem LA_as : ∀ doc p o, LA.signCgka doc p = .ok o → o.issuer = 1 := fun _ _ _ h => by cases h; rfl
theorem LB_honest (hc : SOp → Nat) : LB.Honest (env hc) := ⟨sg_signs hc, fun _ _ _ h => by cases h; rfl⟩
theorem LB_good (doc : Id) : GoodSigner (LB.signCgka doc) := fun _ => ⟨_, rfl, rfl⟩
theorem LB_as : ∀ doc p o, LB.signCgka doc p = .ok o → o.issuer = 2 := fun _ _ _ h => by cases h; rfl

theorem not_public {ops : List SOp} (h : ∀ op ∈ ops, op.payload.GivesTo MemberId.pub → False) : ∀ op ∈ ops, PublicAsKnown op := by
  intro op ho pk i ps as he
  exact (h op ho (by rw [he]; rfl)).elim

theorem given_no : ∀ did op, Event.cgka did op ∉ given := by intro _ _ h; simp [given] at h

theorem x1_only : OnlyDevice EW 5 x1 :=
  .call (.addToDoc L 300 ⟨.individual, 2⟩ .relay []) (.call (.addToDoc L 300 ⟨.individual, 1⟩ .read []) (.call (.newDoc L sg 300 [] [1])
    (.start reg [(⟨55⟩, 55)] rfl (Verif.Cgka.Sample.honest_one 55) rfl) trivial ⟨sg_signs _, L_honest _⟩ L_good L_as) trivial (L_honest _) L_good L_as)
    trivial (L_honest _) L_good L_as

theorem bob1_only : OnlyDevice EW 2 bob1 := by
  refine mail_only (only_fleet x1_only) (.start regB [(⟨22⟩, 22)] rfl (Verif.Cgka.Sample.honest_one 22) rfl) given given_no _ (by decide +kernel) ?_
    (by decide)
  refine not_public ?_
  intro op ho
  simp only [List.mem_cons, List.not_mem_nil, or_false] at ho
  rcases ho with rfl | rfl | rfl | rfl <;> exact fun h => absurd (show (_ : Nat) = _ from h) (by decide)
theorem bob2_only : OnlyDevice EW 2 bob2 := .call (.pcsUpdate LB 300) bob1_only trivial (LB_honest _) LB_good LB_as

theorem alice1_only : OnlyDevice EW 1 alice1 := by
  refine mail_only (only_fleet bob2_only) (.start regA [(⟨11⟩, 11)] rfl (Verif.Cgka.Sample.honest_one 11) rfl) given given_no _ (by decide +kernel) ?_
    (by decide)
  refine not_public ?_
  intro op ho
  simp only [List.mem_cons, List.not_mem_nil, or_false] at ho
  rcases ho with rfl | rfl | rfl | rfl | rfl <;> exact fun h => absurd (show (_ : Nat) = _ from h) (by decide)
theorem alice2_only : OnlyDevice EW 1 alice2 := .call (.pcsUpdate LA 300) alice1_only trivial (LA_honest _) LA_good LA_as

theorem r45_private : ∀ op ∈ [r4, r5], PublicAsKnown op := by
  refine not_public ?_
  intro op ho
  simp only [List.mem_cons, List.not_mem_nil, or_false] at ho
  rcases ho with rfl | rfl <;> exact fun h => absurd (show (_ : Nat) = _ from h) (by decide)

theorem bob3_only : OnlyDevice EW 2 bob3 :=
  mail_only (only_fleet alice2_only) bob2_only [] (by simp) _ (by decide +kernel) (fun op ho => r45_private op (List.mem_cons_of_mem _ ho)) (by decide)

theorem x3_only : OnlyDevice EW 5 x3 :=
  mail_only (only_fleet alice2_only) x1_only [] (by simp) _ (by decide +kernel) r45_private (by decide)

/-- What Alice writes. -/
theorem wrote_r : ((alice2.encryptContent EW LA 300 7 8 42).2.toOption.map (·.1)).isSome = true := by decide +kernel
/-- The content. -/
noncomputable def written : EncContent := ((alice2.encryptContent EW LA 300 7 8 42).2.toOption.map (·.1)).get wrote_r

theorem written_eq : ∃ o, (alice2.encryptContent EW LA 300 7 8 42).2 = .ok (written, o) := by
  have h : ((alice2.encryptContent EW LA 300 7 8 42).2.toOption.map (·.1)) = some written := by
    exact (Option.some_get wrote_r).symm
  cases hq : (alice2.encryptContent EW LA 300 7 8 42).2 with
  | error e => rw [hq] at h; cases h
  | ok p => obtain ⟨a, b⟩ := p; rw [hq] at h; cases h; exact ⟨b, rfl⟩

theorem bob_reads : ((bob3.decryptContent EW 300 written).2.toOption.map (·.1)) = some 42 := by decide +kernel
theorem x_unread : (x3.decryptContent EW 300 written).2.toOption.isNone = true := by decide +kernel
theorem bob1_has : (treeOf bob1 300).isSome = true := by decide +kernel
theorem alice1_has : (treeOf alice1 300).isSome = true := by decide +kernel

/-- Alice's device after Alice was removed. -/
noncomputable def gone : Keyhive := feed EL (Keyhive.start regA [(⟨11⟩, 11)]) (mail [t0, t1, t2, t3, t4])
theorem gone_only : OnlyDevice EL 1 gone := by
  refine mail_only (w := ((made EL 1).revokeFromDoc EL L 300 1 true []).1)
    (.call (.revokeFromDoc L 300 1 true []) (made_fleet _ 1) trivial (L_honest _) L_good)
    (.start regA [(⟨11⟩, 11)] rfl (Verif.Cgka.Sample.honest_one 11) rfl)
    [.dlg rootDlg] (by intro _ _ h; simp at h) [t0, t1, t2, t3, t4] (by decide +kernel) ?_ (by decide)
  refine not_public ?_
  intro op ho
  simp only [List.mem_cons, List.not_mem_nil, or_false] at ho
  rcases ho with rfl | rfl | rfl | rfl | rfl
  on_goal 5 => exact fun h => h.elim
  all_goals exact fun h => absurd (show (_ : Nat) = _ from h) (by decide)
theorem gone_has : (treeOf gone 300).isSome = true := by decide +kernel

end WriterSample

namespace WriterProps

/-- C114, whose leaf: on a device whose agent somebody else has added to a document's group, every key update that writing makes or that is asked
for replaces the keys of that agent, or those of the public individual, who must be in the group then.
Missing: devices that have not been added. `C114_fails` shows that the library lets them act for the document itself. -/
theorem C114_own_leaf_partial (hH : ∀ i, Function.Injective (E.hashCgka i)) {k : Keyhive} (hk : OnlyDevice E me k) {did : Id} {inv : SOp}
    (hi : HasKeyOp E k did inv) (hinv : Invites me inv) {L : Local} (hs : ∀ doc, GoodSigner (L.signCgka doc)) {o : SOp}
    (h : (∃ r ps x e, (k.encryptContent E L did r ps x).2 = .ok (e, some o)) ∨ ∃ sk, (k.forcePcsUpdate E L did).2 = .ok (o, sk)) :
    ∃ id pc preds d c c1, o.payload = .update id pc preds ∧ (id = me ∨ id = MemberId.pub) ∧ AMap.get k.docs did = some d ∧ d.cgka = some c ∧
      c.replayIfNeeded (E.hashCgka did) = .ok c1 ∧ c1.tree.containsId id = true := by
  obtain ⟨d, c, hd, hc, hx⟩ := hi
  have how := only_owned hH hk hd hc ⟨_, inv, hx, hinv⟩
  have key : ∀ {n sk c' q}, c.update (E.hashCgka did) (L.signCgka did) L.gen n sk = (c', .ok (q, o)) →
      ∃ id pc preds d c c1, o.payload = .update id pc preds ∧ (id = me ∨ id = MemberId.pub) ∧ AMap.get k.docs did = some d ∧ d.cgka = some c ∧
      c.replayIfNeeded (E.hashCgka did) = .ok c1 ∧ c1.tree.containsId id = true := by
    intro n sk c' q hu
    obtain ⟨id, pc, c1, e1, e2, e3, e4⟩ := update_for (hs did) hu
    refine ⟨id, pc, _, d, c, c1, e1, ?_, hd, hc, e2, e3⟩
    rcases e4 with rfl | rfl
    · exact how
    · exact .inr rfl
  rcases h with ⟨r, ps, x, e, h⟩ | ⟨sk, h⟩
  · cases hq : k.encryptContent E L did r ps x with
    | mk k' res =>
      rw [hq] at h
      dsimp only at h
      subst h
      obtain ⟨d0, a0, a', s, f1, f2, f3, -⟩ := encrypt_tree hq
      rw [hd] at f1; cases f1
      rw [hc] at f2; cases f2
      obtain ⟨c1, q, hu⟩ := encrypt_for f3
      exact key hu
  · unfold Keyhive.forcePcsUpdate at h
    rw [hd] at h
    dsimp only at h
    unfold Doc.pcsUpdate at h
    rw [hc] at h
    dsimp only at h
    split at h
    · cases h
    · rename_i c' q op hu
      cases h
      exact key hu

-- Agent 5 added Alice to the group, Bob (see below) updated keys; Alice asks for a key update.
open FleetSample Verif.Keyhive.Sample WriterSample in
example : (∀ i, Function.Injective (EW.hashCgka i)) ∧ OnlyDevice EW 1 alice1 ∧ HasKeyOp EW alice1 300 t3 ∧ Invites 1 t3 ∧
    (∀ doc, GoodSigner (LA.signCgka doc)) ∧ ∃ sk, (alice1.forcePcsUpdate EW LA 300).2 = .ok (r5, sk) := by
  refine ⟨EW_inj, alice1_only, has_of (by decide +kernel), ⟨by decide, _, _, _, _, _, rfl⟩, LA_good, 900, ?_⟩
  have h : (alice1.forcePcsUpdate EW LA 300).2.toOption = some (r5, 900) := by decide +kernel
  cases hq : (alice1.forcePcsUpdate EW LA 300).2 with
  | error e => rw [hq] at h; cases h
  | ok p => rw [hq] at h; cases h; rfl

/-- C114, nobody else: a device that acts for somebody who is not in a document's group, when the public individual is not either, can neither
write nor replace keys: both calls fail and no group-key operation comes on record. (All that was received has been worked into the tree.) -/
theorem C114_refuses {k : Keyhive} {did : Id} {d : Doc} {c : Cgka} (hd : AMap.get k.docs did = some d) (hc : d.cgka = some c)
    (hr : c.shouldReplay = false) (h1 : c.tree.containsId c.ownerId = false) (h2 : c.tree.containsId MemberId.pub = false) (L : Local) (r ps x : Nat) :
    (∃ err, (k.encryptContent E L did r ps x).2 = .error err) ∧ (∃ err, (k.forcePcsUpdate E L did).2 = .error err) ∧
    ∀ op, HasKeyOp E (k.encryptContent E L did r ps x).1 did op ∨ HasKeyOp E (k.forcePcsUpdate E L did).1 did op → HasKeyOp E k did op := by
  have hr' : c.replayIfNeeded (E.hashCgka did) = .ok c := by unfold Cgka.replayIfNeeded; rw [hr]; rfl
  obtain ⟨e1, h3⟩ := encrypt_refused (H := E.hashCgka did) (sign := L.signCgka did) (g := L.gen) (n := 0) (r := r) (ps := ps) hr h1 h2
  obtain ⟨e2, h4⟩ := update_refused (H := E.hashCgka did) (sign := L.signCgka did) (g := L.gen) (n := 1) (sk := L.gen 0) hr' h1 h2
  have hself : ({ d with cgka := some c } : Doc) = d := by rw [← hc]
  have h5 : k.encryptContent E L did r ps x = (k.setDoc did d, .error (.cgka e1)) := by
    unfold Keyhive.encryptContent
    rw [hd]
    dsimp only
    unfold Doc.encryptContent
    rw [hc]
    dsimp only
    rw [h3]
    dsimp only
    rw [hself]
  have h6 : k.forcePcsUpdate E L did = (k.setDoc did d, .error (.cgka e2)) := by
    unfold Keyhive.forcePcsUpdate
    rw [hd]
    dsimp only
    unfold Doc.pcsUpdate
    rw [hc]
    dsimp only
    rw [h4]
    dsimp only
    rw [hself]
  have h7 : ∀ op, HasKeyOp E (k.setDoc did d) did op → HasKeyOp E k did op := by
    rintro op ⟨d', c', a1, a2, a3⟩
    have := get_setDoc (d := d) hd did
    simp only [if_true] at this
    rw [this] at a1
    cases a1
    exact ⟨d, c', hd, a2, a3⟩
  rw [h5, h6]
  exact ⟨⟨_, rfl⟩, ⟨_, rfl⟩, fun op h => h.elim (h7 op) (h7 op)⟩

/-- C114, removed members: once an agent that somebody else had added is no longer in a document's group, and the public individual is not either, the
agent's device can neither write nor replace keys.
Missing: as for `C114_own_leaf_partial`, devices that have not been added. -/
theorem C114_removed_partial (hH : ∀ i, Function.Injective (E.hashCgka i)) {k : Keyhive} (hk : OnlyDevice E me k) {did : Id} {inv : SOp}
    (hi : HasKeyOp E k did inv) (hinv : Invites me inv) {d : Doc} {c : Cgka} (hd : AMap.get k.docs did = some d) (hc : d.cgka = some c)
    (hr : c.shouldReplay = false) (h1 : c.tree.containsId me = false) (h2 : c.tree.containsId MemberId.pub = false) (L : Local) (r ps x : Nat) :
    (∃ err, (k.encryptContent E L did r ps x).2 = .error err) ∧ (∃ err, (k.forcePcsUpdate E L did).2 = .error err) ∧
    ∀ op, HasKeyOp E (k.encryptContent E L did r ps x).1 did op ∨ HasKeyOp E (k.forcePcsUpdate E L did).1 did op → HasKeyOp E k did op := by
  refine C114_refuses hd hc hr ?_ h2 L r ps x
  obtain ⟨d', c', hd', hc', hx⟩ := hi
  rw [hd] at hd'; cases hd'
  rw [hc] at hc'; cases hc'
  rcases only_owned hH hk hd hc ⟨_, inv, hx, hinv⟩ with h | h
  · rw [h]; exact h1
  · rw [h]; exact h2

-- Agent 5 created a document, added Alice and removed Alice again; Alice's device has received it all.
open FleetSample Verif.Keyhive.Sample WriterSample in
example : OnlyDevice EL 1 gone ∧ HasKeyOp EL gone 300 t3 ∧ Invites 1 t3 ∧
    ∃ d c, AMap.get gone.docs 300 = some d ∧ d.cgka = some c ∧ c.shouldReplay = false ∧ c.ownerId = 1 ∧ c.tree.containsId c.ownerId = false ∧
    c.tree.containsId MemberId.pub = false ∧ c.tree.containsId 5 = true := by
  obtain ⟨d, h1, h2⟩ := doc_of gone_has
  exact ⟨gone_only, has_of (by decide +kernel), ⟨by decide, _, _, _, _, _, rfl⟩, d, _, h1, h2, by decide +kernel, by decide +kernel, by decide +kernel, by decide +kernel, by decide +kernel⟩

/-- C114 fails for devices that have not been added to the group: agent 5 creates a document, makes Alice a reader and lets Bob relay it, which
gives Bob the group-key operations and no place in the group. Bob's device acts for the leaf of the document itself: when Bob asks for a key
update, it puts new keys on that leaf. Alice's device takes the update, replaces its own key and writes. Bob, who may not read, reads it; and agent 5, who
created the document, cannot. All devices run the library and nothing happens at the same time. -/
theorem C114_fails : ∃ (E : Env) (x1 x3 b1 b2 b3 a1 a2 a3 : Keyhive) (LB LA : Local) (o1 o2 : SOp) (sk1 sk2 : Sk) (e : EncContent) (d : Doc) (c : Cgka),
    (∀ i, Function.Injective (E.hashCgka i)) ∧
    -- the creator's device, Bob's and Alice's, which all run the library
    OnlyDevice E 5 x1 ∧ OnlyDevice E 2 b1 ∧ OnlyDevice E 1 a1 ∧ LB.Honest E ∧ LA.Honest E ∧
    (∀ doc, GoodSigner (LB.signCgka doc)) ∧ (∀ doc, GoodSigner (LA.signCgka doc)) ∧
    -- Bob may relay the document and is not in its group
    AMap.get b1.docs 300 = some d ∧ d.cgka = some c ∧ (d.group.getCapability 2).map (·.can) = some .relay ∧ c.tree.containsId 2 = false ∧
    c.tree.containsId MemberId.pub = false ∧
    -- Bob updates, Alice receives this, updates and writes
    b1.forcePcsUpdate E LB 300 = (b2, .ok (o1, sk1)) ∧ HasKeyOp E a1 300 o1 ∧ a1.forcePcsUpdate E LA 300 = (a2, .ok (o2, sk2)) ∧
    a2.encryptContent E LA 300 7 8 42 = (a3, .ok (e, none)) ∧
    -- Bob and the creator receive what they do not have
    b3 = (b2.receive E (.cgka 300 o2)).1 ∧ x3 = ((x1.receive E (.cgka 300 o1)).1.receive E (.cgka 300 o2)).1 ∧ HasKeyOp E x3 300 o2 ∧
    -- Bob reads, the creator cannot
    (∃ key, (b3.decryptContent E 300 e).2 = .ok (42, key)) ∧ ∀ y key, (x3.decryptContent E 300 e).2 ≠ .ok (y, key) := by
  open FleetSample Verif.Keyhive.Sample WriterSample in
  obtain ⟨d, h1, h2⟩ := doc_of bob1_has
  have step : ∀ {k : Keyhive} {L : Local} {o : SOp} {sk : Sk}, (k.forcePcsUpdate EW L 300).2.toOption = some (o, sk) →
      k.forcePcsUpdate EW L 300 = ((k.forcePcsUpdate EW L 300).1, .ok (o, sk)) := by
    intro k L o sk h
    cases hq : k.forcePcsUpdate EW L 300 with
    | mk k' r =>
      rw [hq] at h
      cases r with
      | error e => cases h
      | ok p => cases h; rfl
  obtain ⟨o, ho⟩ := written_eq
  have hn : (alice2.encryptContent EW LA 300 7 8 42).2.toOption.map (·.2) = some none := by decide +kernel
  rw [ho] at hn
  cases hn
  refine ⟨EW, x1, x3, bob1, bob2, bob3, alice1, alice2, alice3, LB, LA, r4, r5, 800, 900, written, d, _, EW_inj, x1_only, bob1_only, alice1_only,
    LB_honest _, LA_honest _, LB_good, LA_good, h1, h2, ?_, by decide +kernel, by decide +kernel, step (by decide +kernel), has_of (by decide +kernel),
    step (by decide +kernel), ?_, rfl, rfl, has_of (by decide +kernel), ?_, ?_⟩
  · have : (AMap.get bob1.docs 300).bind (fun d => (d.group.getCapability 2).map (·.can)) = some .relay := by decide +kernel
    rw [h1] at this
    exact this
  · exact Prod.ext rfl ho
  · have := bob_reads
    cases hq : (bob3.decryptContent EW 300 written).2 with
    | error e => rw [hq] at this; cases this
    | ok p => obtain ⟨a, b⟩ := p; rw [hq] at this; cases this; exact ⟨b, rfl⟩
  · intro y key h
    have := x_unread
    rw [h] at this
    cases this

end WriterProps

end Verif.Keyhive
