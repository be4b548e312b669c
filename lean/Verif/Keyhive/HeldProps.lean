import Verif.Keyhive.HeldLemmas
import Verif.Keyhive.FleetProps
import Verif.Cgka.CutOffProps

/-!
# What a device can read, and what it cannot (C07, C08, C58, C90)

The vocabulary is in `Verif.Keyhive.HeldSpec`, `Verif.Keyhive.FleetSpec`, and `Verif.Cgka.{GainSpec, SecrecySpec, CutOffSpec, TogetherSpec}`.
-/

namespace Verif.Keyhive

open Verif.Group Verif.Cgka Verif.BeeKem

variable {E : Env}

/-- What a device needed to read something. -/
theorem decrypt_inv {k : Keyhive} {did : Id} {e : EncContent} {x : Nat} {key : AppKey} (h : (k.decryptContent E did e).2 = .ok (x, key)) :
    ∃ d c, AMap.get k.docs did = some d ∧ d.cgka = some c ∧ (c.decryptionKeyFor (E.hashCgka did) e).2 = .ok key ∧ e.openWith key = some x := by
  unfold Keyhive.decryptContent at h
  cases hd : AMap.get k.docs did with
  | none => rw [hd] at h; cases h
  | some d =>
    rw [hd] at h
    dsimp only at h
    unfold Doc.decryptContent at h
    cases hc : d.cgka with
    | none => rw [hc] at h; cases h
    | some c =>
      rw [hc] at h
      dsimp only at h
      cases hq : c.decryptionKeyFor (E.hashCgka did) e with
      | mk c' r =>
        rw [hq] at h
        cases r with
        | error err => dsimp only at h; split at h <;> simp at h
        | ok key' =>
          dsimp only at h
          cases ho : e.openWith key' with
          | none => rw [ho] at h; cases h
          | some y =>
            rw [ho] at h
            cases h
            exact ⟨d, c, rfl, hc, by rw [hq], ho⟩

theorem closed_of {k : Keyhive} {did : Id} {d : Doc} {b : Cgka} (hd : AMap.get k.docs did = some d) (hc : d.cgka = some b) {e : EncContent}
    (h : ∀ key, (b.decryptionKeyFor (E.hashCgka did) e).2 = .ok key → e.openWith key = none) (r : Nat × AppKey) :
    (k.decryptContent E did e).2 ≠ .ok r := by
  intro hr
  obtain ⟨x, key⟩ := r
  obtain ⟨d', c', h1, h2, h3, h4⟩ := decrypt_inv hr
  rw [hd] at h1
  cases h1
  rw [hc] at h2
  cases h2
  rw [h key h3] at h4
  cases h4

namespace HeldSample

open Verif.Keyhive.Sample
open Verif.Keyhive.FleetSample

/-- To nobody else in the first half of the tree. -/
def box4 : EncryptedSecret := { key := { lo := 801, hi := 803 }, plain := 802, pairedPk := ⟨803⟩ }
/-- The update agent 5 makes when writing after Alice was removed. -/
def r5 : SOp :=
  let low := { versions := [{ pk := ⟨801⟩, sk := [(.leaf 1, box1), (.leaf 0, box1)], encrypterPk := ⟨800⟩ }] }
  let top := { versions := [{ pk := ⟨802⟩, sk := [(.inner 0, box4)], encrypterPk := ⟨801⟩ }] }
  let change := { leafId := 300, leafIdx := 0, leafPk := .share ⟨800⟩, path := [(0, low), (1, top)], removedKeys := [⟨700⟩, ⟨701⟩] }
  ⟨.update 300 change [4], 5, 5901⟩
/-- The secrets in Alice's update. -/
def box5 : EncryptedSecret := { key := { lo := 900, hi := 902 }, plain := 901, pairedPk := ⟨902⟩ }
/-- For the first half of the tree. -/
def box6 : EncryptedSecret := { key := { lo := 701, hi := 901 }, plain := 903, pairedPk := ⟨701⟩ }
/-- Alice's update. -/
def v4 : SOp :=
  let low := { versions := [{ pk := ⟨901⟩, sk := [(.leaf 2, box5)], encrypterPk := ⟨900⟩ }] }
  let top := { versions := [{ pk := ⟨903⟩, sk := [(.inner 0, box6), (.inner 2, box6)], encrypterPk := ⟨901⟩ }] }
  let change := { leafId := 1, leafIdx := 2, leafPk := .share ⟨900⟩, path := [(2, low), (1, top)], removedKeys := [⟨11⟩] }
  ⟨.update 1 change [3], 1, 1900⟩

/-- The digest of the operations. -/
noncomputable def hcH : SOp → Nat := tableH [t0, t1, t2, t3, t4, r5, v4]
/-- Digests and signatures. -/
noncomputable def EH : Env := env hcH
theorem EH_inj : ∀ i, Function.Injective (EH.hashCgka i) := fun _ => tableH_injective _

/-- How Alice signs and draws keys. -/
def LA : Local := ⟨sg, fun _ p => .ok ⟨p, 1, 1900⟩, fun _ i _ => .ok ⟨11 * i⟩, fun n => 900 + n⟩
theorem LA_honest (hc : SOp → Nat) : LA.Honest (env hc) := ⟨sg_signs hc, fun _ _ _ h => by cases h; rfl⟩
theorem LA_good (doc : Id) : GoodSigner (LA.signCgka doc) := fun _ => ⟨_, rfl, rfl⟩

/-- Agent 5 creates document 300. -/
noncomputable def born : Keyhive := (k0.generateDoc EH L sg 300 [] [1]).1
theorem born_fleet : Fleet EH born :=
  .call (.newDoc L sg 300 [] [1]) (.start reg [(⟨55⟩, 55)] rfl (Verif.Cgka.Sample.honest_one 55)) trivial ⟨sg_signs hcH, L_honest hcH⟩ L_good
/-- Agent 5 has made Alice a reader, and removes them. -/
noncomputable def gone : Keyhive := ((made EH 1).revokeFromDoc EH L 300 1 true []).1
theorem gone_fleet : Fleet EH gone := .call (.revokeFromDoc L 300 1 true []) (made_fleet hcH 1) trivial (L_honest hcH) L_good
/-- And writes. -/
noncomputable def after : Keyhive := (gone.encryptContent EH L2 300 7 8 42).1
theorem after_fleet : Fleet EH after := .call (.encrypt L2 300 7 8 42) gone_fleet trivial (L2_honest _) L2_good

/-- A device with Alice's prekey that has received some operations. -/
noncomputable def withKey (ops : List SOp) : Keyhive := feed EH (Keyhive.start regA [(⟨11⟩, 11)]) (mail ops)
/-- What it starts with. -/
def keys (s : Sk) : Prop := s = 0 ∨ s = 11

theorem feed_holder : ∀ {es : List Event} {k : Keyhive}, Holder E keys k → Holder E keys (feed E k es)
  | [], _, h => h
  | e :: es, _, h => feed_holder (es := es) (.call (.receive e) h trivial trivial)

theorem withKey_holder (ops : List SOp) : Holder EH keys (withKey ops) :=
  feed_holder (.start regA [(⟨11⟩, 11)] (by simp [keys]))

/-- Alice's device after they were added. -/
noncomputable def joined : Keyhive := withKey [t0, t1, t2, t3]
theorem joined_fleet : Fleet EH joined := by
  refine mail_fleet (made_fleet hcH 1) _ (by decide +kernel) ?_
  intro op ho pk i ps as he
  simp only [List.mem_cons, List.not_mem_nil, or_false] at ho
  rcases ho with rfl | rfl | rfl | rfl <;> cases he

/-- Alice's device after they were removed, with all that followed. -/
noncomputable def removed : Keyhive := withKey [t0, t1, t2, t3, t4, r5]
theorem removed_fleet : Fleet EH removed := by
  refine mail_fleet after_fleet _ (by decide +kernel) ?_
  intro op ho pk i ps as he
  simp only [List.mem_cons, List.not_mem_nil, or_false] at ho
  rcases ho with rfl | rfl | rfl | rfl | rfl | rfl <;> cases he

/-- Alice replaces their key. -/
noncomputable def fresh : Keyhive := (joined.forcePcsUpdate EH LA 300).1
theorem fresh_fleet : Fleet EH fresh := .call (.pcsUpdate LA 300) joined_fleet trivial (LA_honest _) LA_good
/-- And writes. -/
noncomputable def fresh' : Keyhive := (fresh.encryptContent EH LA 300 7 8 42).1
/-- Somebody has Alice's old key and all operations. -/
noncomputable def thief : Keyhive := withKey [t0, t1, t2, t3, v4]
theorem thief_fleet : Fleet EH thief := by
  refine mail_fleet fresh_fleet _ (by decide +kernel) ?_
  intro op ho pk i ps as he
  simp only [List.mem_cons, List.not_mem_nil, or_false] at ho
  rcases ho with rfl | rfl | rfl | rfl | rfl <;> cases he

theorem not_recorded {k : Keyhive} {did : Id} {op : SOp} (h : recorded k did (E.hashCgka did op) = none) : ¬ HasKeyOp E k did op := by
  rintro ⟨d, c, h1, h2, h3⟩
  unfold recorded treeOf at h
  rw [h1] at h
  simp only [Option.bind_some, h2] at h
  rw [h3] at h
  cases h

/-- The write succeeds. -/
theorem write_some {k : Keyhive} {L : Local} (h : (k.encryptContent E L 300 7 8 42).2.toOption.isSome = true) :
    ∃ e o, k.encryptContent E L 300 7 8 42 = ((k.encryptContent E L 300 7 8 42).1, .ok (e, o)) := by
  cases hq : k.encryptContent E L 300 7 8 42 with
  | mk k' r =>
    rw [hq] at h
    cases r with
    | error err => cases h
    | ok p => exact ⟨p.1, p.2, rfl⟩

/-- The operation adds Alice or is an update of theirs. -/
def toAlice (o : SOp) : Bool := match o.payload with | .add i .. => decide (i = 1) | .update i .. => decide (i = 1) | .remove .. => false

theorem toAlice_of {o : SOp} (h : o.payload.GivesTo 1) : toAlice o = true := by
  unfold toAlice
  cases hp : o.payload <;> rw [hp] at h <;> simp only [Payload.GivesTo] at h
  · exact decide_eq_true h
  · exact decide_eq_true h

theorem joined_has : (treeOf joined 300).isSome = true := by decide +kernel
theorem removed_has : (treeOf removed 300).isSome = true := by decide +kernel
theorem thief_has : (treeOf thief 300).isSome = true := by decide +kernel
theorem after_has : (treeOf after 300).isSome = true := by decide +kernel
theorem fresh'_has : (treeOf fresh' 300).isSome = true := by decide +kernel

end HeldSample

namespace HeldProps

variable {K : Sk → Prop}

/-- **C90**, on a whole device: what it can read, it reads with a group secret that can be worked out from the secrets it started with, took
from archives or drew itself, and the public one, with the ciphertexts of the group-key operations it has recorded for the document. It may have
received anything, from anybody. -/
theorem C90_device (hp : K publicSk) {k : Keyhive} (hk : Holder E K k) {did : Id} (hH : Function.Injective (E.hashCgka did)) {e : EncContent} {x : Nat}
    {key : AppKey} (h : (k.decryptContent E did e).2 = .ok (x, key)) :
    ∃ d c, AMap.get k.docs did = some d ∧ d.cgka = some c ∧ Spec.Derivable K (published c) key.pcs := by
  obtain ⟨d, c, h1, h2, h3, _⟩ := decrypt_inv h
  exact ⟨d, c, h1, h2, Verif.Cgka.GainProps.C90_decrypt hH (holder_device hp hk h1 h2) h3⟩

-- Alice's device, which started with one key, reads what agent 5 wrote.
open HeldSample Verif.Keyhive.Sample Verif.Keyhive.FleetSample in
example : keys publicSk ∧ Holder EF keys alice ∧ (match (d2.encryptContent EF L2 300 7 8 42).2 with
    | .ok (e, _) => decide ((alice.decryptContent EF 300 e).2.toOption.map Prod.fst = some 42)
    | _ => false) = true :=
  ⟨.inl rfl, feed_holder (.start regA [(⟨11⟩, 11)] (by simp [keys])), by decide +kernel⟩

/-- **C58**, between devices, with any concurrency. `j` is the group-key operation with which a member joins; the device `w` wrote without having
it. A device whose secrets occur nowhere but in `j` and what came after it cannot read what was written, even with everybody's operations. All
devices run the library. -/
theorem C58_devices (hp : K publicSk) (hH : ∀ i, Function.Injective (E.hashCgka i)) {k w w' : Keyhive} (hk : Fleet E k) (hK : Holder E K k)
    (hw : Fleet E w) {L : Local} (hL : L.Honest E) (hs : ∀ doc, GoodSigner (L.signCgka doc)) {did : Id} {r ps x : Nat} {e : EncContent}
    {o : Option SOp} (he : w.encryptContent E L did r ps x = (w', .ok (e, o))) {d : Doc} {b : Cgka}
    (hd : AMap.get k.docs did = some d) (hc : d.cgka = some b) (hkn : ∀ op, HasKeyOp E w' did op → HasKeyOp E k did op) (hf : FreshKeys b)
    {j : SOp} (hj : ¬ HasKeyOp E w' did j) (hu : ∀ s, K s → UsedFrom b (E.hashCgka did j) s) (res : Nat × AppKey) :
    (k.decryptContent E did e).2 ≠ .ok res := by
  obtain ⟨d0, a0, a', s, f1, f2, f3, f4, f5⟩ := encrypt_tree he
  have ta' := fleet_trusted hH (fleet_write hw hL hs he) f5 rfl
  have sa := (reachOk_inv (hH did) (trusted_ok ta')).graph
  refine closed_of hd hc (fun key hkey => ?_) res
  subst f4
  refine Verif.Cgka.GainProps.C58_newcomer_cannot_read (hH did) (fleet_trusted hH hk hd hc) (holder_device hp hK hd hc) (fleet_trusted hH hw f1 f2)
    (hs did) f3 (known_of hd hc f5 rfl sa hkn) hf (x := E.hashCgka did j) ?_ hu hkey
  intro hx
  rw [knows_iff] at hx
  cases ho : AMap.get a'.graph.ops (E.hashCgka did j) with
  | none => exact hx ho
  | some o' =>
    have := hH did (sa.hash _ _ ho)
    subst this
    exact hj ⟨_, a', f5, rfl, ho⟩

-- Alice's device cannot read what agent 5 wrote before making Alice a reader.
open HeldSample Verif.Keyhive.Sample Verif.Keyhive.FleetSample in
example : ∃ w' e o, born.encryptContent EH L2 300 7 8 42 = (w', .ok (e, o)) ∧ ∀ res, (joined.decryptContent EH 300 e).2 ≠ .ok res := by
  obtain ⟨d, f1, f2⟩ := doc_of joined_has
  obtain ⟨e, o, he⟩ := write_some (E := EH) (k := born) (L := L2) (by decide +kernel)
  refine ⟨_, e, o, he, fun res => C58_devices (K := keys) (.inl rfl) EH_inj joined_fleet (withKey_holder _) born_fleet (L2_honest _) L2_good he
    f1 f2 (all_of (by decide +kernel) (by decide +kernel)) (fresh_of (by decide +kernel)) (j := t3) (not_recorded (by decide +kernel)) ?_ res⟩
  · have h : ∀ q ∈ ((treeOf joined 300).get joined_has).graph.ops, (0 ∈ q.2.payload.uses ∨ 11 ∈ q.2.payload.uses) → q.1 = EH.hashCgka 300 t3 := by
      decide +kernel
    intro s hs y op hy hu
    refine .inl (h _ (AMap.mem_of_get hy) ?_)
    rcases hs with rfl | rfl
    · exact .inl hu
    · exact .inr hu

/-- **C07**, between devices. `z` removes `id` and is known to the writer, as is no later operation that gives keys to `id`. A device whose
secrets are, as far as the writer knows, only ones given to `id` cannot read what is written, even with everybody's operations. All devices run
the library; for the conditions on the history see C80. Missing: writers that know of operations concurrent with an addition or a removal. -/
theorem C07_devices_partial (hp : K publicSk) (hH : ∀ i, Function.Injective (E.hashCgka i)) {k w w' : Keyhive} (hk : Fleet E k) (hK : Holder E K k)
    (hw : Fleet E w) {L : Local} (hL : L.Honest E) (hs : ∀ doc, GoodSigner (L.signCgka doc)) {did : Id} {r ps x : Nat} {e : EncContent}
    {o : Option SOp} (he : w.encryptContent E L did r ps x = (w', .ok (e, o))) {d d' : Doc} {b a : Cgka} (hd : AMap.get k.docs did = some d)
    (hc : d.cgka = some b) (hd' : AMap.get w'.docs did = some d') (hc' : d'.cgka = some a) (h1 : ChangesApart a) (h2 : UpdatesInTurn a)
    (hkn : ∀ op, HasKeyOp E w' did op → HasKeyOp E k did op) (hf : FreshKeys b) (hdk : DistinctKeys b) {id : MemberId} {z i : Nat} {oz : SOp}
    {rk : List Pk} {qs : List Nat} (hz : AMap.get a.graph.ops z = some oz) (hrem : oz.payload = .remove id i rk qs)
    (hlast : ∀ y o, AMap.get a.graph.ops y = some o → o.payload.GivesTo id → Before a y z) (hu : ∀ s, K s → OnlyOf a id s)
    (res : Nat × AppKey) : (k.decryptContent E did e).2 ≠ .ok res := by
  obtain ⟨d0, a0, a', s, f1, f2, f3, f4, f5⟩ := encrypt_tree he
  rw [f5] at hd'
  cases hd'
  cases hc'
  have ta' := fleet_trusted hH (fleet_write hw hL hs he) f5 rfl
  have sa := (reachOk_inv (hH did) (trusted_ok ta')).graph
  refine closed_of hd hc (fun key hkey => ?_) res
  subst f4
  exact Verif.Cgka.CutOffProps.C07_removed_device_cannot_read_partial (hH did) (fleet_trusted hH hk hd hc) (holder_device hp hK hd hc)
    (fleet_trusted hH hw f1 f2) (hs did) f3 h1 h2 (known_of hd hc f5 rfl sa hkn) hf hdk hz hrem hlast hu hkey

-- Alice's device cannot read what agent 5 wrote after removing Alice.
open HeldSample Verif.Keyhive.Sample Verif.Keyhive.FleetSample Verif.Cgka.CutOffProps.Example in
example : ∃ e o, gone.encryptContent EH L2 300 7 8 42 = (after, .ok (e, o)) ∧ ∀ res, (removed.decryptContent EH 300 e).2 ≠ .ok res := by
  obtain ⟨d, f1, f2⟩ := doc_of removed_has
  obtain ⟨d', f3, f4⟩ := doc_of after_has
  obtain ⟨e, o, he⟩ := write_some (E := EH) (k := gone) (L := L2) (by decide +kernel)
  refine ⟨e, o, he, fun res => C07_devices_partial (K := keys) (.inl rfl) EH_inj removed_fleet (withKey_holder _) gone_fleet (L2_honest _) L2_good he
    f1 f2 f3 f4 (changes_of (by decide +kernel)) (turns_of (by decide +kernel)) (all_of after_has (by decide +kernel)) (fresh_of (by decide +kernel))
    (distinct_of (by decide +kernel)) (id := 1) (z := 4) (oz := t4) (by decide +kernel) rfl ?_ ?_ res⟩
  · intro y o' hy hg
    have h : ∀ q ∈ ((treeOf after 300).get after_has).graph.ops, toAlice q.2 = true → q.1 = 3 := by decide +kernel
    rw [show y = 3 from h _ (AMap.mem_of_get hy) (toAlice_of hg)]
    exact before_of (n := 9) (by decide +kernel)
  · intro s hs y o' hy hu
    have hl : users ((treeOf after 300).get after_has) (fun s => decide (s = 0 ∨ s = 11)) = [(3, t3)] := by decide +kernel
    have := users_of (p := fun s => decide (s = 0 ∨ s = 11)) (decide_eq_true hs) hy hu
    rw [hl] at this
    simp only [List.mem_singleton, Prod.mk.injEq] at this
    rw [this.2]; rfl

/-- **C08**, between devices. `z` is a key update of `id` the writer knows. A device whose secrets are, as far as the writer knows, only ones
given to `id` before `z` — stolen from `id`, say — cannot read what is written, even with everybody's operations. All devices run the library; for
the conditions on the history see C80. Missing: as for C07. -/
theorem C08_devices_partial (hp : K publicSk) (hH : ∀ i, Function.Injective (E.hashCgka i)) {k w w' : Keyhive} (hk : Fleet E k) (hK : Holder E K k)
    (hw : Fleet E w) {L : Local} (hL : L.Honest E) (hs : ∀ doc, GoodSigner (L.signCgka doc)) {did : Id} {r ps x : Nat} {e : EncContent}
    {o : Option SOp} (he : w.encryptContent E L did r ps x = (w', .ok (e, o))) {d d' : Doc} {b a : Cgka} (hd : AMap.get k.docs did = some d)
    (hc : d.cgka = some b) (hd' : AMap.get w'.docs did = some d') (hc' : d'.cgka = some a) (h1 : ChangesApart a) (h2 : UpdatesInTurn a)
    (hkn : ∀ op, HasKeyOp E w' did op → HasKeyOp E k did op) (hf : FreshKeys b) (hdk : DistinctKeys b) {id : MemberId} {z : Nat} {oz : SOp}
    {pc : PathChange} {qs : List Nat} (hz : AMap.get a.graph.ops z = some oz) (hupd : oz.payload = .update id pc qs)
    (hu : ∀ s, K s → OnlyOf a id s)
    (hold : ∀ s, K s → ∀ y o, AMap.get a.graph.ops y = some o → s ∈ o.payload.brought ∨ s ∈ o.payload.made → Before a y z)
    (res : Nat × AppKey) : (k.decryptContent E did e).2 ≠ .ok res := by
  obtain ⟨d0, a0, a', s, f1, f2, f3, f4, f5⟩ := encrypt_tree he
  rw [f5] at hd'
  cases hd'
  cases hc'
  have ta' := fleet_trusted hH (fleet_write hw hL hs he) f5 rfl
  have sa := (reachOk_inv (hH did) (trusted_ok ta')).graph
  refine closed_of hd hc (fun key hkey => ?_) res
  subst f4
  exact Verif.Cgka.CutOffProps.C08_stolen_keys_cannot_read_partial (hH did) (fleet_trusted hH hk hd hc) (holder_device hp hK hd hc)
    (fleet_trusted hH hw f1 f2) (hs did) f3 h1 h2 (known_of hd hc f5 rfl sa hkn) hf hdk hz hupd hu hold hkey

-- A device with Alice's old key cannot read what Alice wrote after replacing it.
open HeldSample Verif.Keyhive.Sample Verif.Keyhive.FleetSample Verif.Cgka.CutOffProps.Example in
example : ∃ e o, fresh.encryptContent EH LA 300 7 8 42 = (fresh', .ok (e, o)) ∧ ∀ res, (thief.decryptContent EH 300 e).2 ≠ .ok res := by
  obtain ⟨d, f1, f2⟩ := doc_of thief_has
  obtain ⟨d', f3, f4⟩ := doc_of fresh'_has
  obtain ⟨e, o, he⟩ := write_some (E := EH) (k := fresh) (L := LA) (by decide +kernel)
  have hl : users ((treeOf fresh' 300).get fresh'_has) (fun s => decide (s = 0 ∨ s = 11)) = [(3, t3)] := by decide +kernel
  refine ⟨e, o, he, fun res => C08_devices_partial (K := keys) (.inl rfl) EH_inj thief_fleet (withKey_holder _) fresh_fleet (LA_honest _) LA_good he
    f1 f2 f3 f4 (changes_of (by decide +kernel)) (turns_of (by decide +kernel)) (all_of fresh'_has (by decide +kernel)) (fresh_of (by decide +kernel))
    (distinct_of (by decide +kernel)) (id := 1) (z := 6) (oz := v4) (by decide +kernel) rfl ?_ ?_ res⟩
  · intro s hs y o' hy hu
    have := users_of (p := fun s => decide (s = 0 ∨ s = 11)) (decide_eq_true hs) hy hu
    rw [hl] at this
    simp only [List.mem_singleton, Prod.mk.injEq] at this
    rw [this.2]; rfl
  · intro s hs y o' hy hu
    have := users_of (p := fun s => decide (s = 0 ∨ s = 11)) (decide_eq_true hs) hy hu
    rw [hl] at this
    simp only [List.mem_singleton, Prod.mk.injEq] at this
    rw [this.1]; exact before_of (n := 9) (by decide +kernel)

end HeldProps

end Verif.Keyhive
