import Verif.BeeKem.Props
import Verif.BeeKem.Net
import Mathlib.Data.Nat.Pairing

/-!
# C06 when members update their keys at the same time

The statements use only `Tree.lean` (the model of `beekem/src/tree.rs`), `Spec.lean` and `NetSpec.lean`.
-/

set_option linter.dupNamespace false

namespace Verif.BeeKem.NetProps

open Verif.TreeMath Verif.BeeKem Verif.BeeKem.Spec

theorem skip_of_key {t : BeeKem} {h : Nat} (sv : BeeKem.SInv t h) {r : Sk} (hrk : t.keyD h 0 = some (.share ⟨r⟩)) :
    t.skipD h 0 = false := by
  obtain ⟨k, rfl⟩ : ∃ k, h = k + 1 := ⟨h - 1, by have := sv.shape.pos; omega⟩
  obtain ⟨j, st, v, e1, e2, e3, _⟩ := Props.rootSecret_of sv.shape hrk
  rw [sv.shape.size, BeeKem.root_eq] at e1
  simp only [TreeNodeIndex.inner.injEq] at e1
  subst e1
  simp [BeeKem.skipD, BeeKem.innerD, e2, SecretStore.hasConflict, e3]

theorem allObtain {t : BeeKem} {h : Nat} (sv : BeeKem.SInv t h) (g : BeeKem.Good t) {r : Sk}
    (hrk : t.keyD h 0 = some (.share ⟨r⟩)) : AllObtain t r := by
  intro i l hl
  have hl' := BeeKem.leafAt_iff.1 hl
  obtain ⟨a, ha⟩ := g.single.leaf i l hl'
  refine ⟨a, ha, ?_⟩
  intro keys hk hka
  obtain ⟨keys', r', g1, g2, _⟩ := BeeKem.decryptTreeSecret_ok sv.toWInv g (skip_of_key sv hrk) (sv.back i l hl') hl' ha hk hka
  rw [hrk] at g2
  simp only [Option.some.injEq, NodeKey.share.injEq, Pk.mk.injEq] at g2
  subst g2
  exact ⟨keys', g1⟩

/-- **C06, with updates made at the same time.** Whatever updates members made on top of whatever others they had seen, and in
whatever order these arrived, the next update by any member in any replica succeeds, leaves no conflict at the root, and every
member that holds the secret of its leaf key obtains from it the secret the updater obtained. Whoever installs the published path
on the tree it was made from gets the same tree. Members are added and removed while nobody updates; a member updates in one
replica. -/
theorem C06_concurrent_update_partial {t : BeeKem} (ht : Grounded t) (g : BeeKem.Gen) (c : Nat) {id : MemberId}
    (hid : t.containsId id = true) {sk : Sk} {sks : ShareKeyMap} (hsk : AMap.get sks ⟨sk⟩ = some sk) :
    ∃ t' sks' rng r pc, t.encryptPath g c id ⟨sk⟩ sks = .ok (t', sks', rng, r, pc) ∧ t.applyPath pc = .ok t' ∧
      t'.hasRootKey = .ok true ∧ RootSecret t' r ∧ AllObtain t' r := by
  obtain ⟨h, sv, hg⟩ := BeeKem.grounded_good ht
  obtain ⟨i, hi⟩ := BeeKem.contains_get.1 hid
  obtain ⟨l, hl, _⟩ := sv.ids id i hi
  obtain ⟨s', newp, ν, h1, R⟩ := BeeKem.encryptPath_ok g c sv.shape hg.single (sv.lt hi) hi hl hsk
  obtain ⟨sv', good', _⟩ := BeeKem.encryptPath_inv g c sv hg hi R
  have hap := BeeKem.applyPath_encrypt sv hg hi hl R
  have hrk := R.rootKey
  refine ⟨_, _, _, _, _, h1, hap, ?_, Props.rootSecret_of sv'.shape hrk, allObtain sv' good' hrk⟩
  rw [BeeKem.hasRootKey_ok sv'.shape, skip_of_key sv' hrk]
  rfl

/-- Everything known about a run. -/
theorem net_inv {t : BeeKem} (ht : Grounded t) {F : Nat → Nat → Sk} (hF : FreshFor F t) {n : Net} (hn : Net.Run F t n) :
    ∃ h S, BeeKem.SInv t h ∧ (∀ j u, n.sent[j]? = some u → S j = u) ∧ BeeKem.NetInv F S t h n := by
  obtain ⟨h, sv, g⟩ := BeeKem.grounded_good ht
  exact ⟨h, _, sv, fun j u hj => by simp [hj], BeeKem.netInv_run hF sv g hn
    (S := fun j => (n.sent[j]?).getD ⟨0, [], ⟨0, 0, .share ⟨0⟩, [], []⟩, 0⟩) (fun j u hj => by simp [hj])⟩

/-- **C06, with updates made at the same time.** An update that arrives after those its author had seen can always be installed. -/
theorem C06_concurrent_delivery {t : BeeKem} (ht : Grounded t) {F : Nat → Nat → Sk} (hF : FreshFor F t) {n : Net}
    (hn : Net.Run F t n) {id : MemberId} {k : Nat} {u : Sent} (hu : n.sent[k]? = some u) (hk : k ∉ (n.at_ id).seen)
    (hp : ∀ j ∈ u.past, j ∈ (n.at_ id).seen) : ∃ t', (n.at_ id).tree.applyPath u.pc = .ok t' := by
  obtain ⟨h, S, sv, hS, I⟩ := net_inv ht hF hn
  obtain ⟨t', h1, _⟩ := (I.holds id).apply (BeeKem.NetInv.apart hF I.keyed I.past I.chain) sv (I.sinv id) (I.good id) (I.ids id)
    (I.lt id) (fun j hj => I.upd j (I.lt id j hj)) (I.closed id) (List.getElem?_eq_some_iff.1 hu).1 (I.upd k (List.getElem?_eq_some_iff.1 hu).1) hk (by rw [hS k u hu]; exact hp)
  rw [hS k u hu] at h1
  exact ⟨t', h1⟩

theorem root_level {n : Net} {F : Nat → Nat → Sk} {S : Nat → Sent} {t : BeeKem} {h : Nat} (I : BeeKem.NetInv F S t h n)
    (sv : BeeKem.SInv t h) {j : Nat} (hj : j < n.sent.length) : BeeKem.lf S j / 2 ^ (h - 1 + 1) = 0 := by
  have := sv.lt (I.upd j hj).who
  have := sv.shape.pos
  rw [show h - 1 + 1 = h by omega]
  exact Nat.div_eq_of_lt (by assumption)

/-- **C06, with updates made at the same time.** A replica with at least one update has a root key exactly when one of its updates
was made by someone who had seen all the others. The group secret is then the one which that member obtained, and every member
that holds the secret of its leaf key obtains it. -/
theorem C06_concurrent_secret {t : BeeKem} (ht : Grounded t) {F : Nat → Nat → Sk} (hF : FreshFor F t) {n : Net}
    (hn : Net.Run F t n) {id : MemberId} (hne : (n.at_ id).seen ≠ []) :
    ((n.at_ id).tree.hasRootKey = .ok true ↔
      ∃ k ∈ (n.at_ id).seen, ∃ u, n.sent[k]? = some u ∧ ∀ j ∈ (n.at_ id).seen, j = k ∨ j ∈ u.past) ∧
    ∀ k ∈ (n.at_ id).seen, ∀ u, n.sent[k]? = some u → (∀ j ∈ (n.at_ id).seen, j = k ∨ j ∈ u.past) →
      RootSecret (n.at_ id).tree u.secret ∧ AllObtain (n.at_ id).tree u.secret := by
  obtain ⟨h, S, sv, hS, I⟩ := net_inv ht hF hn
  have w := I.sinv id
  have hpos := w.shape.pos
  have hh : h - 1 + 1 = h := by omega
  have vA : ∀ j ∈ (n.at_ id).seen, BeeKem.Valid S t h j := fun j hj => I.upd j (I.lt id j hj)
  have hlv : ∀ j ∈ (n.at_ id).seen, BeeKem.lf S j / 2 ^ (h - 1 + 1) = 0 := fun j hj => root_level I sv (I.lt id j hj)
  obtain ⟨x, hx⟩ := List.exists_mem_of_ne_nil _ hne
  rcases (I.holds id).inner (h - 1) 0 (by omega) with ⟨a1, _⟩ | ⟨js, a0, a1, a2, a3⟩
  · exact absurd (hlv x hx) (a1 x hx)
  · have huniq : ∀ k ∈ (n.at_ id).seen, (∀ j ∈ (n.at_ id).seen, j = k ∨ j ∈ (S k).past) → js = [k] := by
      intro k hk hall
      have hin : ∀ j ∈ js, j = k := by
        intro j hj
        have hT := (a2 j).1 hj
        rcases hall j hT.1 with he | he
        · exact he
        · exact absurd he (hT.2.2 k hk (hlv k hk))
      match js, a0, a1, hin with
      | [], a0, _, _ => exact absurd rfl a0
      | [j], _, _, hin => rw [hin j (by simp)]
      | j :: j2 :: more, _, a1, hin =>
        have e1 := hin j (by simp)
        have e2 := hin j2 (by simp)
        simp [e1, e2] at a1
    have hskip : (n.at_ id).tree.hasRootKey = .ok true ↔ ∃ k, js = [k] := by
      rw [BeeKem.hasRootKey_ok w.shape, ← hh]
      simp only [BeeKem.skipD, a3, SecretStore.hasConflict, List.length_map, Except.ok.injEq, Bool.not_eq_true',
        decide_eq_false_iff_not]
      match js, a0 with
      | [], a0 => exact absurd rfl a0
      | [j], _ => simp
      | j :: j2 :: more, _ => simp
    constructor
    · rw [hskip]
      constructor
      · rintro ⟨k, rfl⟩
        have hT := (a2 k).1 (by simp)
        have hlt := I.lt id k hT.1
        refine ⟨k, hT.1, n.sent[k], List.getElem?_eq_getElem hlt, ?_⟩
        intro j hj
        have hb := BeeKem.below_top (BeeKem.NetInv.apart hF I.keyed I.past I.chain) (I.lt id) (vA k hT.1) (fun x hx => by simpa using (a2 x).2 hx) j hj (hlv j hj)
        rw [hS k _ (List.getElem?_eq_getElem hlt)] at hb
        exact hb
      · rintro ⟨k, hk, u, hu, hall⟩
        exact ⟨k, huniq k hk (by rw [hS k u hu]; exact hall)⟩
    · intro k hk u hu hall
      have hjs := huniq k hk (by rw [hS k u hu]; exact hall)
      subst hjs
      have hkey := BeeKem.keyD_single (t := (n.at_ id).tree) (l := h - 1) (m := 0) a3
      rw [hh, I.secret k (I.lt id k hk), hS k u hu] at hkey
      exact ⟨Props.rootSecret_of w.shape hkey, allObtain w (I.good id) hkey⟩

/-- **C06, with updates made at the same time.** Replicas with the same updates have the same leaf keys and the same group secret,
or none, in whatever order the updates arrived. -/
theorem C06_concurrent_agree {t : BeeKem} (ht : Grounded t) {F : Nat → Nat → Sk} (hF : FreshFor F t) {n : Net}
    (hn : Net.Run F t n) {p q : MemberId} (hs : SameSeen (n.at_ p) (n.at_ q)) :
    (∀ i l, LeafAt (n.at_ p).tree i l ↔ LeafAt (n.at_ q).tree i l) ∧
    (n.at_ p).tree.hasRootKey = (n.at_ q).tree.hasRootKey ∧
    ∀ r, RootSecret (n.at_ p).tree r → RootSecret (n.at_ q).tree r ∧ AllObtain (n.at_ p).tree r ∧ AllObtain (n.at_ q).tree r := by
  obtain ⟨h, S, sv, hS, I⟩ := net_inv ht hF hn
  have vA : ∀ j ∈ (n.at_ p).seen, BeeKem.Valid S t h j := fun j hj => I.upd j (I.lt p j hj)
  have hlike : ∀ k m, BeeKem.Like (n.at_ p).tree (n.at_ q).tree k m := fun k m =>
    (I.holds p).like (BeeKem.NetInv.apart hF I.keyed I.past I.chain) sv (I.sinv p).shape (I.sinv q).shape (I.holds q) (I.lt p) vA (fun x _ => hs x)
  refine ⟨?_, ?_, ?_⟩
  · intro i l
    rw [BeeKem.leafAt_iff, BeeKem.leafAt_iff]
    rcases hlike 0 i with h1 | ⟨h1, _⟩
    · rw [show (n.at_ p).tree.leafD i = (n.at_ q).tree.leafD i from h1]
    · omega
  · rw [BeeKem.hasRootKey_ok (I.sinv p).shape, BeeKem.hasRootKey_ok (I.sinv q).shape, (hlike h 0).skip]
  · intro r hr
    have hkey : (n.at_ p).tree.keyD h 0 = some (.share ⟨r⟩) := by
      obtain ⟨j, st, v, e1, e2, e3, e4⟩ := hr
      have hh : h - 1 + 1 = h := by have := (I.sinv p).shape.pos; omega
      rw [(I.sinv p).shape.size, ← hh, BeeKem.root_eq] at e1
      simp only [TreeNodeIndex.inner.injEq] at e1
      subst e1
      have : (n.at_ p).tree.innerD (nodeInner (h - 1) 0) = some ⟨[v]⟩ := by
        unfold BeeKem.innerD
        rw [e2]
        rcases st with ⟨vs⟩
        simp only at e3
        rw [e3]
        rfl
      have hk := BeeKem.keyD_single this
      rw [hh, e4] at hk
      exact hk
    have hsk := skip_of_key (I.sinv p) hkey
    have hkey' : (n.at_ q).tree.keyD h 0 = some (.share ⟨r⟩) := by
      rw [← ((hlike h 0).same hsk).key]; exact hkey
    exact ⟨Props.rootSecret_of (I.sinv q).shape hkey', allObtain (I.sinv p) (I.good p) hkey, allObtain (I.sinv q) (I.good q) hkey'⟩

/-! ## The hypotheses are met by concrete, non-trivial cases -/

namespace Sample

def got {α : Type} (d : α) (r : Res α) : α := Props.Sample.get d r

def none0 : BeeKem := Props.Sample.none0

/-- Secrets for updates: from 100 on, all different. -/
def F (k i : Nat) : Nat := 100 + Nat.pair k i

/-- Alice (1), Bob (2), Carol (3) and Dave (4), nobody has updated yet. -/
def t3 : BeeKem := (got (none0, 0) (Props.Sample.t2.pushLeaf 4 (.share ⟨8⟩))).1

theorem ground : Grounded t3 := by
  have h0 : Grounded Props.Sample.t0 := .new (id := 1) (sk := 2) (by decide +kernel)
  have h1 : Grounded Props.Sample.t1 := .add (id := 2) (sk := 4) (i := 1) h0 (by decide +kernel) (by decide +kernel)
  have h2 : Grounded Props.Sample.t2 := .add (id := 3) (sk := 6) (i := 2) h1 (by decide +kernel) (by decide +kernel)
  exact .add (id := 4) (sk := 8) (i := 3) h2 (by decide +kernel) (by decide +kernel)

theorem fresh : FreshFor F t3 := by
  constructor
  · intro k i k' i' h
    have h : 100 + Nat.pair k i = 100 + Nat.pair k' i' := h
    have : Nat.pair k i = Nat.pair k' i' := by omega
    exact Nat.pair_eq_pair.1 this
  · intro k i hp
    have h1 : ∀ o ∈ t3.leaves, ∀ l ∈ o, ∀ x ∈ l.pk.keys, x.of < 100 := by decide +kernel
    have h2 : ∀ o ∈ t3.innerNodes, o = none := by decide +kernel
    rcases hp with ⟨j, l, hl, hx⟩ | ⟨j, st, hj, _⟩
    · have := h1 _ (List.mem_of_getElem? hl) l rfl _ hx
      have : 100 + Nat.pair k i < 100 := this
      omega
    · have := h2 _ (List.mem_of_getElem? hj)
      simp at this

abbrev Upd := BeeKem × ShareKeyMap × Nat × Sk × PathChange

def upd (t : BeeKem) (id k : Nat) : Upd :=
  got (none0, [], 0, 0, ⟨0, 0, .share ⟨0⟩, [], []⟩) (t.encryptPath (fun i => F k (i + 1)) 0 id ⟨F k 0⟩ [(⟨F k 0⟩, F k 0)])

def inst (t : BeeKem) (u : Upd) : BeeKem := got none0 (t.applyPath u.2.2.2.2)

/-- Alice, Carol and Dave update at the same time (updates 0, 1 and 2). -/
def ua : Upd := upd t3 1 0
def uc : Upd := upd t3 3 1
def ud : Upd := upd t3 4 2
/-- Bob gets them in one order, Alice gets the others' in another order. -/
def b1 : BeeKem := inst t3 ud
def b2 : BeeKem := inst b1 ua
def b3 : BeeKem := inst b2 uc
def a2 : BeeKem := inst ua.1 uc
def a3 : BeeKem := inst a2 ud
/-- Bob then updates (update 3), and Alice gets it. -/
def ub : Upd := upd b3 2 3
def a4 : BeeKem := inst a3 ub

def sent : List Sent := [⟨1, [], ua.2.2.2.2, ua.2.2.2.1⟩, ⟨3, [], uc.2.2.2.2, uc.2.2.2.1⟩, ⟨4, [], ud.2.2.2.2, ud.2.2.2.1⟩]
def sent4 : List Sent := sent ++ [⟨2, [1, 0, 2], ub.2.2.2.2, ub.2.2.2.1⟩]

def n0 : Net := ⟨fun _ => ⟨t3, []⟩, []⟩
def n1 : Net := ⟨n0.put 1 ⟨ua.1, [0]⟩, sent.take 1⟩
def n2 : Net := ⟨n1.put 3 ⟨uc.1, [1]⟩, sent.take 2⟩
def n3 : Net := ⟨n2.put 4 ⟨ud.1, [2]⟩, sent⟩
def n4 : Net := { n3 with at_ := n3.put 2 ⟨b1, [2]⟩ }
def n5 : Net := { n4 with at_ := n4.put 2 ⟨b2, [0, 2]⟩ }
def n6 : Net := { n5 with at_ := n5.put 2 ⟨b3, [1, 0, 2]⟩ }
def n7 : Net := { n6 with at_ := n6.put 1 ⟨a2, [1, 0]⟩ }
def n8 : Net := { n7 with at_ := n7.put 1 ⟨a3, [2, 1, 0]⟩ }
def n9 : Net := ⟨n8.put 2 ⟨ub.1, [3, 1, 0, 2]⟩, sent4⟩
def n10 : Net := { n9 with at_ := n9.put 1 ⟨a4, [3, 2, 1, 0]⟩ }

theorem run8 : Net.Run F t3 n8 := by
  have r0 : Net.Run F t3 n0 := .start
  have r1 : Net.Run F t3 n1 := .step r0 (.update (id := 1) (c := 0) (sks := [(⟨F 0 0⟩, F 0 0)]) (by decide +kernel)
    (show t3.encryptPath _ 0 1 _ _ = .ok ua by decide +kernel))
  have r2 : Net.Run F t3 n2 := .step r1 (.update (id := 3) (c := 0) (sks := [(⟨F 1 0⟩, F 1 0)]) (by decide +kernel)
    (show t3.encryptPath _ 0 3 _ _ = .ok uc by decide +kernel))
  have r3 : Net.Run F t3 n3 := .step r2 (.update (id := 4) (c := 0) (sks := [(⟨F 2 0⟩, F 2 0)]) (by decide +kernel)
    (show t3.encryptPath _ 0 4 _ _ = .ok ud by decide +kernel))
  have r4 : Net.Run F t3 n4 := .step r3 (.deliver (id := 2) (k := 2) (u := ⟨4, [], ud.2.2.2.2, ud.2.2.2.1⟩) rfl (by decide +kernel)
    (by simp) (show t3.applyPath _ = .ok b1 by decide +kernel))
  have r5 : Net.Run F t3 n5 := .step r4 (.deliver (id := 2) (k := 0) (u := ⟨1, [], ua.2.2.2.2, ua.2.2.2.1⟩) rfl (by decide +kernel)
    (by simp) (show b1.applyPath _ = .ok b2 by decide +kernel))
  have r6 : Net.Run F t3 n6 := .step r5 (.deliver (id := 2) (k := 1) (u := ⟨3, [], uc.2.2.2.2, uc.2.2.2.1⟩) rfl (by decide +kernel)
    (by simp) (show b2.applyPath _ = .ok b3 by decide +kernel))
  have r7 : Net.Run F t3 n7 := .step r6 (.deliver (id := 1) (k := 1) (u := ⟨3, [], uc.2.2.2.2, uc.2.2.2.1⟩) rfl (by decide +kernel)
    (by simp) (show ua.1.applyPath _ = .ok a2 by decide +kernel))
  exact .step r7 (.deliver (id := 1) (k := 2) (u := ⟨4, [], ud.2.2.2.2, ud.2.2.2.1⟩) rfl (by decide +kernel)
    (by simp) (show a2.applyPath _ = .ok a3 by decide +kernel))

theorem run10 : Net.Run F t3 n10 := by
  have r9 : Net.Run F t3 n9 := .step run8 (.update (id := 2) (c := 0) (sks := [(⟨F 3 0⟩, F 3 0)]) (by decide +kernel)
    (show b3.encryptPath _ 0 2 _ _ = .ok ub by decide +kernel))
  exact .step r9 (.deliver (id := 1) (k := 3) (u := ⟨2, [1, 0, 2], ub.2.2.2.2, ub.2.2.2.1⟩) rfl (by decide +kernel)
    (by decide +kernel) (show a3.applyPath _ = .ok a4 by decide +kernel))

/-- After the three concurrent updates nobody has a root key, Alice's and Bob's trees differ in the order of conflicting keys, and
the theorems apply: Bob can update, and then Alice obtains Bob's secret although Alice got the updates in another order. -/
example : Grounded b3 ∧ SameSeen (n8.at_ 1) (n8.at_ 2) ∧ a3 ≠ b3 ∧ a3.hasRootKey = .ok false ∧ b3.hasRootKey = .ok false ∧
    RootSecret a4 ub.2.2.2.1 ∧ AllObtain a4 ub.2.2.2.1 ∧
    ∃ keys, a4.decryptTreeSecret 1 [(⟨F 0 0⟩, F 0 0)] = .ok (keys, ub.2.2.2.1) := by
  have hg : Grounded (n8.at_ 2).tree := .updates 2 ground fresh run8
  have hs := (C06_concurrent_secret ground fresh run10 (id := 1) (by decide +kernel)).2 3 (by decide +kernel) _ rfl
    (by decide +kernel)
  refine ⟨hg, ?_, by decide +kernel, by decide +kernel, by decide +kernel, hs.1, hs.2, ?_⟩
  · intro k
    change k ∈ [2, 1, 0] ↔ k ∈ [1, 0, 2]
    simp only [List.mem_cons, List.not_mem_nil, or_false]
    omega
  · exact ⟨(got ([], 0) (a4.decryptTreeSecret 1 [(⟨F 0 0⟩, F 0 0)])).1, by decide +kernel⟩

end Sample

end Verif.BeeKem.NetProps
