import Verif.Cgka.NearLemmas
import Verif.Cgka.TogetherSpec
import Verif.Cgka.MembersProps
import Verif.BeeKem.Net

/-! # Helper lemmas: replicas of groups in which members update their keys at the same time -/

namespace Verif.Cgka

open Verif.BeeKem Relation BeeKem

/-- An addition or a removal. -/
def ChangeG (g : Graph) (x : Nat) : Prop := ∃ o, AMap.get g.ops x = some o ∧ o.payload.isStructural = true

/-- Additions and removals are concurrent with nothing, nobody updates twice at the same time, node keys are new. -/
structure TogetherG (g : Graph) : Prop where
  changes : ∀ x y, ChangeG g x → AMap.get g.ops y ≠ none → y = x ∨ TransGen g.Pred x y ∨ TransGen g.Pred y x
  turns : ∀ x y ox oy id pc ps pc' ps', AMap.get g.ops x = some ox → AMap.get g.ops y = some oy →
    ox.payload = .update id pc ps → oy.payload = .update id pc' ps' → x = y ∨ TransGen g.Pred x y ∨ TransGen g.Pred y x
  fresh : ∀ x y ox oy s, AMap.get g.ops x = some ox → AMap.get g.ops y = some oy → s ∈ ox.payload.made →
    (s ∈ oy.payload.made → x = y) ∧ s ∉ oy.payload.brought

theorem structural_iff (p : Payload) : p.isStructural = true ↔ ∀ id pc ps, p ≠ .update id pc ps := by
  cases p <;> simp [Payload.isStructural]

theorem together_of {H : SOp → Nat} {c : Cgka} (h : GInv H c.graph) (h1 : ChangesApart c) (h2 : UpdatesInTurn c)
    (h3 : FreshKeys c) : TogetherG c.graph := by
  refine ⟨?_, ?_, h3⟩
  · rintro x y ⟨o, ho, hp⟩ hy
    have := h1 x y ⟨o, ho, (structural_iff _).1 hp⟩ ((knows_iff c y).2 hy)
    simpa only [before_iff h] using this
  · intro x y ox oy id pc ps pc' ps' hx hy px py
    have := h2 x y ox oy id pc ps pc' ps' hx hy px py
    simpa only [before_iff h] using this

theorem ChangeG.known {g : Graph} {x : Nat} (h : ChangeG g x) : AMap.get g.ops x ≠ none := by
  obtain ⟨o, ho, _⟩ := h; rw [ho]; simp

/-- `R` is the last addition or removal. -/
structure LastC (g : Graph) (R : Nat) : Prop where
  change : ChangeG g R
  last : ∀ y, ChangeG g y → y = R ∨ TransGen g.Pred y R

theorem LastC.cut {g : Graph} (T : TogetherG g) {R : Nat} (hR : LastC g R) {z : Nat} (hz : AMap.get g.ops z ≠ none) :
    (z = R ∨ TransGen g.Pred z R) ∨ TransGen g.Pred R z := by
  rcases T.changes R z hR.change hz with e | e | e
  · exact .inl (.inl e)
  · exact .inr e
  · exact .inl (.inr e)

theorem TogetherG.serial {g : Graph} (T : TogetherG g) : SerialG g := by
  rintro x y ⟨o, id, i, ks, ps, ho, hp⟩ hy
  exact T.changes x y ⟨o, ho, by rw [hp]; rfl⟩ hy

/-- What came after `R` is an update. -/
theorem LastC.update {H : SOp → Nat} {g : Graph} (h : GInv H g) {R : Nat} (hR : LastC g R) {z : Nat} (hz : TransGen g.Pred R z) :
    ∃ o id pc ps, AMap.get g.ops z = some o ∧ o.payload = .update id pc ps := by
  have hk : AMap.get g.ops z ≠ none := by
    obtain ⟨q, _, hq⟩ := TransGen.tail'_iff.1 hz
    exact (h.known_pred hq).2
  cases ho : AMap.get g.ops z with
  | none => exact absurd ho hk
  | some o =>
    have hn : ¬ o.payload.isStructural = true := by
      intro hs
      rcases hR.last z ⟨o, ho, hs⟩ with rfl | e
      · exact acyc h hz
      · exact acyc h (hz.trans e)
    cases hp : o.payload with
    | add id pk i ps qs => rw [hp] at hn; simp [Payload.isStructural] at hn
    | remove id i ks ps => rw [hp] at hn; simp [Payload.isStructural] at hn
    | update id pc ps => exact ⟨o, id, pc, ps, rfl, hp⟩

section
variable {H : SOp → Nat} (hH : Function.Injective H)
include hH

theorem change_iff {g g' : Graph} (h : GInv H g) (h' : GInv H g') {x : Nat} (hx : AMap.get g.ops x ≠ none)
    (hx' : AMap.get g'.ops x ≠ none) : ChangeG g x ↔ ChangeG g' x := by
  unfold ChangeG
  rw [ops_agree hH h h' hx hx']

theorem TogetherG.sub {g g' : Graph} (h : GInv H g) (h' : GInv H g') (hk : KnownIn g g') (T : TogetherG g') : TogetherG g := by
  have s := sub_of_known hH h h' hk
  refine ⟨?_, ?_, ?_⟩
  · intro x y hx hy
    rcases T.changes x y ((change_iff hH h h' hx.known (hk x hx.known)).1 hx) (hk y hy) with e | e | e
    · exact .inl e
    · exact .inr (.inl (past_agree hH h h' hy e).2)
    · exact .inr (.inr (past_agree hH h h' hx.known e).2)
  · intro x y ox oy id pc ps pc' ps' hx hy px py
    rcases T.turns x y ox oy id pc ps pc' ps' (s _ _ hx) (s _ _ hy) px py with e | e | e
    · exact .inl e
    · exact .inr (.inl (past_agree hH h h' (by rw [hy]; simp) e).2)
    · exact .inr (.inr (past_agree hH h h' (by rw [hx]; simp) e).2)
  · intro x y ox oy k hx hy
    exact T.fresh x y ox oy k (s _ _ hx) (s _ _ hy)

theorem LastC.sub {g g' : Graph} (h : GInv H g) (h' : GInv H g') (hk : KnownIn g g') {R : Nat} (hR : LastC g' R)
    (hRk : AMap.get g.ops R ≠ none) : LastC g R := by
  refine ⟨(change_iff hH h h' hRk (hk R hRk)).2 hR.change, ?_⟩
  intro y hy
  rcases hR.last y ((change_iff hH h h' hy.known (hk y hy.known)).1 hy) with e | e
  · exact .inl e
  · exact .inr (past_agree hH h h' hRk e).2

theorem together_oneRoot {c : Cgka} (hc : Trusted H c) (T : TogetherG c.graph) : OneRootG c.graph := by
  have sc := reachOk_inv hH (trusted_ok hc)
  have key : ∀ a, AMap.get c.graph.ops a ≠ none → (∀ p, ¬ c.graph.Pred p a) → ChangeG c.graph a := by
    intro a ha hp
    obtain ⟨v, v1, v2, v3, v4⟩ := trusted_maker hH hc a ha
    have sv := reachOk_inv hH (trusted_ok v1)
    rcases v4 with ⟨id, pk, op, hf, hn, rfl⟩ | ⟨m, op, t, hm, hmk, hg, rfl⟩
    · have hop : AMap.get v.graph.ops (H op) = some op := by
        unfold Cgka.newFromInitAdd at hn
        simp only [bind, Except.bind] at hn
        split at hn
        · simp at hn
        · cases hn
          exact AMap.get_insert_self _ _ _
      refine ⟨op, sub_of_known hH sv.graph sc.graph v3 _ _ hop, ?_⟩
      obtain ⟨_, _, hf⟩ := hf
      rw [hf]; rfl
    · exfalso
      have sm := reachOk_inv hH (trusted_ok hm)
      obtain ⟨k1, k2, k3, k4, k5, k6⟩ := maker_lt hH sv sm hg hmk v3
      obtain ⟨s, hs⟩ := List.exists_mem_of_ne_nil _ sm.graph.ne
      exact hp s ((sc.graph.predOf _ _).2 ⟨op, sub_of_known hH sv.graph sc.graph v3 _ _ k4, (hmk.preds s).2 hs⟩)
  intro a b ha hb ra rb
  rcases T.changes a b (key a ha ra) hb with e | e | e
  · exact e.symm
  · obtain ⟨q, _, hq⟩ := TransGen.tail'_iff.1 e
    exact absurd hq (rb q)
  · obtain ⟨q, _, hq⟩ := TransGen.tail'_iff.1 e
    exact absurd hq (ra q)

omit hH in
theorem lastC_exists {c : Cgka} (h : SInv H c) (T : TogetherG c.graph) : ∃ R, LastC c.graph R := by
  have key : ∀ l : List Nat, ∃ R, ChangeG c.graph R ∧ ∀ y ∈ l, ChangeG c.graph y → y = R ∨ TransGen c.graph.Pred y R := by
    intro l
    induction l with
    | nil =>
      refine ⟨H c.initAddOp, ⟨_, h.root.1, ?_⟩, by simp⟩
      obtain ⟨_, _, hf⟩ := h.root.2
      rw [hf]; rfl
    | cons z l ih =>
      obtain ⟨R, r1, r3⟩ := ih
      by_cases hz : ChangeG c.graph z
      · rcases T.changes z R hz r1.known with e | e | e
        · refine ⟨R, r1, ?_⟩
          intro y hy hr
          rcases List.mem_cons.1 hy with rfl | hy
          · exact .inl e.symm
          · exact r3 y hy hr
        · refine ⟨R, r1, ?_⟩
          intro y hy hr
          rcases List.mem_cons.1 hy with rfl | hy
          · exact .inr e
          · exact r3 y hy hr
        · refine ⟨z, hz, ?_⟩
          intro y hy hr
          rcases List.mem_cons.1 hy with rfl | hy
          · exact .inl rfl
          · rcases r3 y hy hr with rfl | e'
            · exact .inr e
            · exact .inr (e'.trans e)
      · refine ⟨R, r1, ?_⟩
        intro y hy hr
        rcases List.mem_cons.1 hy with rfl | hy
        · exact absurd hr hz
        · exact r3 y hy hr
  obtain ⟨R, r1, r3⟩ := key (AMap.keys c.graph.ops)
  refine ⟨R, r1, fun y hy => r3 y ?_ hy⟩
  rw [AMap.mem_keys_iff]
  have := hy.known
  cases hg : AMap.get c.graph.ops y with
  | none => exact absurd hg this
  | some o => simp

end

/-! ## The updates after the last change, as in `BeeKem.Net` -/

/-- The author and the path of an update. -/
def updateAt (g : Graph) (x : Nat) : MemberId × PathChange :=
  match AMap.get g.ops x with
  | some o => match o.payload with
    | .update id pc _ => (id, pc)
    | _ => (0, ⟨0, 0, .share ⟨0⟩, [], []⟩)
  | none => (0, ⟨0, 0, .share ⟨0⟩, [], []⟩)

open Classical in
/-- The updates after `R`. -/
noncomputable def sent (g : Graph) (R : Nat) (x : Nat) : Spec.Sent :=
  ⟨(updateAt g x).1, (AMap.keys g.ops).filter (fun y => decide (TransGen g.Pred R y ∧ TransGen g.Pred y x)), (updateAt g x).2, 0⟩

theorem sent_past {H : SOp → Nat} {g : Graph} (h : GInv H g) {R x y : Nat} :
    y ∈ (sent g R x).past ↔ TransGen g.Pred R y ∧ TransGen g.Pred y x := by
  unfold sent
  simp only [List.mem_filter, decide_eq_true_eq, and_iff_right_iff_imp]
  rintro ⟨_, h2⟩
  rw [AMap.mem_keys_iff]
  obtain ⟨q, hq, _⟩ := TransGen.head'_iff.1 h2
  have := (h.known_pred hq).1
  cases hg : AMap.get g.ops y with
  | none => exact absurd hg this
  | some o => simp

theorem updateAt_of {g : Graph} {x : Nat} {o : SOp} {id : MemberId} {pc : PathChange} {ps : List Nat}
    (ho : AMap.get g.ops x = some o) (hp : o.payload = .update id pc ps) : updateAt g x = (id, pc) := by
  unfold updateAt
  rw [ho]
  simp only [hp]

theorem holds_congr {S : Nat → Spec.Sent} {t0 : BeeKem} {h : Nat} {A B : List Nat} {t : BeeKem} (hA : Holds S t0 h A t)
    (hAB : ∀ x, x ∈ A ↔ x ∈ B) : Holds S t0 h B t := by
  constructor
  · intro i
    rcases hA.leaf i with ⟨a1, a2⟩ | ⟨j, a1, a2⟩
    · exact .inl ⟨fun j hj => a1 j ((hAB j).2 hj), a2⟩
    · exact .inr ⟨j, a1.congr (fun x _ => hAB x), a2⟩
  · intro l m hl
    rcases hA.inner l m hl with ⟨a1, a2⟩ | ⟨js, a0, a1, a2, a3⟩
    · exact .inl ⟨fun j hj => a1 j ((hAB j).2 hj), a2⟩
    · refine .inr ⟨js, a0, a1, fun j => ?_, a3⟩
      rw [a2]
      exact ⟨fun ht => ht.congr (fun x _ => hAB x), fun ht => ht.congr (fun x _ => (hAB x).symm)⟩

theorem nodeKey_share {st : SecretStore} {s : Sk} (h : st.nodeKey = .ok (.share ⟨s⟩)) : st.versions.map (·.pk.of) = [s] := by
  unfold SecretStore.nodeKey NodeKey.ofSlice at h
  split at h
  · simp at h
  · rename_i p hp
    cases h
    rw [show (fun v : SecretStoreVersion => v.pk.of) = Pk.of ∘ (·.pk) from rfl, ← List.map_map, hp]
    rfl
  · simp at h

/-- The keys on the path of an update, from the leaf up. -/
theorem encRes_made {g : BeeKem.Gen} {s s' : BeeKem.EncState} {h i : Nat} {newp : List (Nat × SecretStore)} {ν : Nat → Nat}
    (R : BeeKem.EncRes g s s' h 0 i newp ν) :
    newp.flatMap (fun q => q.2.versions.map (·.pk.of)) = (List.range h).map (fun l => g (ν l)) := by
  have h1 : newp.flatMap (fun q => q.2.versions.map (·.pk.of)) =
      (newp.map (·.1)).flatMap (fun j => match s'.tree.innerD j with | some st => st.versions.map (·.pk.of) | none => []) := by
    rw [List.flatMap_map]
    apply List.flatMap_congr
    intro q hq
    rw [R.pathVal q hq]
  rw [h1, R.pathIdx, BeeKem.above, List.flatMap_map, List.map_eq_flatMap, Nat.sub_zero]
  apply List.flatMap_congr
  intro l hl
  have hl : l < h := by simpa using hl
  have hk := R.nuKey l (Nat.zero_le _) hl
  simp only [Nat.zero_add]
  unfold BeeKem.keyD at hk
  simp only at hk
  cases hst : s'.tree.innerD (TreeMath.nodeInner l (i / 2 ^ (l + 1))) with
  | none => simp [hst] at hk
  | some st =>
    simp only [hst, Option.bind_some] at hk
    simp only
    refine nodeKey_share ?_
    cases hn : st.nodeKey with
    | error e => simp [hn, Except.toOption] at hk
    | ok nk => simpa [hn, Except.toOption] using hk

/-- What an update has made, seen from the tree right after it: one key for each node above leaf `i`, sealed with keys from below the node or with
one of them and a throw-away key. -/
def Sealed (p : Payload) (t : BeeKem) (h i : Nat) : Prop :=
  ∃ σ : Nat → Sk, (∀ l, l < h → BeeKem.Sole t (l + 1) (i / 2 ^ (l + 1)) (σ l)) ∧ p.made = (List.range h).map σ ∧
    ∀ e ∈ p.ciphers, ∃ l, l < h ∧ e.plain = σ l ∧ ∃ a b, e.key = deriveSymmetricKey a ⟨b⟩ ∧
      BeeKem.SoleBelow t (l + 1) (i / 2 ^ (l + 1)) a ∧ (BeeKem.SoleBelow t (l + 1) (i / 2 ^ (l + 1)) b ∨ b ∈ p.brought)

theorem made_sealed {t t' : BeeKem} {h : Nat} (sv : BeeKem.SInv t h) (gd : Good t) {g : BeeKem.Gen} {n n' : Nat} {id : MemberId} {sk kr : Sk}
    {sks sks' : ShareKeyMap} {pc : PathChange} (hsk : AMap.get sks ⟨sk⟩ = some sk)
    (he : t.encryptPath g n id ⟨sk⟩ sks = .ok (t', sks', n', kr, pc)) (ps : List Nat) :
    Sealed (.update id pc ps) t' h pc.leafIdx := by
  obtain ⟨i, hid⟩ : ∃ i', AMap.get t.idToLeafIdx id = some i' := by
    cases hgt : AMap.get t.idToLeafIdx id with
    | some i' => exact ⟨i', rfl⟩
    | none =>
      unfold BeeKem.encryptPath BeeKem.leafIndexForId at he
      simp [hgt, bind, Except.bind] at he
  have hi := sv.lt hid
  obtain ⟨l, hl, _⟩ := sv.ids id i hid
  obtain ⟨s', newp, ν, h1, R⟩ := BeeKem.encryptPath_ok g n sv.shape gd.single hi hid hl hsk
  rw [he] at h1
  simp only [Except.ok.injEq, Prod.mk.injEq] at h1
  obtain ⟨rfl, rfl, rfl, rfl, rfl⟩ := h1
  refine ⟨fun l => g (ν l), fun l hl => R.nuKey l (Nat.zero_le _) hl, encRes_made R, ?_⟩
  intro e he
  obtain ⟨l', _, c1, c2, a, b, c3, c4, c5⟩ := R.ciphers e he
  refine ⟨l', c1, c2, a, b, c3, ?_, ?_⟩
  · have := c4.up
    rw [← BeeKem.div_pow_succ] at this
    exact this
  · rcases c5 with c5 | ⟨_, _, _, _, _, q, hq, v, hv, z, c6, c7⟩
    · left
      have := c5.up
      rw [BeeKem.sib_div, ← BeeKem.div_pow_succ] at this
      exact this
    · right
      refine List.mem_append_right _ (List.mem_flatMap.2 ⟨q, hq, List.mem_flatMap.2 ⟨v, hv, ?_⟩⟩)
      rw [c6]
      simp [c7]

/-- What a replay of a replica `m`, which knows `R`, gives. -/
structure Comes (g : Graph) (R : Nat) (t0 : BeeKem) (h : Nat) (m : Cgka) (t : BeeKem) : Prop where
  sinv : BeeKem.SInv t h
  good : Good t
  ids : t.idToLeafIdx = t0.idToLeafIdx
  holds : ∃ A, (∀ x, x ∈ A ↔ AMap.get m.graph.ops x ≠ none ∧ TransGen g.Pred R x) ∧ Holds (sent g R) t0 h A t

/-- What is known of an update `k` after `R`. -/
structure Update (g : Graph) (R : Nat) (t0 : BeeKem) (h k : Nat) : Prop where
  valid : Valid (sent g R) t0 h k
  vers : ∃ o id pc ps, AMap.get g.ops k = some o ∧ o.payload = .update id pc ps ∧
    ∀ l, l < h → ver (sent g R) k l ∈ pc.path.flatMap (fun q => q.2.versions)
  before : ∃ T T', BeeKem.SInv T h ∧ Good T ∧ T.idToLeafIdx = t0.idToLeafIdx ∧ Holds (sent g R) t0 h ((sent g R k).past) T ∧
    T.applyPath (sent g R k).pc = .ok T' ∧ BeeKem.SInv T' h ∧ Good T' ∧
    Sealed (.update (sent g R k).who (sent g R k).pc []) T' h (lf (sent g R) k)

theorem applyOps_append (H : SOp → Nat) (a b : List SOp) (c : Cgka) :
    c.applyOps H (a ++ b) = (c.applyOps H a).bind (fun r => r.applyOps H b) := by
  induction a generalizing c with
  | nil => rfl
  | cons o a ih =>
    simp only [List.cons_append, Cgka.applyOps, bind, Except.bind]
    split
    · rfl
    · exact ih _

/-- Epochs of updates are applied one update after the other. -/
theorem applyEpochs_updates (H : SOp → Nat) (es : List (List SOp)) (hu : ∀ o ∈ es.flatten, o.payload.isStructural = false) (c : Cgka) :
    c.applyEpochs H es = c.applyOps H es.flatten := by
  induction es generalizing c with
  | nil => rfl
  | cons e es ih =>
    have hc : ∀ c : Cgka, c.applyEpoch H e = c.applyOps H e := by
      intro c
      unfold Cgka.applyEpoch
      rw [if_pos]
      right
      rw [List.all_eq_true]
      intro o ho
      rw [hu o (by rw [List.flatten_cons]; exact List.mem_append_left _ ho)]
      rfl
    rw [List.flatten_cons, applyOps_append]
    simp only [Cgka.applyEpochs, bind, Except.bind, hc]
    split
    · rfl
    · exact ih (fun o ho => hu o (by rw [List.flatten_cons]; exact List.mem_append_right _ ho)) _

/-- Updates after `R` are applied to a tree that holds what they build on. -/
theorem applyOps_updates {H : SOp → Nat} {g : Graph} (hg : GInv H g) {R : Nat} {t0 : BeeKem} {h : Nat} {U : Nat → Prop}
    (ap : Apart (sent g R) t0 h U) (sv : BeeKem.SInv t0 h) (g0 : Good t0) (hU : ∀ x, U x → Update g R t0 h x)
    (hUc : ∀ x, U x → ∀ y ∈ (sent g R x).past, U y) (l : List SOp) :
    ∀ (A : List Nat) (c : Cgka), BeeKem.SInv c.tree h → Good c.tree → c.tree.idToLeafIdx = t0.idToLeafIdx →
      Holds (sent g R) t0 h A c.tree → (∀ j ∈ A, U j) → (∀ j ∈ A, ∀ x ∈ (sent g R j).past, x ∈ A) →
      (∀ x, U x → x ∈ A ∨ x ∈ l.map H) → (∀ o ∈ l, U (H o) ∧ AMap.get g.ops (H o) = some o) →
      (∀ o ∈ l, H o ∉ A) → (∀ o ∈ l, AMap.get c.graph.ops (H o) = none) → (l.map H).Nodup →
      (l.map H).Pairwise (fun a b => ¬ TransGen g.Pred b a) →
      ∃ c', c.applyOps H l = .ok c' ∧ BeeKem.SInv c'.tree h ∧ Good c'.tree ∧ c'.tree.idToLeafIdx = t0.idToLeafIdx ∧
        ∃ B, (∀ x, x ∈ B ↔ U x) ∧ Holds (sent g R) t0 h B c'.tree := by
  induction l with
  | nil =>
    intro A c w gd ids hA uA _ all _ _ _ _ _
    refine ⟨c, rfl, w, gd, ids, A, fun x => ⟨uA x, fun hx => ?_⟩, hA⟩
    rcases all x hx with e | e
    · exact e
    · simp at e
  | cons o l ih =>
    intro A c w gd ids hA uA cA all hl hlA hf nd ord
    obtain ⟨uo, oo⟩ := hl o (by simp)
    have vo := (hU _ uo).valid
    obtain ⟨o', id, pc, ps, q1, q2, -⟩ := (hU _ uo).vers
    rw [oo] at q1
    cases q1
    rw [List.map_cons, List.nodup_cons] at nd
    rw [List.map_cons, List.pairwise_cons] at ord
    have hpA : ∀ x ∈ (sent g R (H o)).past, x ∈ A := by
      intro x hx
      have hb := ((sent_past hg).1 hx).2
      rcases all x (hUc _ uo x hx) with e | e
      · exact e
      · rw [List.map_cons] at e
        rcases List.mem_cons.1 e with rfl | e
        · exact absurd hb (acyc hg)
        · exact absurd hb (ord.1 x e)
    obtain ⟨t', e1, e2, e3, e4⟩ := hA.apply ap sv w gd ids uA (fun j hj => (hU j (uA j hj)).valid) cA uo vo (hlA o (by simp)) hpA
    have hpc : (sent g R (H o)).pc = pc := by
      show (updateAt g (H o)).2 = pc
      rw [updateAt_of oo q2]
    have hop := applyOperation_eq (H := H) (c := c) (hf o (by simp))
    have htr : treeOp c.tree o = .ok t' := by
      unfold treeOp
      rw [q2]
      simp only
      rw [← hpc]
      exact e1
    rw [htr] at hop
    have uA' : ∀ j ∈ H o :: A, U j := by
      intro j hj
      rcases List.mem_cons.1 hj with rfl | hj
      · exact uo
      · exact uA j hj
    have cA' : ∀ j ∈ H o :: A, ∀ x ∈ (sent g R j).past, x ∈ H o :: A := by
      intro j hj x hx
      rcases List.mem_cons.1 hj with rfl | hj
      · exact List.mem_cons_of_mem _ (hpA x hx)
      · exact List.mem_cons_of_mem _ (cA j hj x hx)
    have gd' : Good t' := by
      refine e4.good ap sv g0 e2 uA' (fun j hj => (hU j (uA' j hj)).valid) ?_ cA'
      intro j hj
      have uj := uA' j hj
      obtain ⟨T, T', b1, b2, b3, b4, b5, b6, b7, -⟩ := (hU j uj).before
      exact ⟨T', b6, b7, made_holds ap sv b1 b2 b3 b4 (fun x hx => hUc j uj x hx) (fun x hx => (hU x (hUc j uj x hx)).valid)
        uj (hU j uj).valid b5⟩
    obtain ⟨c', f1, f2⟩ := ih (H o :: A) { c with tree := t', graph := c.graph.addOp H o o.payload.preds } e2 gd' e3 e4 uA' cA'
      (by
        intro x hx
        rcases all x hx with e | e
        · exact .inl (List.mem_cons_of_mem _ e)
        · rw [List.map_cons] at e
          rcases List.mem_cons.1 e with rfl | e
          · exact .inl (by simp)
          · exact .inr e)
      (fun o' ho' => hl o' (List.mem_cons_of_mem _ ho'))
      (by
        intro o' ho' hc
        rcases List.mem_cons.1 hc with e | e
        · exact nd.1 (e ▸ List.mem_map_of_mem ho')
        · exact hlA o' (List.mem_cons_of_mem _ ho') e)
      (by
        intro o' ho'
        show AMap.get (AMap.insert c.graph.ops (H o) o) (H o') = none
        rw [AMap.get_insert, if_neg]
        · exact hf o' (List.mem_cons_of_mem _ ho')
        · intro e
          exact nd.1 (e ▸ List.mem_map_of_mem ho'))
      nd.2 ord.2
    refine ⟨c', ?_, f2⟩
    unfold Cgka.applyOps
    rw [hop]
    exact f1

section
variable {H : SOp → Nat} (hH : Function.Injective H)
include hH

/-- The updates after `R` were made on trees that hold what their authors had seen. -/
theorem update_of {c m : Cgka} (hc : Trusted H c) (T : TogetherG c.graph) {R : Nat} (hR : LastC c.graph R) {t0 : BeeKem} {h : Nat}
    (hm : Trusted H m) (hmc : KnownIn m.graph c.graph)
    (ih : ∀ m', Trusted H m' → KnownIn m'.graph c.graph → AMap.get m'.graph.ops R ≠ none → (opSet m'.graph).card < (opSet m.graph).card →
      ∃ r, rebuilt H m'.originalMember m'.initAddOp m'.graph = .ok r ∧ Comes c.graph R t0 h m' r.tree)
    {k : Nat} (hk : AMap.get m.graph.ops k ≠ none) (hRk : TransGen c.graph.Pred R k) : Update c.graph R t0 h k := by
  have sc := reachOk_inv hH (trusted_ok hc)
  have sm := reachOk_inv hH (trusted_ok hm)
  obtain ⟨o, id, pc, ps, ho, hp⟩ := hR.update sc.graph hRk
  obtain ⟨v, v1, v2, v3, v4⟩ := trusted_maker hH hm k hk
  have sv := reachOk_inv hH (trusted_ok v1)
  have hvc : KnownIn v.graph c.graph := fun y hy => hmc y (v3 y hy)
  have how : AMap.get v.graph.ops k = some o := by
    rw [ops_agree hH sv.graph sc.graph (head_known sv.graph v2) (by rw [ho]; simp), ho]
  rcases v4 with ⟨id', pk', op, hf, hn, rfl⟩ | ⟨m', op, t, hm', hmk, hg, rfl⟩
  · exfalso
    have hop : AMap.get v.graph.ops (H op) = some op := by
      unfold Cgka.newFromInitAdd at hn
      simp only [bind, Except.bind] at hn
      split at hn
      · simp at hn
      · cases hn
        exact AMap.get_insert_self _ _ _
    rw [how] at hop
    cases hop
    obtain ⟨_, _, hf⟩ := hf
    rw [hf] at hp
    cases hp
  · have sm' := reachOk_inv hH (trusted_ok hm')
    obtain ⟨k1, k2, k3, k4, k5, k6⟩ := maker_lt hH sv sm' hg hmk v3
    rw [how] at k4
    cases k4
    have hpast : ∀ y, TransGen c.graph.Pred y (H o) ↔ AMap.get m'.graph.ops y ≠ none := by
      intro y
      rw [← k6 y]
      constructor
      · intro hy
        exact (past_agree hH sv.graph sc.graph (by rw [how]; simp) hy).2
      · exact trans_up hH sv.graph sc.graph hvc
    have hm'c : KnownIn m'.graph c.graph := fun y hy => hmc y (k1 y hy)
    obtain ⟨r, r1, r2⟩ := ih m' hm' hm'c ((hpast R).1 hRk) k5
    have T' := T.sub hH sm'.graph sc.graph hm'c
    obtain ⟨r', e1, e2⟩ := settled_tree hH hm' (together_oneRoot hH hm' T') hmk.settled
    rw [r1] at e1
    cases e1
    rw [e2] at r2
    obtain ⟨A, hA, hold⟩ := r2.holds
    have hold' : Holds (sent c.graph R) t0 h ((sent c.graph R (H o)).past) t := by
      refine holds_congr hold (fun x => ?_)
      rw [hA, sent_past sc.graph, hpast]
      exact And.comm
    obtain ⟨m1, sk, pk, usk, g, n, s', sks', n', kk, a1, a2, a3⟩ := hmk.target id pc ps hp
    have hcl := ((trusted_clean hH hm').replay sm' a1).1
    have hpk := updateTarget_pure hcl a2
    subst hpk
    have hs := updateAt_of ho hp
    obtain ⟨b1, b2, b3, b4, b5, b6, b7, b8, b9⟩ := made_valid (S := sent c.graph R) (k := H o) r2.sinv r2.good r2.ids hold'
      (AMap.get_insert_self _ _ _) a3 (by show (updateAt c.graph (H o)).1 = _; rw [hs]) rfl
      (by show (updateAt c.graph (H o)).2 = _; rw [hs])
      (by
        intro hc'
        exact acyc sc.graph ((sent_past sc.graph).1 hc').2)
      (by
        intro x hx y hy
        rw [sent_past sc.graph] at hx hy ⊢
        exact ⟨hy.1, hy.2.trans hx.2⟩)
    refine ⟨b1, ⟨o, id, pc, ps, ho, hp, b8⟩, t, s', r2.sinv, r2.good, r2.ids, hold', ?_, b2, b3, ?_⟩
    · show t.applyPath (updateAt c.graph (H o)).2 = _
      rw [hs]
      exact b4
    · show Sealed (.update (updateAt c.graph (H o)).1 (updateAt c.graph (H o)).2 []) s' h (updateAt c.graph (H o)).2.leafIdx
      rw [hs]
      exact made_sealed r2.sinv r2.good (AMap.get_insert_self _ _ _) a3 []

/-- The keys of the updates after `R` differ from each other and from the older ones. -/
theorem apart_of {c w : Cgka} (hc : Trusted H c) (T : TogetherG c.graph) {R : Nat} (hw : Trusted H w) (hh : w.graph.heads = [R])
    (hwc : KnownIn w.graph c.graph) {h : Nat} {U : Nat → Prop} (hU : ∀ x, U x → TransGen c.graph.Pred R x)
    (hu : ∀ x, U x → Update c.graph R w.tree h x) : Apart (sent c.graph R) w.tree h U := by
  have sc := reachOk_inv hH (trusted_ok hc)
  have sw := reachOk_inv hH (trusted_ok hw)
  have hmade : ∀ j l, U j → l < h → ∃ o, AMap.get c.graph.ops j = some o ∧ (ver (sent c.graph R) j l).pk.of ∈ o.payload.made := by
    intro j l uj hl
    obtain ⟨o, id, pc, ps, h1, h2, h3⟩ := (hu j uj).vers
    refine ⟨o, h1, ?_⟩
    rw [h2]
    obtain ⟨q, hq, hv⟩ := List.mem_flatMap.1 (h3 l hl)
    exact List.mem_flatMap.2 ⟨q, hq, List.mem_map_of_mem hv⟩
  refine ⟨?_, ?_, ?_, ?_, ?_⟩
  · intro x y ux uy hwho
    obtain ⟨ox, idx, pcx, psx, x1, x2, -⟩ := (hu x ux).vers
    obtain ⟨oy, idy, pcy, psy, y1, y2, -⟩ := (hu y uy).vers
    have : idx = idy := by
      have hwho : (updateAt c.graph x).1 = (updateAt c.graph y).1 := hwho
      rw [updateAt_of x1 x2, updateAt_of y1 y2] at hwho
      exact hwho
    subst this
    rcases T.turns x y ox oy _ _ _ _ _ x1 y1 x2 y2 with e | e | e
    · exact .inl e
    · exact .inr (.inl ((sent_past sc.graph).2 ⟨hU x ux, e⟩))
    · exact .inr (.inr ((sent_past sc.graph).2 ⟨hU y uy, e⟩))
  · obtain ⟨rank, hr⟩ := sc.graph.acyclic
    refine ⟨rank, fun x y _ hx => ?_⟩
    have : ∀ {a b}, TransGen c.graph.Pred a b → rank a < rank b := by
      intro a b hab
      induction hab with
      | single h => exact hr _ _ h
      | tail _ h ih => exact ih.trans (hr _ _ h)
    exact this ((sent_past sc.graph).1 hx).2
  · intro j l x uj hl hx hpres
    obtain ⟨o, o1, o2⟩ := hmade j l uj hl
    rw [hx] at o2
    have o2 : x ∈ o.payload.made := o2
    have hsrc := (trusted_traced hH hw).tree
    have hmd : ∀ y op, AMap.get w.graph.ops y = some op → x ∈ op.payload.made → False := by
      intro y op hy hx'
      have hyc := sub_of_known hH sw.graph sc.graph hwc _ _ hy
      have := (T.fresh j y o op x o1 hyc o2).1 hx'
      subst this
      rcases head_all sw.graph hh (by rw [hy]; simp) with rfl | e
      · exact acyc sc.graph (hU _ uj)
      · exact acyc sc.graph ((hU _ uj).trans (trans_up hH sw.graph sc.graph hwc e))
    rcases hpres with ⟨i, lf, hlf, hk⟩ | ⟨i, st, hst, v, hv, hk⟩
    · have hlf : w.tree.leaves[i]? = some (some lf) := hlf
      obtain ⟨y, op, hy, hd⟩ := hsrc.1 lf (List.mem_of_getElem? hlf) _ hk
      rcases hd with hd | hd
      · exact (T.fresh j y o op x o1 (sub_of_known hH sw.graph sc.graph hwc _ _ hy) o2).2 hd
      · exact hmd y op hy hd
    · obtain ⟨y, op, hy, hd⟩ := hsrc.2 st (List.mem_of_getElem? hst) v hv
      rw [hk] at hd
      exact hmd y op hy hd
  · intro j x l uj ux hl hmem
    obtain ⟨o, o1, o2⟩ := hmade j l uj hl
    obtain ⟨ox, idx, pcx, psx, x1, x2, -⟩ := (hu x ux).vers
    refine (T.fresh j x o ox _ o1 x1 o2).2 ?_
    have hmem : (ver (sent c.graph R) j l).pk ∈ (updateAt c.graph x).2.leafPk.keys := hmem
    rw [updateAt_of x1 x2] at hmem
    rw [x2]
    exact List.mem_append_left _ (List.mem_map_of_mem hmem)
  · intro j x l l' uj ux hl hl' he
    obtain ⟨o, o1, o2⟩ := hmade j l uj hl
    obtain ⟨o', o1', o2'⟩ := hmade x l' ux hl'
    rw [← he] at o2'
    exact (T.fresh j x o o' _ o1 o1' o2).1 o2'

/-- What a replay gives from the last addition or removal on. -/
theorem comes {c w : Cgka} (hc : Trusted H c) (T : TogetherG c.graph) {R : Nat} (hR : LastC c.graph R) (hw : Trusted H w)
    (hh : w.graph.heads = [R]) {h : Nat} (sv : BeeKem.SInv w.tree h) (gv : Good w.tree) {m : Cgka} (hm : Trusted H m)
    (hmc : KnownIn m.graph c.graph) (hRm : AMap.get m.graph.ops R ≠ none) :
    ∃ r, rebuilt H m.originalMember m.initAddOp m.graph = .ok r ∧ Comes c.graph R w.tree h m r.tree := by
  generalize hn : (opSet m.graph).card = n
  induction n using Nat.strongRecOn generalizing m with
  | _ n ih =>
    have sc := reachOk_inv hH (trusted_ok hc)
    have sw := reachOk_inv hH (trusted_ok hw)
    have sm := reachOk_inv hH (trusted_ok hm)
    have Tm := T.sub hH sm.graph sc.graph hmc
    have hRl := hR.sub hH sm.graph sc.graph hmc hRm
    have hwm : KnownIn w.graph m.graph := by
      intro y hy
      rcases head_all sw.graph hh hy with rfl | ht
      · exact hRm
      · exact (past_agree hH sm.graph sw.graph hRm ht).1
    have hwc : KnownIn w.graph c.graph := fun y hy => hmc y (hwm y hy)
    have hwk : ∀ y, AMap.get w.graph.ops y ≠ none ↔ y = R ∨ TransGen m.graph.Pred y R := by
      intro y
      constructor
      · intro hy
        rcases head_all sw.graph hh hy with e | ht
        · exact .inl e
        · exact .inr (trans_up hH sw.graph sm.graph hwm ht)
      · rintro (rfl | ht)
        · exact head_known sw.graph hh
        · exact (past_agree hH sw.graph sm.graph (head_known sw.graph hh) ht).1
    have h1 := together_oneRoot hH hm Tm
    obtain ⟨i1, i2⟩ := root_agree hH sm sw hwm h1
    have h1w := oneRoot_sub hH sw.graph sm.graph hwm h1
    obtain ⟨r0, b1, b2⟩ := head_tree hH hw h1w hh
    rw [i1, i2] at b1
    obtain ⟨b3, b4⟩ := rebuilt_graph sw.graph h1w (by rw [← i1]; exact sw.root.1) (root_preds sm) b1
    -- the order of replay
    obtain ⟨l, es, hl, hts, hlm, hes, hsp⟩ := order_spec sm.graph h1 sm.graph.headsN
      (fun x hx => ((sm.graph.heads x).1 hx).1) sm.graph.ne
    have hts' : m.graph.topsortGraph = .ok es := hts
    obtain ⟨lw, ew, hlw, htw, hlmw, hesw, hspw⟩ := order_spec sw.graph h1w sw.graph.headsN
      (fun x hx => ((sw.graph.heads x).1 hx).1) sw.graph.ne
    have htw' : w.graph.topsortGraph = .ok ew := htw
    obtain ⟨es2, hcut⟩ := topsort_cut sm.graph h1 (trusted_tidy hH hm) hRm (fun z hz => hRl.cut Tm hz)
      (topsort_sub (sub_of_known hH sw.graph sm.graph hwm) sw.graph sm.graph hh htw') hts'
    have hflat : es.flatten.map H = l.flatten := by rw [← hlm, List.map_flatten]
    have hflatw : ew.flatten.map H = lw.flatten := by rw [← hlmw, List.map_flatten]
    have hnd : (ew.flatten.map H ++ es2.flatten.map H).Nodup := by
      rw [← List.map_append, ← List.flatten_append, ← hcut, hflat]
      exact hsp.nodup
    rw [List.nodup_append] at hnd
    obtain ⟨nd1, nd2, nd3⟩ := hnd
    have hord : (ew.flatten.map H ++ es2.flatten.map H).Pairwise (fun a b => ¬ TransGen m.graph.Pred b a) := by
      rw [← List.map_append, ← List.flatten_append, ← hcut, hflat]
      exact hsp.order
    have hord2 := (List.pairwise_append.1 hord).2.1
    have hmemw : ∀ x, x ∈ ew.flatten.map H ↔ AMap.get w.graph.ops x ≠ none := by
      intro x
      rw [hflatw, hspw.mem, anc_all sw.graph]
    have hmem : ∀ x, x ∈ ew.flatten.map H ∨ x ∈ es2.flatten.map H ↔ AMap.get m.graph.ops x ≠ none := by
      intro x
      rw [← List.mem_append, ← List.map_append, ← List.flatten_append, ← hcut, hflat, hsp.mem, anc_all sm.graph]
    have hmem2 : ∀ x, x ∈ es2.flatten.map H ↔ AMap.get m.graph.ops x ≠ none ∧ TransGen c.graph.Pred R x := by
      intro x
      constructor
      · intro hx
        have hxm := (hmem x).1 (.inr hx)
        refine ⟨hxm, ?_⟩
        rcases hRl.cut Tm hxm with e | e
        · exact absurd rfl (nd3 x ((hmemw x).2 ((hwk x).2 e)) x hx)
        · exact trans_up hH sm.graph sc.graph hmc e
      · rintro ⟨a, b⟩
        rcases (hmem x).2 a with e | e
        · exfalso
          have b' := (past_agree hH sm.graph sc.graph a b).2
          rcases (hwk x).1 ((hmemw x).1 e) with rfl | e
          · exact acyc sm.graph b'
          · exact acyc sm.graph (b'.trans e)
        · exact e
    have hes2 : ∀ o ∈ es2.flatten, AMap.get m.graph.ops (H o) = some o := by
      intro o ho
      exact hes o (by rw [hcut, List.flatten_append]; exact List.mem_append_right _ ho)
    have hs := sub_of_known hH sm.graph sc.graph hmc
    have hu : ∀ x, AMap.get m.graph.ops x ≠ none ∧ TransGen c.graph.Pred R x → Update c.graph R w.tree h x := by
      rintro x ⟨hx1, hx2⟩
      refine update_of hH hc T hR hm hmc ?_ hx1 hx2
      intro m' hm' hm'c hRm' hlt
      exact ih _ (hn ▸ hlt) hm' hm'c hRm' rfl
    have ap := apart_of hH hc T hw hh hwc (U := fun x => AMap.get m.graph.ops x ≠ none ∧ TransGen c.graph.Pred R x)
      (fun x hx => hx.2) hu
    have hupd : ∀ o ∈ es2.flatten, o.payload.isStructural = false := by
      intro o ho
      obtain ⟨o', id, pc, ps, q1, q2⟩ := hR.update sc.graph ((hmem2 (H o)).1 (List.mem_map_of_mem ho)).2
      rw [hs _ _ (hes2 o ho)] at q1
      cases q1
      rw [q2]; rfl
    obtain ⟨r, f1, f2, f3, f4, B, f5, f6⟩ := applyOps_updates sc.graph ap sv gv hu
      (by
        rintro x ⟨hx1, hx2⟩ y hy
        obtain ⟨hy1, hy2⟩ := (sent_past sc.graph).1 hy
        exact ⟨(past_agree hH sm.graph sc.graph hx1 hy2).1, hy1⟩)
      es2.flatten [] r0 (by rw [b2]; exact sv) (by rw [b2]; exact gv) (by rw [b2]) (by rw [b2]; exact holds_nil _) (by simp) (by simp)
      (fun x hx => .inr ((hmem2 x).2 hx))
      (fun o ho => ⟨(hmem2 (H o)).1 (List.mem_map_of_mem ho), hs _ _ (hes2 o ho)⟩)
      (by simp)
      (by
        intro o ho
        rw [b4 (H o)]
        by_contra hcon
        exact nd3 _ ((hmemw (H o)).2 hcon) _ (List.mem_map_of_mem ho) rfl)
      nd2
      (by
        refine hord2.imp_of_mem ?_
        intro a b ha _ hab hba
        have ha' := (hmem2 a).1 ha
        exact hab (past_agree hH sm.graph sc.graph ha'.1 hba).2)
    refine ⟨r, ?_, f2, f3, f4, B, f5, f6⟩
    unfold rebuilt at b1 ⊢
    simp only [htw', bind, Except.bind] at b1
    simp only [hts', bind, Except.bind]
    split at b1
    · simp at b1
    · rename_i s hs'
      rw [hcut, applyEpochs_append, b1]
      show r0.applyEpochs H es2 = _
      rw [applyEpochs_updates H es2 hupd]
      exact f1

omit hH in
theorem applyPathLoop_keepsIds {removed : List Pk} (l : List (Nat × SecretStore)) {t t' : BeeKem}
    (h : applyPathLoop removed t l = .ok t') : t'.idToLeafIdx = t.idToLeafIdx := by
  have one : ∀ {t t' : BeeKem} {i : Nat} {s : SecretStore}, t.insertInnerNodeAt i s = .ok t' → t'.idToLeafIdx = t.idToLeafIdx := by
    intro t t' i s h
    unfold insertInnerNodeAt at h
    split at h
    · cases h; rfl
    · cases h
  induction l generalizing t with
  | nil => cases h; rfl
  | cons q l ih =>
    obtain ⟨i, s⟩ := q
    unfold applyPathLoop at h
    simp only [bind, Except.bind] at h
    cases hn : t.innerNode i with
    | error e => rw [hn] at h; simp at h
    | ok o =>
      rw [hn] at h
      cases o with
      | none =>
        simp only at h
        cases hi : t.insertInnerNodeAt i s with
        | error e => rw [hi] at h; simp at h
        | ok t1 => rw [hi] at h; rw [ih h, one hi]
      | some cur =>
        simp only at h
        cases hi : t.insertInnerNodeAt i (cur.merge s removed) with
        | error e => rw [hi] at h; simp at h
        | ok t1 => rw [hi] at h; rw [ih h, one hi]

omit hH in
theorem applyPath_keepsIds {pc : PathChange} {t t' : BeeKem} (h : t.applyPath pc = .ok t') : t'.idToLeafIdx = t.idToLeafIdx := by
  unfold applyPath at h
  split at h
  · simp only [bind, Except.bind] at h
    split at h
    · simp at h
    · split at h
      · simp at h
      · split at h
        · simp at h
        · split at h
          · simp at h
          · split at h
            · simp at h
            · split at h
              · simp at h
              · rename_i t1 hi
                have h1 : t1.idToLeafIdx = t.idToLeafIdx := by
                  unfold insertLeafAt at hi
                  split at hi
                  · cases hi; rfl
                  · cases hi
                split at h
                · rw [applyPathLoop_keepsIds _ h, h1]
                · rw [blankPathLoop_ids _ h, h1]
  · cases h; rfl

omit hH in
/-- A replay succeeds, with the members there were right after the last addition or removal. -/
def Flatly (H : SOp → Nat) (m : Cgka) : Prop :=
  ∃ r, rebuilt H m.originalMember m.initAddOp m.graph = .ok r ∧ ∀ R w, LastC m.graph R → Trusted H w → w.graph.heads = [R] →
    r.tree.idToLeafIdx = w.tree.idToLeafIdx

/-- The replica's own tree has the members of the tree that a replay gives. -/
theorem ids_same {c : Cgka} (hc : Trusted H c) : TogetherG c.graph →
    (∀ m, Trusted H m → KnownIn m.graph c.graph → Flatly H m) →
    ∀ r, rebuilt H c.originalMember c.initAddOp c.graph = .ok r → c.tree.idToLeafIdx = r.tree.idToLeafIdx := by
  have single : ∀ {c : Cgka}, Trusted H c → TogetherG c.graph → c.graph.heads.length = 1 →
      ∀ r, rebuilt H c.originalMember c.initAddOp c.graph = .ok r → c.tree.idToLeafIdx = r.tree.idToLeafIdx := by
    intro c hc T hl r hr
    have sc := reachOk_inv hH (trusted_ok hc)
    obtain ⟨r', e1, e2⟩ := (sc.settled hl).rebuilt sc.graph (together_oneRoot hH hc T) (trusted_tidy hH hc) sc.root.1 (root_preds sc)
    rw [hr] at e1
    cases e1
    rw [e2]
  induction hc with
  | @new id pk op c h1 h2 =>
    intro T _
    refine single (.new h1 h2) T ?_
    unfold Cgka.newFromInitAdd at h2
    simp only [bind, Except.bind] at h2
    split at h2
    · simp at h2
    · cases h2; rfl
  | owner me sks h hk ih => exact ih
  | @call c cmd ht ho hg ih =>
    intro T F
    have ht' := Trusted.call ht ho hg
    have sc := reachOk_inv hH (trusted_ok ht)
    have sc' := reachOk_inv hH (trusted_ok ht')
    rcases own_step3 H c ho hg with ⟨e1, e2, e3⟩ | ⟨e1, c1, e2, e3, e4⟩ | ⟨op, e1⟩
    · rw [e1] at T F ⊢
      obtain ⟨i1, i2⟩ := root_agree hH sc sc' (by rw [e1]; exact fun _ h => h) (together_oneRoot hH ht T)
      intro r hr
      rw [e2]
      rw [i1, i2] at hr
      exact ih T F r hr
    · rw [e1] at T ⊢
      have h1 := together_oneRoot hH ht T
      obtain ⟨i1, i2⟩ := root_agree hH sc sc' (by rw [e1]; exact fun _ h => h) h1
      intro r hr
      rw [i1, i2] at hr
      obtain ⟨r', f1, f2⟩ := (settle sc e2).1.rebuilt sc.graph h1 (trusted_tidy hH ht) sc.root.1 (root_preds sc)
      rw [hr] at f1
      cases f1
      rw [e3, f2]
    · exact single ht' T (by rw [e1]; rfl)
  | @receive c d x0 op ht hd hop ih ihd =>
    intro T F
    have ht' := Trusted.receive ht hd hop
    have sc := reachOk_inv hH (trusted_ok ht)
    have sc' := reachOk_inv hH (trusted_ok ht')
    have hk := Props.receive_cases H c op
    have hkn : KnownIn c.graph (step H c (.receive op)).graph := by
      intro y hy
      show AMap.get (c.mergeConcurrentOperation H op).1.graph.ops y ≠ none
      rcases hk with ⟨hk, _⟩ | ⟨hk, _, _⟩
      · rw [hk]; exact hy
      · rw [hk]
        show AMap.get (AMap.insert c.graph.ops (H op) op) y ≠ none
        rw [AMap.get_insert]
        split <;> simp_all
    have T0 := T.sub hH sc.graph sc'.graph hkn
    have h1' := together_oneRoot hH ht' T
    obtain ⟨i1, i2⟩ := root_agree hH sc' sc hkn h1'
    have ih := ih T0 (fun m hm hmk => F m hm (fun y hy => hkn y (hmk y hy)))
    by_cases hl : (step H c (.receive op)).graph.heads.length = 1
    · exact single ht' T hl
    have hstep : step H c (.receive op) = (c.mergeConcurrentOperation H op).1 := rfl
    -- nothing was taken in
    by_cases hnew : (step H c (.receive op)).graph = c.graph
    · have htree : (step H c (.receive op)).tree = c.tree ∨ ∃ c1, c.replayIfNeeded H = .ok c1 ∧ (step H c (.receive op)).tree = c1.tree := by
        rw [hstep] at hnew ⊢
        unfold Cgka.mergeConcurrentOperation at hnew ⊢
        by_cases h1 : c.graph.containsOpHash (H op) = true
        · rw [if_pos h1]; exact .inl rfl
        rw [if_neg h1] at hnew ⊢
        have hf : AMap.get c.graph.ops (H op) = none := by
          rw [containsOpHash_iff] at h1; simpa using h1
        by_cases h2 : (!c.graph.containsPredecessors op.payload.preds) = true
        · rw [if_pos h2]; exact .inl rfl
        rw [if_neg h2] at hnew ⊢
        split
        · split
          · exact .inl rfl
          · split
            · exact .inl rfl
            · rename_i h3 h4 h5
              rw [if_pos h3, if_neg h4, if_neg h5] at hnew
              cases hap : c.applyOperation H op with
              | error e => exact .inl rfl
              | ok c1 =>
                exfalso
                simp only [hap] at hnew
                obtain ⟨_, hg2⟩ := applyOperation_tree hf hap
                rw [hg2] at hnew
                have : AMap.get (c.graph.addOp H op op.payload.preds).ops (H op) = some op := AMap.get_insert_self _ _ _
                rw [hnew, hf] at this
                simp at this
        · rename_i h3
          rw [if_neg h3] at hnew
          cases hr : c.replayIfNeeded H with
          | error e => exact .inl rfl
          | ok c1 =>
            simp only [hr] at hnew ⊢
            cases hap : c1.applyOperation H op with
            | error e => exact .inr ⟨c1, rfl, rfl⟩
            | ok c2 =>
              exfalso
              simp only [hap] at hnew
              have hx := (Ext.replayIfNeeded hr).graph
              obtain ⟨_, hg2⟩ := applyOperation_tree (by rw [hx]; exact hf) hap
              rw [hg2, hx] at hnew
              have : AMap.get (c.graph.addOp H op op.payload.preds).ops (H op) = some op := AMap.get_insert_self _ _ _
              rw [hnew, hf] at this
              simp at this
      intro r hr
      rw [hnew, ← i1, ← i2] at hr
      rcases htree with e | ⟨c1, e1, e2⟩
      · rw [e]; exact ih r hr
      · obtain ⟨r', f1, f2⟩ := (settle sc e1).1.rebuilt sc.graph (together_oneRoot hH ht T0) (trusted_tidy hH ht) sc.root.1
          (root_preds sc)
        rw [hr] at f1
        cases f1
        rw [e2, f2]
    -- an operation was taken in next to others
    have hg : (step H c (.receive op)).graph = c.graph.addOp H op op.payload.preds ∧ AMap.get c.graph.ops (H op) = none := by
      rcases hk with ⟨hk, _⟩ | ⟨hk, _, hf⟩
      · exact absurd hk hnew
      · exact ⟨hk, hf⟩
    obtain ⟨hg, hf⟩ := hg
    have hops : ∀ y, AMap.get (step H c (.receive op)).graph.ops y = if y = H op then some op else AMap.get c.graph.ops y := by
      intro y
      rw [hg]
      show AMap.get (AMap.insert c.graph.ops (H op) op) y = _
      rw [AMap.get_insert]
    have hopk : AMap.get (step H c (.receive op)).graph.ops (H op) = some op := by rw [hops, if_pos rfl]
    have hncov : ¬ ∀ x ∈ c.graph.heads, x ∈ op.payload.preds := by
      intro hcov
      apply hl
      have hn := sc'.graph.headsN
      rw [hg] at hn ⊢
      have : (c.graph.addOp H op op.payload.preds).heads.Perm [H op] := by
        rw [List.perm_ext_iff_of_nodup hn (by simp)]
        intro x
        simp only [Graph.addOp, Graph.addOpAndUpdateHeads, mem_sinsert, mem_foldl_sremove, List.mem_singleton]
        constructor
        · rintro (hx1 | ⟨hx1, hx2⟩)
          · exact hx1
          · exact absurd (hcov x hx1) hx2
        · exact Or.inl
      simpa using this.length_eq
    have hst : op.payload.isStructural = false := by
      by_contra hs
      have hs : op.payload.isStructural = true := by simpa using hs
      apply hncov
      intro x hx
      have hxk := ((sc.graph.heads x).1 hx).1
      rcases T.changes (H op) x ⟨op, hopk, hs⟩ (hkn x hxk) with e | e | e
      · rw [e] at hxk; exact absurd hf hxk
      · exact absurd hf (past_agree hH sc.graph sc'.graph hxk e).1
      · obtain ⟨q, hq1, hq2⟩ := TransGen.tail'_iff.1 e
        obtain ⟨o, ho, hp⟩ := (sc'.graph.predOf _ _).1 hq2
        rw [hopk] at ho
        cases ho
        rcases reflTransGen_iff_eq_or_transGen.1 hq1 with rfl | hq
        · exact hp
        · exfalso
          have hqk : AMap.get c.graph.ops q ≠ none := by
            have hqk := (sc'.graph.known_pred hq2).1
            rw [hops] at hqk
            split at hqk
            · rename_i he
              rw [he] at hq2
              exact absurd (TransGen.single hq2) (acyc sc'.graph)
            · exact hqk
          obtain ⟨z, hz, _⟩ := TransGen.head'_iff.1 (past_agree hH sc.graph sc'.graph hqk hq).2
          exact ((sc.graph.heads x).1 hx).2 z hz
    have htree : (step H c (.receive op)).tree.idToLeafIdx = c.tree.idToLeafIdx := by
      rw [hstep] at hnew ⊢
      unfold Cgka.mergeConcurrentOperation at hnew ⊢
      by_cases h1 : c.graph.containsOpHash (H op) = true
      · rw [if_pos h1]
      rw [if_neg h1] at hnew ⊢
      by_cases h2 : (!c.graph.containsPredecessors op.payload.preds) = true
      · rw [if_pos h2]
      rw [if_neg h2] at hnew ⊢
      have h3 : (!c.graph.headsContainedIn op.payload.preds) = true := by
        by_contra h3
        apply hncov
        intro x hxh
        have h3' : c.graph.headsContainedIn op.payload.preds = true := by simpa using h3
        have := List.all_eq_true.1 h3' x hxh
        simpa using this
      rw [if_pos h3]
      split
      · rfl
      · rw [if_neg (by rw [hst]; simp)]
        cases hap : c.applyOperation H op with
        | error e => rfl
        | ok c1 =>
          have := (applyOperation_tree hf hap).1
          unfold treeOp at this
          cases hp : op.payload with
          | add id pk i ps qs => rw [hp] at hst; simp [Payload.isStructural] at hst
          | remove id i ks ps => rw [hp] at hst; simp [Payload.isStructural] at hst
          | update id pc ps =>
            rw [hp] at this
            exact applyPath_keepsIds this
    intro r' hr'
    rw [htree]
    obtain ⟨r, f1, f2⟩ := F c ht hkn
    obtain ⟨r1, f3, f4⟩ := F _ ht' (fun _ h => h)
    rw [hr'] at f3
    cases f3
    rw [ih r f1]
    obtain ⟨R, hR⟩ := lastC_exists sc T0
    have hR' : LastC (step H c (.receive op)).graph R := by
      refine ⟨(change_iff hH sc.graph sc'.graph hR.change.known (hkn R hR.change.known)).1 hR.change, ?_⟩
      rintro y ⟨o, ho, hs⟩
      rw [hops] at ho
      split at ho
      · cases ho
        rw [hst] at hs
        simp at hs
      · rcases hR.last y ⟨o, ho, hs⟩ with e | e
        · exact .inl e
        · exact .inr (trans_up hH sc.graph sc'.graph hkn e)
    obtain ⟨w, w1, w2, -⟩ := trusted_maker hH ht R hR.change.known
    rw [f2 R w hR w1 w2, f4 R w hR' w1 w2]

omit hH in
/-- What is shown of every replica by induction on how much it knows. -/
def Joins (H : SOp → Nat) (c : Cgka) : Prop :=
  ∃ r, rebuilt H c.originalMember c.initAddOp c.graph = .ok r ∧ Strong r.tree ∧
    ∀ R w, LastC c.graph R → Trusted H w → w.graph.heads = [R] → r.tree.idToLeafIdx = w.tree.idToLeafIdx

/-- The tree right after the last addition or removal can be opened by every member. -/
theorem last_strong {c w : Cgka} (hc : Trusted H c) (T : TogetherG c.graph)
    (ih : ∀ m, Trusted H m → KnownIn m.graph c.graph → (opSet m.graph).card < (opSet c.graph).card → Joins H m)
    {R : Nat} (hR : LastC c.graph R) (hw : Trusted H w) (hh : w.graph.heads = [R]) : Strong w.tree := by
  have sc := reachOk_inv hH (trusted_ok hc)
  have sw := reachOk_inv hH (trusted_ok hw)
  have h1 := together_oneRoot hH hc T
  obtain ⟨w', v1, v2, v3, v4⟩ := trusted_maker hH hc R hR.change.known
  have sv := reachOk_inv hH (trusted_ok v1)
  have hsame := same_head hH sw.graph sv.graph hh v2
  have hwc : KnownIn w.graph c.graph := fun y hy => v3 y (by rw [← hsame y]; exact hy)
  obtain ⟨i1, i2⟩ := root_agree hH sc sw hwc h1
  obtain ⟨j1, j2⟩ := root_agree hH sc sv v3 h1
  have htree : w.tree = w'.tree := by
    have a := sw.settled (by rw [hh]; rfl)
    have b := sv.settled (by rw [v2]; rfl)
    rw [i1, i2] at a
    rw [j1, j2] at b
    exact a.unique hH b sw.graph sv.graph hsame (oneRoot_sub hH sw.graph sc.graph hwc h1) (root_preds sc)
  rw [htree]
  rcases v4 with ⟨id, pk, op, hf, hn, hx⟩ | ⟨m, op, t, hm, hmk, hg, hx⟩
  · unfold Cgka.newFromInitAdd at hn
    cases hq : BeeKem.new id pk with
    | error e => rw [hq] at hn; simp [bind, Except.bind] at hn
    | ok t =>
      rw [hq] at hn
      simp only [bind, Except.bind, pure, Except.pure, Except.ok.injEq] at hn
      subst hn
      exact strong_new hq
  · have sm := reachOk_inv hH (trusted_ok hm)
    obtain ⟨k1, k2, k3, k4, k5, k6⟩ := maker_lt hH sv sm hg hmk v3
    have hRop : AMap.get c.graph.ops R = some op := by
      rw [hx]
      exact sub_of_known hH sv.graph sc.graph v3 _ _ k4
    obtain ⟨o, ho, hs⟩ := hR.change
    rw [hRop] at ho
    cases ho
    have Tm := T.sub hH sm.graph sc.graph k1
    obtain ⟨r, e1, e2, -⟩ := ih m hm k1 k5
    obtain ⟨r', e3, e4⟩ := settled_tree hH hm (together_oneRoot hH hm Tm) hmk.settled
    rw [e1] at e3
    cases e3
    have htr := hmk.tree
    unfold treeOp at htr
    cases hp : op.payload with
    | update id pc ps => rw [hp] at hs; simp [Payload.isStructural] at hs
    | remove id i ks ps =>
      rw [hp] at htr
      dsimp only at htr
      cases hrm : t.removeId id with
      | error e => rw [hrm] at htr; simp [bind, Except.bind] at htr
      | ok p =>
        rw [hrm] at htr
        simp only [bind, Except.bind, pure, Except.pure, Except.ok.injEq] at htr
        obtain ⟨t', x⟩ := p
        rw [← htr]
        rw [e4] at e2
        exact strong_remove e2 hrm
    | add id pk i ps qs =>
      rw [hp] at htr
      dsimp only at htr
      have hids := ids_same hH hm Tm (by
        intro m' hm' hk'
        have hle : (opSet m'.graph).card ≤ (opSet m.graph).card := by
          apply Finset.card_le_card
          intro y hy
          rw [mem_opSet] at hy ⊢
          exact hk' y hy
        obtain ⟨r, a1, _, a3⟩ := ih m' hm' (fun y hy => k1 y (hk' y hy)) (Nat.lt_of_le_of_lt hle k5)
        exact ⟨r, a1, a3⟩) r e1
      have hab := hmk.absent _ _ _ _ _ hp
      cases hps : t.pushLeaf id (.share pk) with
      | error e => rw [hps] at htr; simp [bind, Except.bind] at htr
      | ok p =>
        rw [hps] at htr
        simp only [bind, Except.bind, pure, Except.pure, Except.ok.injEq] at htr
        obtain ⟨t', x⟩ := p
        rw [← htr]
        rw [e4] at e2 hids
        refine strong_push e2 ?_ hps
        unfold containsId at hab ⊢
        rw [← hids]
        exact hab

theorem joins {c : Cgka} (hc : Trusted H c) (T : TogetherG c.graph) : Joins H c := by
  generalize hn : (opSet c.graph).card = n
  induction n using Nat.strongRecOn generalizing c with
  | _ n ih =>
    have sc := reachOk_inv hH (trusted_ok hc)
    have ih' : ∀ m, Trusted H m → KnownIn m.graph c.graph → (opSet m.graph).card < (opSet c.graph).card → Joins H m := by
      intro m hm hk hlt
      have sm := reachOk_inv hH (trusted_ok hm)
      exact ih _ (hn ▸ hlt) hm (T.sub hH sm.graph sc.graph hk) rfl
    have core : ∀ R w, LastC c.graph R → Trusted H w → w.graph.heads = [R] →
        ∃ r, rebuilt H c.originalMember c.initAddOp c.graph = .ok r ∧ Strong r.tree ∧ r.tree.idToLeafIdx = w.tree.idToLeafIdx := by
      intro R w hR hw hh
      obtain ⟨h, sv, gv⟩ := last_strong hH hc T ih' hR hw hh
      obtain ⟨r, e1, e2⟩ := comes hH hc T hR hw hh sv gv hc (fun _ h => h) hR.change.known
      exact ⟨r, e1, ⟨h, e2.sinv, e2.good⟩, e2.ids⟩
    obtain ⟨R, hR⟩ := lastC_exists sc T
    obtain ⟨w, w1, w2, -⟩ := trusted_maker hH hc R hR.change.known
    obtain ⟨r, e1, e2, -⟩ := core R w hR w1 w2
    refine ⟨r, e1, e2, ?_⟩
    intro R' w' hR' hw' hh'
    obtain ⟨r', e1', _, e3'⟩ := core R' w' hR' hw' hh'
    rw [e1] at e1'
    cases e1'
    exact e3'

/-- After taking in everything, a replica has a tree that every member can open. -/
theorem joins_replay {c : Cgka} (hc : Trusted H c) (T : TogetherG c.graph) :
    ∃ c1, c.replayIfNeeded H = .ok c1 ∧ Strong c1.tree ∧ c1.tree.idToLeafIdx = c.tree.idToLeafIdx := by
  have sc := reachOk_inv hH (trusted_ok hc)
  obtain ⟨r, e1, e2, -⟩ := joins hH hc T
  obtain ⟨c1, r', h, f1, f2, f3, -⟩ := replayIf_ok hH hc (together_oneRoot hH hc T) T.serial
  rw [e1] at f2
  cases f2
  have := ids_same hH hc T (by
    intro m hm hk
    have sm := reachOk_inv hH (trusted_ok hm)
    obtain ⟨r, a1, _, a3⟩ := joins hH hm (T.sub hH sm.graph sc.graph hk)
    exact ⟨r, a1, a3⟩) r e1
  exact ⟨c1, f1, by rw [f3]; exact e2, by rw [f3, this]⟩

/-- A replica with one last operation has such a tree. -/
theorem joins_head {c : Cgka} (hc : Trusted H c) (T : TogetherG c.graph) (hl : c.graph.heads.length = 1) : Strong c.tree := by
  have sc := reachOk_inv hH (trusted_ok hc)
  obtain ⟨c1, e1, e2, -⟩ := joins_replay hH hc T
  have := replay_single sc hl e1
  subst this
  exact e2

end

end Verif.Cgka
