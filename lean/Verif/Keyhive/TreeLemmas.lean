import Verif.Keyhive.GroupsLemmas
import Verif.Cgka.MembersProps
import Verif.Group.WalkLemmas

/-! # The key tree of a document under calls of the user -/

namespace Verif.Keyhive

open Verif.Group Verif.Cgka Verif.BeeKem

variable {E : Env}

theorem pickEach_ids {pick : Id → Except Err Pk} : ∀ {is : List Id} {l : List (Id × Pk)}, pickEach pick is = .ok l → l.map (·.1) = is := by
  intro is
  induction is with
  | nil => intro l h; cases h; rfl
  | cons i is ih =>
    intro l h
    unfold pickEach at h
    split at h
    · cases h
    · split at h
      · cases h
      · rename_i l' hl
        cases h
        simp [ih hl]

theorem addCgkaMembers_tree {H : SOp → Nat} {sign : Payload → Res SOp} : ∀ {l : List (Id × Pk)} {d d' : Doc} {acc ops : List SOp} {c : Cgka},
    d.cgka = some c → Current c → d.addCgkaMembers H sign l acc = (d', .ok ops) →
    ∃ c', d'.cgka = some c' ∧ Current c' ∧ ∀ j, c'.tree.containsId j = true ↔ j ∈ l.map (·.1) ∨ c.tree.containsId j = true := by
  intro l
  induction l with
  | nil => intro d d' acc ops c hc hcur h; cases h; exact ⟨c, hc, hcur, by simp⟩
  | cons p l ih =>
    intro d d' acc ops c hc hcur h
    unfold Doc.addCgkaMembers at h
    rw [hc] at h
    simp only at h
    split at h
    · cases h
    · rename_i c1 o h1
      obtain ⟨h2, h3⟩ := hcur.add h1
      obtain ⟨c', h4, h5, h6⟩ := ih (c := c1) rfl h2 h
      refine ⟨c', h4, h5, fun j => ?_⟩
      rw [h6, h3, List.map_cons, List.mem_cons]
      constructor
      · rintro (h | h | h)
        · exact .inl (.inr h)
        · exact .inl (.inl h)
        · exact .inr h
      · rintro ((h | h) | h)
        · exact .inr (.inl h)
        · exact .inl h
        · exact .inr (.inr h)

theorem removeCgkaMembers_tree {H : SOp → Nat} {sign : Payload → Res SOp} : ∀ {l : List Id} {d d' : Doc} {acc ops : List SOp} {c : Cgka},
    d.cgka = some c → Current c → d.removeCgkaMembers H sign l acc = (d', .ok ops) →
    ∃ c', d'.cgka = some c' ∧ Current c' ∧ ∀ j, c'.tree.containsId j = true ↔ j ∉ l ∧ c.tree.containsId j = true := by
  intro l
  induction l with
  | nil => intro d d' acc ops c hc hcur h; cases h; exact ⟨c, hc, hcur, by simp⟩
  | cons p l ih =>
    intro d d' acc ops c hc hcur h
    unfold Doc.removeCgkaMembers at h
    rw [hc] at h
    simp only at h
    split at h
    · cases h
    · rename_i c1 o h1
      obtain ⟨h2, h3⟩ := hcur.remove h1
      obtain ⟨c', h4, h5, h6⟩ := ih (c := c1) rfl h2 h
      refine ⟨c', h4, h5, fun j => ?_⟩
      rw [h6, h3, List.mem_cons]
      constructor
      · rintro ⟨h7, h8, h9⟩
        exact ⟨fun h => h.elim h8 h7, h9⟩
      · rintro ⟨h7, h8⟩
        exact ⟨fun h => h7 (.inr h), fun h => h7 (.inl h), h8⟩

theorem remove_any {H : SOp → Nat} {sign : Payload → Res SOp} {c : Cgka} (hc : Current c) (id : MemberId) :
    (Current (c.remove H sign id).1) ∧
      ((∀ j, (c.remove H sign id).1.tree.containsId j = c.tree.containsId j) ∨
        ∀ j, (c.remove H sign id).1.tree.containsId j = true ↔ j ≠ id ∧ c.tree.containsId j = true) := by
  unfold Cgka.remove
  split
  · exact ⟨hc, .inl fun _ => rfl⟩
  · rw [hc.replay H]
    simp only
    split
    · exact ⟨hc, .inl fun _ => rfl⟩
    · split
      · exact ⟨hc, .inl fun _ => rfl⟩
      · rename_i tree i ks hp
        have h3 := fun j => BeeKem.contains_erase (BeeKem.removeId_ids hp) j
        split
        · exact ⟨hc, .inr h3⟩
        · exact ⟨⟨hc.1, _, rfl⟩, .inr h3⟩

theorem dropCgkaMembers_tree {H : SOp → Nat} {sign : Payload → Res SOp} : ∀ (l : List Id) {d : Doc} (acc : List SOp) {c : Cgka},
    d.cgka = some c → Current c →
    ∃ c', (d.dropCgkaMembers H sign l acc).1.cgka = some c' ∧ Current c' ∧ (∀ j, c'.tree.containsId j = true → c.tree.containsId j = true) ∧
      ∀ j, j ∉ l → c.tree.containsId j = true → c'.tree.containsId j = true := by
  intro l
  induction l with
  | nil => intro d acc c hc hcur; exact ⟨c, hc, hcur, fun _ h => h, fun _ _ h => h⟩
  | cons p l ih =>
    intro d acc c hc hcur
    unfold Doc.dropCgkaMembers
    rw [hc]
    simp only
    obtain ⟨h1, h2⟩ := remove_any (H := H) (sign := sign) hcur p
    have key : ∀ j, (c.remove H sign p).1.tree.containsId j = true → c.tree.containsId j = true := by
      rcases h2 with h2 | h2
      · intro j hj; rw [← h2]; exact hj
      · intro j hj; exact ((h2 j).1 hj).2
    have key2 : ∀ j, j ≠ p → c.tree.containsId j = true → (c.remove H sign p).1.tree.containsId j = true := by
      rcases h2 with h2 | h2
      · intro j _ hj; rw [h2]; exact hj
      · intro j hp hj; exact (h2 j).2 ⟨hp, hj⟩
    have done : ∀ acc, ∃ c', (Doc.dropCgkaMembers H sign { d with cgka := some (c.remove H sign p).1 } l acc).1.cgka = some c' ∧
        Current c' ∧ (∀ j, c'.tree.containsId j = true → c.tree.containsId j = true) ∧
        ∀ j, j ∉ p :: l → c.tree.containsId j = true → c'.tree.containsId j = true := by
      intro acc
      obtain ⟨c', h3, h4, h5, h6⟩ := ih (d := { d with cgka := some (c.remove H sign p).1 }) acc rfl h1
      refine ⟨c', h3, h4, fun j hj => key j (h5 j hj), fun j hj hc' => ?_⟩
      rw [List.mem_cons, not_or] at hj
      exact h6 j hj.2 (key2 j hj.1 hc')
    split
    · rename_i c1 e heq
      rw [heq] at done
      exact done acc
    · rename_i c1 e heq
      rw [heq] at done
      exact done _

/-! ## The world is the same after a change of a key tree -/

theorem world_setDoc {k : Keyhive} {i : Id} {d d0 : Doc} (h0 : AMap.get k.docs i = some d0) (hg : d.group = d0.group) :
    (k.setDoc i d).world = k.world := by
  unfold Keyhive.world Keyhive.setDoc
  simp only
  rw [map_replace (fun p => (p.1, p.2.group))]
  intro d1 h1
  rw [h0] at h1
  cases h1
  simp only [hg]

theorem get_setDoc {k : Keyhive} {i : Id} {d d0 : Doc} (h0 : AMap.get k.docs i = some d0) (j : Id) :
    AMap.get (k.setDoc i d).docs j = if j = i then some d else AMap.get k.docs j := by
  unfold Keyhive.setDoc
  simp only
  rw [get_replace, h0]
  simp

/-! ## The individuals behind agents -/

theorem idsBehind_spec {W : World} (hT : ∀ i h, AMap.get W i = some h → AMap.WF h.members) {held : List Id} :
    ∀ {as : List Agent} {acc out : List Id}, (∀ a ∈ as, OneKind W a) → idsBehind W held as acc = .ok out →
      ∀ j, j ∈ out ↔ j ∈ acc ∨ ∃ a ∈ as, Behind W a j := by
  intro as
  induction as with
  | nil => intro acc out _ h j; cases h; simp
  | cons a as ih =>
    intro acc out hK h j
    unfold idsBehind at h
    split at h
    · cases h
    · rename_i ids hids
      rw [ih (fun b hb => hK b (List.mem_cons_of_mem _ hb)) h, mem_sextend, individual_spec hT (hK a (by simp)) hids]
      simp only [List.mem_cons, exists_eq_or_imp, or_assoc]
      rfl


theorem pick_ids {W : World} {L : Local} {k : Keyhive} {held : List Id} {a : Agent} {doc : Id} {l : List (Id × Pk)} (hW : k.world = W)
    (hT : ∀ i h, AMap.get W i = some h → AMap.WF h.members) (hK : OneKind W a) (h : pickIndividualPrekeys L k held a doc = .ok l) (j : Id) :
    j ∈ l.map (·.1) ↔ Behind W a j := by
  subst hW
  unfold pickIndividualPrekeys at h
  split at h
  · cases h
  · rename_i ids hids
    rw [pickEach_ids h]
    exact individual_spec hT hK hids j

theorem path_around {W : World} {g : Group} {a : Agent} {links : List Access} (h : Path W g a links) : ∃ d, Around W g d ∧ d.delegate = a := by
  cases h with
  | direct hm => exact ⟨_, .inl ⟨_, hm⟩, rfl⟩
  | nested _ _ _ hw hm => exact ⟨_, .inr ⟨_, _, _, hw, hm⟩, rfl⟩

/-! ## Changes that only concern key trees -/

/-- Two devices that differ only in key trees. -/
structure SameGroups (k k' : Keyhive) : Prop where
  world : k'.world = k.world
  docs : ∀ i, (AMap.get k'.docs i).map Doc.group = (AMap.get k.docs i).map Doc.group

theorem SameGroups.refl (k : Keyhive) : SameGroups k k := ⟨rfl, fun _ => rfl⟩

theorem SameGroups.trans {k k1 k2 : Keyhive} (h1 : SameGroups k k1) (h2 : SameGroups k1 k2) : SameGroups k k2 :=
  ⟨h2.world.trans h1.world, fun i => (h2.docs i).trans (h1.docs i)⟩

theorem SameGroups.setDoc {k : Keyhive} {i : Id} {d d0 : Doc} (h0 : AMap.get k.docs i = some d0) (hg : d.group = d0.group) :
    SameGroups k (k.setDoc i d) := by
  refine ⟨world_setDoc h0 hg, fun j => ?_⟩
  rw [get_setDoc h0]
  split
  · rename_i he; subst he; rw [h0]; simp [hg]
  · rfl

theorem SameGroups.doc {k k' : Keyhive} (h : SameGroups k k') {i : Id} {d : Doc} (hd : AMap.get k.docs i = some d) :
    ∃ d', AMap.get k'.docs i = some d' ∧ d'.group = d.group := by
  have := h.docs i
  rw [hd] at this
  simpa [Option.map_eq_some_iff] using this

/-- The key tree of a document gained exactly the individuals `Q`. -/
def Gains (k k' : Keyhive) (i : Id) (Q : Id → Prop) : Prop :=
  ∀ doc c, AMap.get k.docs i = some doc → doc.cgka = some c → Current c →
    ∃ doc' c', AMap.get k'.docs i = some doc' ∧ doc'.cgka = some c' ∧ Current c' ∧
      ∀ j, c'.tree.containsId j = true ↔ Q j ∨ c.tree.containsId j = true

theorem Gains.same {k k' : Keyhive} {i : Id} {Q : Id → Prop} (h : AMap.get k'.docs i = AMap.get k.docs i) (hQ : ∀ j, ¬ Q j) : Gains k k' i Q := by
  intro doc c hd hc hcur
  exact ⟨doc, c, by rw [h]; exact hd, hc, hcur, fun j => by simp [hQ j]⟩

theorem Gains.trans {k k1 k2 : Keyhive} {i : Id} {Q Q1 Q2 : Id → Prop} (h1 : Gains k k1 i Q1) (h2 : Gains k1 k2 i Q2)
    (hQ : ∀ j, Q j ↔ Q1 j ∨ Q2 j) : Gains k k2 i Q := by
  intro doc c hd hc hcur
  obtain ⟨d1, c1, a1, a2, a3, a4⟩ := h1 doc c hd hc hcur
  obtain ⟨d2, c2, b1, b2, b3, b4⟩ := h2 d1 c1 a1 a2 a3
  refine ⟨d2, c2, b1, b2, b3, fun j => ?_⟩
  rw [b4, a4, hQ]
  constructor
  · rintro (h | h | h)
    · exact .inl (.inr h)
    · exact .inl (.inl h)
    · exact .inr h
  · rintro ((h | h) | h)
    · exact .inr (.inl h)
    · exact .inl h
    · exact .inr (.inr h)

/-- The key tree of a document lost only individuals of `Q`. -/
def Loses (k k' : Keyhive) (i : Id) (Q : Id → Prop) : Prop :=
  ∀ doc c, AMap.get k.docs i = some doc → doc.cgka = some c → Current c →
    ∃ doc' c', AMap.get k'.docs i = some doc' ∧ doc'.cgka = some c' ∧ Current c' ∧
      (∀ j, c'.tree.containsId j = true → c.tree.containsId j = true) ∧
      ∀ j, ¬ Q j → c.tree.containsId j = true → c'.tree.containsId j = true

theorem Loses.same {k k' : Keyhive} {i : Id} {Q : Id → Prop} (h : AMap.get k'.docs i = AMap.get k.docs i) : Loses k k' i Q := by
  intro doc c hd hc hcur
  exact ⟨doc, c, by rw [h]; exact hd, hc, hcur, fun _ h => h, fun _ _ h => h⟩

theorem Loses.trans {k k1 k2 : Keyhive} {i : Id} {Q : Id → Prop} (h1 : Loses k k1 i Q) (h2 : Loses k1 k2 i Q) : Loses k k2 i Q := by
  intro doc c hd hc hcur
  obtain ⟨d1, c1, a1, a2, a3, a4, a5⟩ := h1 doc c hd hc hcur
  obtain ⟨d2, c2, b1, b2, b3, b4, b5⟩ := h2 d1 c1 a1 a2 a3
  exact ⟨d2, c2, b1, b2, b3, fun j h => a4 j (b4 j h), fun j hq h => b5 j hq (a5 j hq h)⟩

theorem propagateAdd_spec {L : Local} {gid : Id} {who : Agent} {k k' : Keyhive} {did : Id} {ops : List SOp}
    (hk : Kept E k) (hS : ∀ d, AMap.get k.docs did = some d → Sound k.world d.group) (hK : OneKind k.world who) (hne : gid ≠ did)
    (h : k.propagateAdd E L gid who did = (k', .ok ops)) :
    SameGroups k k' ∧ (∀ i, i ≠ did → AMap.get k'.docs i = AMap.get k.docs i) ∧
      Gains k k' did (fun j => (∃ d, AMap.get k.docs did = some d ∧ Within k.world d.group gid) ∧ Behind k.world who j) := by
  unfold Keyhive.propagateAdd at h
  split at h
  · rename_i hn
    cases h
    exact ⟨.refl k, fun _ _ => rfl, .same rfl (by rw [hn]; simp)⟩
  · rename_i doc hd
    split at h
    · cases h
    · rename_i tm htm
      have hid := (hk.docs hd).1
      obtain ⟨t1, t2⟩ := transitive_spec (hS doc hd) htm
      have hin : AMap.contains tm gid = true ↔ Within k.world doc.group gid := by
        rw [AMap.contains_iff, AMap.mem_keys_iff]
        constructor
        · intro hx
          cases hg : AMap.get tm gid with
          | none => exact absurd hg hx
          | some p =>
            obtain ⟨h1, links, h2, _⟩ := t1 gid p.1 p.2 hg
            exact ⟨p.1, links, h2, h1⟩
        · rintro ⟨a, links, hp, rfl⟩
          exact t2 a links hp (by rw [hid]; exact hne)
      split at h
      · rename_i hc
        cases h
        refine ⟨.refl k, fun _ _ => rfl, .same rfl ?_⟩
        rintro j ⟨⟨d, h1, h2⟩, _⟩
        rw [hd] at h1
        cases h1
        rw [hin.2 h2] at hc
        cases hc
      · rename_i hc
        have hw : Within k.world doc.group gid := hin.1 (by simpa using hc)
        split at h
        · cases h
        · rename_i prekeys hpk
          split at h
          · cases h
          · rename_i doc' ops' hadd
            cases h
            have hg : doc'.group = doc.group := by
              have := addCgkaMembers_group (H := E.hashCgka did) (sign := L.signCgka did) prekeys doc []
              rw [hadd] at this
              exact this
            refine ⟨.setDoc hd hg, fun i hi => by rw [get_setDoc hd, if_neg hi], ?_⟩
            intro doc0 c h0 hc0 hcur
            rw [hd] at h0
            cases h0
            obtain ⟨c', b1, b2, b3⟩ := addCgkaMembers_tree hc0 hcur hadd
            refine ⟨doc', c', by rw [get_setDoc hd, if_pos rfl], b1, b2, fun j => ?_⟩
            rw [b3, pick_ids rfl (fun i h hh => (hk.tidy hh).1) hK hpk]
            constructor
            · rintro (h | h)
              · exact .inl ⟨⟨doc, hd, hw⟩, h⟩
              · exact .inr h
            · rintro (h | h)
              · exact .inl h.2
              · exact .inr h

theorem propagateAdds_spec {L : Local} {gid : Id} {who : Agent} : ∀ {dids : List Id} {k k' : Keyhive} {acc ops : List SOp},
    Kept E k → (∀ i d, AMap.get k.docs i = some d → Sound k.world d.group) → OneKind k.world who → gid ∉ dids →
    k.propagateAdds E L gid who dids acc = (k', .ok ops) →
    SameGroups k k' ∧ ∀ i, Gains k k' i (fun j => i ∈ dids ∧ (∃ d, AMap.get k.docs i = some d ∧ Within k.world d.group gid) ∧ Behind k.world who j) := by
  intro dids
  induction dids with
  | nil =>
    intro k k' acc ops _ _ _ _ h
    cases h
    exact ⟨.refl k, fun i => .same rfl (by simp)⟩
  | cons did dids ih =>
    intro k k' acc ops hk hS hK hn h
    rw [List.mem_cons, not_or] at hn
    unfold Keyhive.propagateAdds at h
    split at h
    · cases h
    · rename_i k1 ops1 h1
      obtain ⟨a1, a2, a3⟩ := propagateAdd_spec hk (hS did) hK hn.1 h1
      have hk1 : Kept E k1 := by
        have := kept_propagateAdd hk L gid who did
        rw [h1] at this
        exact this
      obtain ⟨b1, b2⟩ := ih hk1 (by
        intro i d hd
        rw [a1.world]
        have := a1.docs i
        rw [hd] at this
        cases h0 : AMap.get k.docs i with
        | none => rw [h0] at this; cases this
        | some d0 =>
          rw [h0] at this
          simp only [Option.map_some, Option.some.injEq] at this
          rw [this]
          exact hS i d0 h0) (by rw [a1.world]; exact hK) hn.2 h
      have hsame : ∀ i, (∃ d, AMap.get k1.docs i = some d ∧ Within k1.world d.group gid) ↔
          ∃ d, AMap.get k.docs i = some d ∧ Within k.world d.group gid := by
        intro i
        have hm := a1.docs i
        rw [a1.world]
        constructor
        · rintro ⟨d, h1, h2⟩
          rw [h1] at hm
          cases h0 : AMap.get k.docs i with
          | none => rw [h0] at hm; cases hm
          | some d0 =>
            rw [h0] at hm
            simp only [Option.map_some, Option.some.injEq] at hm
            exact ⟨d0, rfl, by rw [← hm]; exact h2⟩
        · rintro ⟨d, h1, h2⟩
          obtain ⟨d', h3, h4⟩ := a1.doc h1
          exact ⟨d', h3, by rw [h4]; exact h2⟩
      refine ⟨a1.trans b1, fun i => ?_⟩
      by_cases hi : i = did
      · subst hi
        refine a3.trans (b2 i) fun j => ?_
        rw [hsame, a1.world, List.mem_cons]
        constructor
        · rintro ⟨_, h⟩; exact .inl h
        · rintro (h | h)
          · exact ⟨.inl rfl, h⟩
          · exact ⟨.inl rfl, h.2⟩
      · refine (Gains.same (Q := fun _ => False) (a2 i hi) (by simp)).trans (b2 i) fun j => ?_
        rw [hsame, a1.world, List.mem_cons]
        simp [hi]

theorem propagateRemove_spec {L : Local} {gid : Id} {ids : List Id} {k k' : Keyhive} {did : Id} {ops : List SOp}
    (hk : Kept E k) (hS : ∀ d, AMap.get k.docs did = some d → Sound k.world d.group) (hne : gid ≠ did)
    (h : k.propagateRemove E L gid ids did = (k', .ok ops)) :
    SameGroups k k' ∧ (∀ i, i ≠ did → AMap.get k'.docs i = AMap.get k.docs i) ∧
      Loses k k' did (fun j => j ∈ ids ∧ ∃ d, AMap.get k.docs did = some d ∧ Within k.world d.group gid ∧
        (j ≠ did → ¬ ∃ b links, Path k.world d.group b links ∧ b.isMembered = false ∧ b.id = j)) := by
  unfold Keyhive.propagateRemove at h
  split at h
  · cases h
    exact ⟨.refl k, fun _ _ => rfl, .same rfl⟩
  · rename_i doc hd
    split at h
    · cases h
    · rename_i tm htm
      have hid := (hk.docs hd).1
      obtain ⟨t1, t2⟩ := transitive_spec (hS doc hd) htm
      split at h
      · cases h
        exact ⟨.refl k, fun _ _ => rfl, .same rfl⟩
      · rename_i hc
        cases h
        have hg := dropCgkaMembers_group (H := E.hashCgka did) (sign := L.signCgka did)
          (ids.filter (fun i => decide (i ∉ ((AMap.values tm).filter (fun p => !p.1.isMembered)).map (fun p => p.1.id)))) doc []
        refine ⟨.setDoc hd hg, fun i hi => by rw [get_setDoc hd, if_neg hi], ?_⟩
        intro doc0 c h0 hc0 hcur
        rw [hd] at h0
        cases h0
        obtain ⟨c', b1, b2, b3, b4⟩ := dropCgkaMembers_tree (H := E.hashCgka did) (sign := L.signCgka did)
          (ids.filter (fun i => decide (i ∉ ((AMap.values tm).filter (fun p => !p.1.isMembered)).map (fun p => p.1.id)))) [] hc0 hcur
        refine ⟨_, c', by rw [get_setDoc hd, if_pos rfl], b1, b2, b3, fun j hq hj => b4 j ?_ hj⟩
        intro hmem
        rw [List.mem_filter, decide_eq_true_eq] at hmem
        apply hq
        refine ⟨hmem.1, doc, hd, ?_, ?_⟩
        · have hc : AMap.contains tm gid = true := by simpa using hc
          rw [AMap.contains_iff, AMap.mem_keys_iff] at hc
          cases hg : AMap.get tm gid with
          | none => exact absurd hg hc
          | some p =>
            obtain ⟨h1, links, h2, _⟩ := t1 gid p.1 p.2 hg
            exact ⟨p.1, links, h2, h1⟩
        · rintro hjd ⟨b, links, hp, hm, rfl⟩
          apply hmem.2
          have hne' := t2 b links hp (by rw [hid]; exact hjd)
          cases hb : AMap.get tm b.id with
          | none => exact (hne' hb).elim
          | some p =>
            obtain ⟨h1, links2, h2, _⟩ := t1 b.id p.1 p.2 hb
            obtain ⟨d1, e1, e2⟩ := path_around hp
            obtain ⟨d2, e3, e4⟩ := path_around h2
            have := (hS doc hd).kind d1 d2 e1 e3 (by rw [e2, e4, h1])
            rw [e2, e4] at this
            refine List.mem_map.2 ⟨p, List.mem_filter.2 ⟨List.mem_map.2 ⟨(b.id, p), AMap.mem_of_get hb, rfl⟩, ?_⟩, h1⟩
            rw [← this, hm]
            rfl

theorem propagateRemoves_spec {L : Local} {gid : Id} {ids : List Id} : ∀ {dids : List Id} {k k' : Keyhive} {acc ops : List SOp},
    Kept E k → (∀ i d, AMap.get k.docs i = some d → Sound k.world d.group) → gid ∉ dids →
    k.propagateRemoves E L gid ids dids acc = (k', .ok ops) →
    SameGroups k k' ∧ ∀ i, Loses k k' i (fun j => j ∈ ids ∧ ∃ d, AMap.get k.docs i = some d ∧ Within k.world d.group gid ∧
        (j ≠ i → ¬ ∃ b links, Path k.world d.group b links ∧ b.isMembered = false ∧ b.id = j)) := by
  intro dids
  induction dids with
  | nil =>
    intro k k' acc ops _ _ _ h
    cases h
    exact ⟨.refl k, fun i => .same rfl⟩
  | cons did dids ih =>
    intro k k' acc ops hk hS hn h
    rw [List.mem_cons, not_or] at hn
    unfold Keyhive.propagateRemoves at h
    split at h
    · cases h
    · rename_i k1 ops1 h1
      obtain ⟨a1, a2, a3⟩ := propagateRemove_spec hk (hS did) hn.1 h1
      have hk1 : Kept E k1 := by
        have := kept_propagateRemove hk L gid ids did
        rw [h1] at this
        exact this
      have hback : ∀ i d, AMap.get k1.docs i = some d → ∃ d0, AMap.get k.docs i = some d0 ∧ d.group = d0.group := by
        intro i d hd
        have := a1.docs i
        rw [hd] at this
        cases h0 : AMap.get k.docs i with
        | none => rw [h0] at this; cases this
        | some d0 =>
          rw [h0] at this
          simp only [Option.map_some, Option.some.injEq] at this
          exact ⟨d0, rfl, this⟩
      obtain ⟨b1, b2⟩ := ih hk1 (by
        intro i d hd
        obtain ⟨d0, h0, hg⟩ := hback i d hd
        rw [a1.world, hg]
        exact hS i d0 h0) hn.2 h
      refine ⟨a1.trans b1, fun i => ?_⟩
      have h2 : Loses k k1 i (fun j => j ∈ ids ∧ ∃ d, AMap.get k.docs i = some d ∧ Within k.world d.group gid ∧
          (j ≠ i → ¬ ∃ b links, Path k.world d.group b links ∧ b.isMembered = false ∧ b.id = j)) := by
        by_cases hi : i = did
        · subst hi; exact a3
        · exact .same (a2 i hi)
      refine h2.trans ?_
      intro doc c hd hc hcur
      obtain ⟨d', c', e1, e2, e3, e4, e5⟩ := b2 i doc c hd hc hcur
      refine ⟨d', c', e1, e2, e3, e4, fun j hq hj => e5 j ?_ hj⟩
      rintro ⟨f1, d1, f2, f3, f4⟩
      obtain ⟨d0, h0, hg⟩ := hback i d1 f2
      rw [a1.world, hg] at f3 f4
      exact hq ⟨f1, d0, h0, f3, f4⟩

end Verif.Keyhive
