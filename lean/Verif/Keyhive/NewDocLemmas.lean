import Verif.Keyhive.TreeLemmas
import Verif.Keyhive.SettleLemmas

/-! # The key tree of a new document -/

namespace Verif.BeeKem.BeeKem

theorem insertInnerNodeAt_ids {t t' : BeeKem} {i : Nat} {s : SecretStore} (h : t.insertInnerNodeAt i s = .ok t') :
    t'.idToLeafIdx = t.idToLeafIdx := by
  unfold insertInnerNodeAt at h
  split at h
  · cases h; rfl
  · cases h

theorem insertLeafAt_ids {t t' : BeeKem} {i : Nat} {id : MemberId} {pk : NodeKey} (h : t.insertLeafAt i id pk = .ok t') :
    t'.idToLeafIdx = t.idToLeafIdx := by
  unfold insertLeafAt at h
  split at h
  · cases h; rfl
  · cases h

theorem encryptLoop_ids {g : Gen} {fuel : Nat} {s s' : EncState} (h : encryptLoop g fuel s = .ok s') :
    s'.tree.idToLeafIdx = s.tree.idToLeafIdx := by
  induction fuel generalizing s with
  | zero => simp [encryptLoop] at h
  | succ fuel ih =>
    unfold encryptLoop at h
    split at h
    · cases h; rfl
    · simp only [bind, Except.bind] at h
      split at h
      · simp at h
      · rename_i s1 h1
        rw [ih h]
        unfold encryptStep at h1
        simp only [bind, Except.bind] at h1
        split at h1
        · simp at h1
        · split at h1
          · simp at h1
          · split at h1
            · simp at h1
            · rename_i t1 h2
              cases h1
              exact insertInnerNodeAt_ids h2

theorem encryptPath_ids {t t' : BeeKem} {g : Gen} {c : Nat} {id : MemberId} {pk : Pk} {sks : ShareKeyMap}
    {x : ShareKeyMap × Nat × Sk × PathChange} (h : t.encryptPath g c id pk sks = .ok (t', x)) : t'.idToLeafIdx = t.idToLeafIdx := by
  unfold encryptPath at h
  simp only [bind, Except.bind] at h
  split at h
  · simp at h
  · split at h
    · simp at h
    · split at h
      · simp at h
      · rename_i t1 h1
        split at h
        · simp at h
        · split at h
          · simp at h
          · rename_i s hs
            cases h
            exact (encryptLoop_ids hs).trans (insertLeafAt_ids h1)

theorem new_ids {t : BeeKem} {id : MemberId} {pk : Pk} (h : BeeKem.new id pk = .ok t) (j : MemberId) : t.containsId j = true ↔ j = id := by
  unfold BeeKem.new at h
  simp only [bind, Except.bind, pure, Except.pure] at h
  split at h
  · cases h
  · rename_i x hx
    cases h
    have := pushLeaf_ids (i := x.2) hx
    rw [contains_insert this j]
    simp [growTreeToSize, containsId, AMap.contains]

end Verif.BeeKem.BeeKem

namespace Verif.Cgka

open Verif.BeeKem

theorem Current.update {H : SOp → Nat} {sign : Payload → Res SOp} {c c' : Cgka} {g : BeeKem.Gen} {n : Nat} {sk : Sk} {x : Sk × SOp}
    (hc : Current c) (h : c.update H sign g n sk = (c', .ok x)) (j : MemberId) :
    c'.tree.containsId j = c.tree.containsId j := by
  unfold Cgka.update at h
  rw [hc.replay H] at h
  simp only at h
  split at h
  · cases h
  · split at h
    · cases h
    · rename_i tree sks n' k path he
      split at h
      · cases h
      · cases h
        unfold BeeKem.containsId
        simp only [Cgka.insertPcsKey]
        rw [BeeKem.encryptPath_ids he]

theorem new_current {H : SOp → Nat} {sign : Payload → Res SOp} {id : MemberId} {pk : Pk} {c : Cgka} (h : Cgka.new H sign id pk = .ok c) :
    Current c ∧ ∀ j, c.tree.containsId j = true ↔ j = id := by
  unfold Cgka.new Cgka.newFromInitAdd at h
  simp only [bind, Except.bind, pure, Except.pure] at h
  split at h
  · cases h
  · split at h
    · cases h
    · rename_i t ht
      cases h
      exact ⟨⟨rfl, _, rfl⟩, fun j => BeeKem.new_ids ht j⟩

end Verif.Cgka

namespace Verif.Group

theorem sub_caps (can best : Access) : ∀ (l : List Dlg) (t : Trans), (l.foldl (Trans.sub can best) t).caps = t.caps
  | [], _ => rfl
  | d :: l, t => by
    rw [List.foldl_cons, sub_caps can best l]
    unfold Trans.sub
    split <;> rfl

theorem member_caps (best : Access) : ∀ (l : List (Id × List Dlg)) (t : Trans), AMap.WF t.caps → AMap.WF (l.foldl (Trans.member best) t).caps
  | [], _, h => h
  | m :: l, t, h => by
    rw [List.foldl_cons]
    refine member_caps best l _ ?_
    unfold Trans.member
    split
    · exact h
    · rw [sub_caps]
      exact AMap.wf_insert h _ _

theorem run_caps {W : World} {held : List Id} {self : Id} : ∀ (n : Nat) {t t' : Trans}, Trans.run W held self n t = .ok t' → AMap.WF t.caps → AMap.WF t'.caps
  | 0, _, _, h, hw => by cases h; exact hw
  | n + 1, t, t', h, hw => by
    unfold Trans.run at h
    split at h
    · cases h; exact hw
    · simp only [bind, Except.bind] at h
      split at h
      · cases h
      · rename_i t1 h1
        refine run_caps n h ?_
        unfold Trans.turn at h1
        split at h1
        · cases h1; exact hw
        · simp only at h1
          split at h1
          · split at h1
            · cases h1
            · split at h1
              · cases h1; exact AMap.wf_insert hw _ _
              · cases h1
                exact member_caps _ _ _ (AMap.wf_insert hw _ _)
          · cases h1
            exact AMap.wf_insert hw _ _

theorem start_caps (g : Group) : (Trans.start g).caps = [] := by
  have key : ∀ (l : List (Id × List Dlg)) (t : Trans), (l.foldl Trans.startStep t).caps = t.caps := by
    intro l
    induction l with
    | nil => intro t; rfl
    | cons m l ih =>
      intro t
      rw [List.foldl_cons, ih]
      unfold Trans.startStep
      split <;> rfl
  exact key _ _

theorem transitive_wf {W : World} {held : List Id} {g : Group} {caps : AMap Id (Agent × Access)}
    (h : transitiveMembers W held g = .ok caps) : AMap.WF caps := by
  unfold transitiveMembers at h
  simp only [bind, Except.bind, pure, Except.pure] at h
  split at h
  · cases h
  · rename_i t ht
    cases h
    exact run_caps _ ht (by rw [start_caps]; exact AMap.wf_nil)

end Verif.Group

namespace Verif.Keyhive

open Verif.Group Verif.Cgka Verif.BeeKem

variable {E : Env}

theorem newDocCgka_tree {L : Local} {did : Id} {others : List (Id × Pk)} {c : Cgka} (h : Keyhive.newDocCgka E L did others = .ok c) (j : Id) :
    c.tree.containsId j = true ↔ j = did ∨ j ∈ others.map (·.1) := by
  unfold Keyhive.newDocCgka at h
  simp only at h
  split at h
  · cases h
  · rename_i c0 h0
    obtain ⟨hcur, hids⟩ := new_current h0
    split at h
    · cases h
    · rename_i d ops hadd
      obtain ⟨c1, e1, hcur1, hids1⟩ := addCgkaMembers_tree (c := withPublic (c0.withNewOwner did (AMap.insert [] (shareKey (L.gen 0)) (L.gen 0)))) rfl hcur hadd
      rw [e1] at h
      simp only at h
      split at h
      · cases h
      · rename_i c2 x hu
        cases h
        rw [hcur1.update hu j, hids1]
        have : (withPublic (c0.withNewOwner did (AMap.insert [] (shareKey (L.gen 0)) (L.gen 0)))).tree = c0.tree := rfl
        rw [this, hids, or_comm]

theorem keys_insert {α : Type} (m : AMap Id α) (i j : Id) (x : α) : j ∈ AMap.keys (AMap.insert m i x) ↔ j = i ∨ j ∈ AMap.keys m := by
  rw [AMap.mem_keys_iff, AMap.mem_keys_iff, AMap.get_insert]
  by_cases h : j = i <;> simp [h]

theorem keys_insertAll : ∀ (l : List (Id × Pk)) (m : AMap Id Pk) (j : Id),
    j ∈ AMap.keys (l.foldl (fun m p => AMap.insert m p.1 p.2) m) ↔ j ∈ l.map (·.1) ∨ j ∈ AMap.keys m
  | [], m, j => by simp
  | p :: l, m, j => by
    rw [List.foldl_cons, keys_insertAll l, keys_insert, List.map_cons, List.mem_cons]
    constructor
    · rintro (h | h | h)
      · exact .inl (.inr h)
      · exact .inl (.inl h)
      · exact .inr h
    · rintro ((h | h) | h)
      · exact .inr (.inl h)
      · exact .inl h
      · exact .inr (.inr h)

theorem pickForGroup_ids {L : Local} {k : Keyhive} {doc : Id} (hT : ∀ i h, AMap.get k.world i = some h → AMap.WF h.members) :
    ∀ {ms : List (Id × Agent × Access)} {acc l : List (Id × Pk)},
      (∀ p ∈ ms, p.2.1.id = p.1 ∧ OneKind k.world p.2.1 ∧ (p.1 = k.reg.pub → p.2.1.isMembered = false)) →
      Keyhive.pickForGroup E L k doc ms acc = .ok l → ∀ j, j ∈ AMap.keys l ↔ j ∈ AMap.keys acc ∨ ∃ p ∈ ms, Behind k.world p.2.1 j := by
  intro ms
  induction ms with
  | nil => intro acc l _ h j; cases h; simp
  | cons p ms ih =>
    obtain ⟨id, a, x⟩ := p
    intro acc l hm h j
    obtain ⟨m1, m2, m3⟩ := hm (id, a, x) (by simp)
    simp only at m1 m2 m3
    unfold Keyhive.pickForGroup at h
    split at h
    · rename_i hp
      rw [ih (fun p hp => hm p (by simp [hp])) h, keys_insert]
      have hb : Behind k.world a j ↔ j = id := by
        constructor
        · rintro ⟨b, hw, _, rfl⟩
          have key : ∀ b, Walk k.world a b → b = a := by
            intro b hb
            induction hb with
            | refl => rfl
            | step _ hm2 _ _ ih' =>
              rw [ih', m3 hp] at hm2
              cases hm2
          rw [key b hw, m1]
        · rintro rfl
          exact ⟨a, .refl, m3 hp, m1⟩
      simp only [List.mem_cons, exists_eq_or_imp, hb]
      constructor
      · rintro ((h | h) | h)
        · exact .inr (.inl h)
        · exact .inl h
        · exact .inr (.inr h)
      · rintro (h | h | h)
        · exact .inl (.inr h)
        · exact .inl (.inl h)
        · exact .inr h
    · split at h
      · cases h
      · rename_i l' hl
        rw [ih (fun p hp => hm p (by simp [hp])) h, keys_insertAll, pick_ids rfl hT m2 hl]
        simp only [List.mem_cons, exists_eq_or_imp]
        constructor
        · rintro ((h | h) | h)
          · exact .inr (.inl h)
          · exact .inl h
          · exact .inr (.inr h)
        · rintro (h | h | h)
          · exact .inl (.inr h)
          · exact .inl (.inl h)
          · exact .inr h

/-- Walking on from an agent on a path, in a world that does not have the group itself. -/
theorem path_walk {W : World} {g : Group} (hn : AMap.get W g.id = none) {a b : Agent} {links : List Access} (hp : Path W g a links)
    (hw : Walk W a b) : ∃ links', Path W g b links' := by
  induction hw with
  | refl => exact ⟨links, hp⟩
  | step _ hm hg hmem ih =>
    obtain ⟨l, hl⟩ := ih
    refine ⟨_, .nested hl ?_ hm hg hmem⟩
    intro he
    rw [he, hn] at hg
    cases hg

theorem walk_path {W : World} {g : Group} {a : Agent} {links : List Access} (hp : Path W g a links) :
    ∃ m d, g.MemberBy m d ∧ Walk W d.delegate a := by
  induction hp with
  | direct hm => exact ⟨_, _, hm, .refl⟩
  | nested _ _ hm hg hmem ih =>
    obtain ⟨m, d, h1, h2⟩ := ih
    exact ⟨m, d, h1, .step h2 hm hg hmem⟩

theorem oneKind_path {W : World} {g : Group} (hS : Sound W g) {a : Agent} {links : List Access} (hp : Path W g a links) : OneKind W a := by
  obtain ⟨d0, h0, rfl⟩ := path_around hp
  have key : ∀ b, Walk W d0.delegate b → ∃ d, Around W g d ∧ d.delegate = b := by
    intro b hb
    cases hb with
    | refl => exact ⟨d0, h0, rfl⟩
    | step _ _ hg hm => exact ⟨_, .inr ⟨_, _, _, hg, hm⟩, rfl⟩
  intro b c hb hc he
  obtain ⟨d, h1, rfl⟩ := key b hb
  obtain ⟨d', h2, rfl⟩ := key c hc
  exact hS.kind d d' h1 h2 he

theorem sound_before {k k' : Keyhive} {did : Id} {d : Doc} (hn : AMap.get k.world did = none) (hg : k'.groups = k.groups)
    (hd : k'.docs = AMap.insert k.docs did d) (hS : Sound k'.world d.group) : Sound k.world d.group := by
  have hn' := hn
  rw [get_world, Option.or_eq_none_iff, Option.map_eq_none_iff] at hn'
  have hget := fun j => world_insertDoc hn'.1 hg hd j
  have hmono : ∀ i h, AMap.get k.world i = some h → AMap.get k'.world i = some h := by
    intro i h hi
    rw [hget, if_neg]
    · exact hi
    · rintro rfl; rw [hn] at hi; cases hi
  have har : ∀ x, Around k.world d.group x → Around k'.world d.group x := by
    rintro x (h | ⟨i, h, m, h1, h2⟩)
    · exact .inl h
    · exact .inr ⟨i, h, m, hmono i h h1, h2⟩
  refine ⟨?_, hS.self, fun i h hi => hS.world i h (hmono i h hi), fun x y hx hy => hS.sig x y (har x hx) (har y hy),
    fun x y hx hy => hS.kind x y (har x hx) (har y hy)⟩
  have := hS.wf
  unfold AMap.WF AMap.keys Keyhive.world at this ⊢
  rw [hg, hd, AMap.insert, erase_absent (by rw [AMap.mem_keys_iff]; simpa using hn'.2)] at this
  refine this.sublist (List.Sublist.map _ (List.Sublist.append_left ?_ _))
  exact List.sublist_cons_self _ _

theorem around_before {k k' : Keyhive} {did : Id} {d : Doc} (hn : AMap.get k.world did = none) (hg : k'.groups = k.groups)
    (hd : k'.docs = AMap.insert k.docs did d) {x : Dlg} (h : Around k.world d.group x) : Around k'.world d.group x := by
  have hn' := hn
  rw [get_world, Option.or_eq_none_iff, Option.map_eq_none_iff] at hn'
  rcases h with h | ⟨i, g, m, h1, h2⟩
  · exact .inl h
  · refine .inr ⟨i, g, m, ?_, h2⟩
    rw [world_insertDoc hn'.1 hg hd, if_neg]
    · exact h1
    · rintro rfl; rw [hn] at h1; cases h1

end Verif.Keyhive
