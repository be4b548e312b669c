import Verif.Keyhive.SpreadLemmas
import Verif.Keyhive.KeyTreeProps
import Verif.Cgka.CalmCalls

/-! # Helper lemmas: a revocation from a group takes its individuals out of the key groups -/

namespace Verif.Keyhive

open Verif.Group Verif.Cgka Verif.BeeKem

variable {E : Env}

section
variable {H : SOp → Nat} (hH : Function.Injective H)
include hH

/-- The individual is not in the key group, or alone in it. -/
def GoneFrom (c : Cgka) (j : Id) : Prop := c.tree.containsId j = true → ∀ i, c.tree.containsId i = true → i = j

omit hH in
theorem GoneFrom.less {c c' : Cgka} {j : Id} (h : GoneFrom c j) (hs : ∀ i, c'.tree.containsId i = true → c.tree.containsId i = true) :
    GoneFrom c' j := fun h1 i hi => h (hs j h1) i (hs i hi)

/-- The condition on the history for removals to succeed. -/
def Orderly (c : Cgka) : Prop := OneRootG c.graph ∧ SerialG c.graph

theorem Orderly.sub {c c' : Cgka} (ht : Trusted H c) (ht' : Trusted H c') (hk : ∀ y, Knows c y → Knows c' y) (h : Orderly c') : Orderly c := by
  have g := (reachOk_inv hH (trusted_ok ht)).graph
  have g' := (reachOk_inv hH (trusted_ok ht')).graph
  have hkn : KnownIn c.graph c'.graph := by
    intro y hy
    rw [← knows_iff] at hy ⊢
    exact hk y hy
  exact ⟨oneRoot_sub hH g g' hkn h.1, serial_sub hH g g' hkn h.2⟩

/-- A removal takes the individual out, unless it is alone. -/
theorem remove_gone {sign : Payload → Res SOp} (hs : GoodSigner sign) {c : Cgka} (ht : Trusted H c) (hcur : Current c) (ho : Orderly c) (p : Id) :
    GoneFrom (c.remove H sign p).1 p := by
  obtain ⟨c1, r, h, e1, -, -, e4⟩ := replayIf_ok hH ht ho.1 ho.2
  rw [hcur.replay H] at e1
  cases e1
  unfold Cgka.remove
  split
  · rename_i hn
    intro h1
    simp only [Bool.not_eq_true'] at hn
    rw [hn] at h1
    cases h1
  · rename_i hin
    rw [hcur.replay H]
    dsimp only
    simp only [Bool.not_eq_true', Bool.not_eq_false] at hin
    have hget : ∃ i, AMap.get c.tree.idToLeafIdx p = some i := by
      cases hg : AMap.get c.tree.idToLeafIdx p with
      | some i => exact ⟨i, rfl⟩
      | none =>
        unfold BeeKem.containsId at hin
        rw [AMap.contains_iff, AMap.mem_keys_iff] at hin
        exact (hin hg).elim
    obtain ⟨i, hi⟩ := hget
    split
    · rename_i hone
      intro _ q hq
      have hlen : c.tree.idToLeafIdx.length = 1 := hone
      obtain ⟨⟨k, v⟩, hl⟩ := List.length_eq_one_iff.1 hlen
      have only : ∀ x, c.tree.containsId x = true → x = k := by
        intro x hx
        unfold BeeKem.containsId at hx
        rw [hl, AMap.contains_iff] at hx
        simpa [AMap.keys] using hx
      rw [only q hq, only p hin]
    · rename_i hm
      replace hm : c.tree.memberCount ≠ 1 := hm
      obtain ⟨t1, B, f1, -, f2, -⟩ := BeeKem.removeId_ok e4 hi hm
      rw [f1]
      dsimp only
      obtain ⟨op, h1, _⟩ := hs (.remove p i _ c.graph.heads)
      rw [h1]
      intro h2
      dsimp only at h2
      rw [BeeKem.contains_erase f2] at h2
      exact (h2.1 rfl).elim

/-- Removals that go on after errors. -/
theorem drop_gone {sign : Payload → Res SOp} (hs : GoodSigner sign) : ∀ {l : List Id} {d : Doc} {acc : List SOp} {c c' : Cgka},
    d.cgka = some c → Trusted H c → Current c → (d.dropCgkaMembers H sign l acc).1.cgka = some c' → Orderly c' → ∀ j ∈ l, GoneFrom c' j := by
  intro l
  induction l with
  | nil => intro d acc c c' _ _ _ _ _ j hj; cases hj
  | cons p l ih =>
    intro d acc c c' hc ht hcur hc' ho j hj
    obtain ⟨c2, new, a1, -, a3⟩ := drop_cuts hH hs (l := p :: l) (acc := acc) hc ht hcur
    rw [hc'] at a1
    cases a1
    have ho0 : Orderly c := ho.sub hH ht a3.trusted a3.keeps
    have hg := remove_gone hH hs ht hcur ho0 p
    have h1 := remove_cuts hH hs ht hcur p
    have key : ∀ acc', (Doc.dropCgkaMembers H sign { d with cgka := some (c.remove H sign p).1 } l acc').1.cgka = some c' → GoneFrom c' j := by
      intro acc' h
      rcases List.mem_cons.1 hj with rfl | hj
      · obtain ⟨c3, b1, -, b3, -⟩ := dropCgkaMembers_tree (H := H) (sign := sign) l (d := { d with cgka := some (c.remove H sign j).1 }) acc' rfl h1.current
        rw [h] at b1
        cases b1
        exact hg.less b3
      · exact ih rfl h1.trusted h1.current h ho j hj
    unfold Doc.dropCgkaMembers at hc'
    rw [hc] at hc'
    simp only at hc'
    split at hc'
    · rename_i c1 e heq
      rw [heq] at key
      exact key _ hc'
    · rename_i c1 o heq
      rw [heq] at key
      exact key _ hc'

end

/-- Who is still counted among the members of a document when individuals are dropped. -/
theorem still_iff {W : World} {g : Group} (hS : Sound W g) {held : List Id} {tm : AMap Id (Agent × Access)}
    (htm : transitiveMembers W held g = .ok tm) {j : Id}
    (hj : j ∈ ((AMap.values tm).filter (fun p => !p.1.isMembered)).map (fun p => p.1.id)) :
    ∃ b links, Path W g b links ∧ b.isMembered = false ∧ b.id = j := by
  obtain ⟨t1, -⟩ := transitive_spec hS htm
  obtain ⟨p, hp, rfl⟩ := List.mem_map.1 hj
  obtain ⟨hp, hm⟩ := List.mem_filter.1 hp
  obtain ⟨q, hq, rfl⟩ := List.mem_map.1 hp
  obtain ⟨h1, links, h2, _⟩ := t1 q.1 q.2.1 q.2.2 (AMap.get_of_mem (transitive_wf htm) hq)
  exact ⟨q.2.1, links, h2, by simpa using hm, rfl⟩

/-- The key group of document `i` ends up without `j`. -/
def GoneAt (E : Env) (i : Id) (k k' : Keyhive) (j : Id) : Prop :=
  ∀ d c, AMap.get k.docs i = some d → d.cgka = some c → Trusted (E.hashCgka i) c → Current c →
    ∀ d' c', AMap.get k'.docs i = some d' → d'.cgka = some c' → Orderly c' → GoneFrom c' j

theorem propagateRemove_gone (hH : ∀ i, Function.Injective (E.hashCgka i)) {L : Local} (hs : ∀ doc, GoodSigner (L.signCgka doc)) {gid : Id}
    {ids : List Id} {k k' : Keyhive} {did : Id} {ops : List SOp} (hk : Kept E k) (hne : gid ≠ did)
    (h : k.propagateRemove E L gid ids did = (k', .ok ops)) {d : Doc} (hd : AMap.get k.docs did = some d) (hS : Sound k.world d.group)
    (hw : Within k.world d.group gid) {j : Id} (hj : j ∈ ids)
    (hno : ¬ ∃ b links, Path k.world d.group b links ∧ b.isMembered = false ∧ b.id = j) : GoneAt E did k k' j := by
  intro d0 c hd0 hc ht hcur d' c' hd' hc' ho
  rw [hd] at hd0
  cases hd0
  unfold Keyhive.propagateRemove at h
  rw [hd] at h
  dsimp only at h
  split at h
  · cases h
  · rename_i tm htm
    obtain ⟨-, t2⟩ := transitive_spec hS htm
    split at h
    · rename_i hn
      obtain ⟨a, links, hp, ha⟩ := hw
      have hid := (hk.docs hd).1
      have := t2 a links hp (by rw [hid, ha]; exact hne)
      rw [ha] at this
      have hcon : AMap.contains tm gid = true := by rw [AMap.contains_iff, AMap.mem_keys_iff]; exact this
      rw [hcon] at hn
      cases hn
    · cases h
      rw [get_setDoc hd, if_pos rfl] at hd'
      cases hd'
      refine drop_gone (hH did) (hs did) hc ht hcur hc' ho j (List.mem_filter.2 ⟨hj, ?_⟩)
      rw [decide_eq_true_eq]
      exact fun hin => hno (still_iff hS htm hin)

theorem propagateRemoves_gone (hH : ∀ i, Function.Injective (E.hashCgka i)) {L : Local} (hs : ∀ doc, GoodSigner (L.signCgka doc)) {gid : Id}
    {ids : List Id} {i : Id} : ∀ {dids : List Id} {k k' : Keyhive} {acc ops : List SOp}, Kept E k →
    (∀ i d, AMap.get k.docs i = some d → Sound k.world d.group) → gid ∉ dids → i ∈ dids →
    k.propagateRemoves E L gid ids dids acc = (k', .ok ops) → ∀ {d : Doc}, AMap.get k.docs i = some d → Within k.world d.group gid →
    ∀ {j : Id}, j ∈ ids → (¬ ∃ b links, Path k.world d.group b links ∧ b.isMembered = false ∧ b.id = j) → GoneAt E i k k' j := by
  intro dids
  induction dids with
  | nil => intro k k' acc ops _ _ _ hi; cases hi
  | cons did dids ih =>
    intro k k' acc ops hk hS hn hi h d hd hw j hj hno
    rw [List.mem_cons, not_or] at hn
    unfold Keyhive.propagateRemoves at h
    split at h
    · cases h
    · rename_i k1 ops1 h1
      obtain ⟨a1, a2, a3⟩ := propagateRemove_spec hk (hS did) hn.1 h1
      have hcut := propagateRemove_cuts hH hs h1 i
      have hk1 : Kept E k1 := by
        have := kept_propagateRemove hk L gid ids did
        rw [h1] at this
        exact this
      have hback : ∀ i d, AMap.get k1.docs i = some d → ∃ d0, AMap.get k.docs i = some d0 ∧ d.group = d0.group := by
        intro i d hd
        have := a1.docs i
        rw [hd] at this
        cases h0 : AMap.get k.docs i with
        | none => rw [h0] at this; cases this
        | some d0 =>
          rw [h0] at this
          simp only [Option.map_some, Option.some.injEq] at this
          exact ⟨d0, rfl, this⟩
      have hS1 : ∀ i d, AMap.get k1.docs i = some d → Sound k1.world d.group := by
        intro i d hd
        obtain ⟨d0, h0, hg⟩ := hback i d hd
        rw [a1.world, hg]
        exact hS i d0 h0
      intro d0 c hd0 hc ht hcur d' c' hd' hc' ho
      rw [hd] at hd0
      cases hd0
      obtain ⟨d1, c1, b1, b2, b3⟩ := hcut d c hd hc ht hcur
      obtain ⟨d00, h00, hg⟩ := hback i d1 b1
      rw [hd] at h00
      cases h00
      by_cases hii : i ∈ dids
      · exact ih hk1 hS1 hn.2 hii h b1 (by rw [a1.world, hg]; exact hw) hj (by rw [a1.world, hg]; exact hno) d1 c1 b1 b2 b3.trusted b3.current
          d' c' hd' hc' ho
      · have hid : i = did := (List.mem_cons.1 hi).resolve_right hii
        subst hid
        obtain ⟨new, -, hcuts⟩ := propagateRemoves_cuts hH hs h
        obtain ⟨d2, c2, f1, f2, f3⟩ := hcuts i d1 c1 b1 b2 b3.trusted b3.current
        rw [hd'] at f1
        cases f1
        rw [hc'] at f2
        cases f2
        have := propagateRemove_gone hH hs hk hn.1 h1 hd (hS i d hd) hw hj hno d c hd hc ht hcur d1 c1 b1 b2
          (ho.sub (hH i) b3.trusted f3.trusted f3.keeps)
        obtain ⟨-, hlose⟩ := propagateRemoves_spec hk1 hS1 hn.2 h
        obtain ⟨d3, c3, g1, g2, -, g4, -⟩ := hlose i d1 c1 b1 b2 b3.current
        rw [hd'] at g1
        cases g1
        rw [hc'] at g2
        cases g2
        exact this.less g4

theorem revokeFromGroup_gone (hH : ∀ i, Function.Injective (E.hashCgka i)) {k k' : Keyhive} (hk : Fleet E k) {L : Local}
    (hs : ∀ doc, GoodSigner (L.signCgka doc)) {gid member : Id} {retain : Bool} {content : Content} {ops : List SOp}
    {g : Group} (hno : AMap.get k.docs gid = none) (hg : AMap.get k.groups gid = some g)
    (h : k.revokeFromGroup E L gid member retain content = (k', .ok ops)) (hK : ∀ d, g.MemberBy member d → OneKind k.world d.delegate)
    (hS : ∀ i doc, AMap.get k'.docs i = some doc → Sound k'.world doc.group)
    {i : Id} {doc doc' : Doc} {c c' : Cgka} (hd : AMap.get k.docs i = some doc) (hc : doc.cgka = some c) (hcur : Current c)
    (hd' : AMap.get k'.docs i = some doc') (hc' : doc'.cgka = some c') (ho : Orderly c') {j : Id} {dl : Dlg}
    (hm : g.MemberBy member dl) (hb : Behind k.world dl.delegate j) (hin : Within k'.world doc'.group gid)
    (hout : ¬ ∃ b links, Path k'.world doc'.group b links ∧ b.isMembered = false ∧ b.id = j) :
    GoneFrom c' j := by
  have ht := fleet_trusted hH hk hd hc
  have hr := reach_kept (fleet_reach hk)
  unfold Keyhive.revokeFromGroup at h
  rw [hg] at h
  simp only at h
  split at h
  · cases h
  · rename_i ids hids
    have hj : j ∈ ids := by
      refine (idsBehind_spec (fun i h hh => (hr.tidy hh).1) ?_ hids j).2 (.inr ⟨dl.delegate, ?_, hb⟩)
      · intro a ha
        obtain ⟨d, h1, rfl⟩ := List.mem_map.1 ha
        cases hg2 : AMap.get g.members member with
        | none => rw [hg2] at h1; cases h1
        | some ds => rw [hg2] at h1; exact hK d ⟨ds, hg2, h1⟩
      · obtain ⟨ds, e1, e2⟩ := hm
        rw [e1]
        exact List.mem_map.2 ⟨dl, e2, rfl⟩
    split at h
    · cases h
    · rename_i g' revs dlgs hrev
      obtain ⟨s1, s2, _⟩ := storeAll_same (E := E) revs dlgs k
      have hgood : Good E gid g' := by
        have := (hr.groups hg).revoke (membersOf k.world [gid]) L.sign member retain k.reg.me content
        rw [hrev] at this
        exact this
      have hk1 : Kept E { k.storeAll E revs dlgs with groups := AMap.insert k.groups gid g' } := hr.insertGroup hgood rfl s2
      have hd1 : AMap.get ({ k.storeAll E revs dlgs with groups := AMap.insert k.groups gid g' } : Keyhive).docs i = some doc := by
        show AMap.get (k.storeAll E revs dlgs).docs i = some doc
        rw [s2]
        exact hd
      split at h
      · rename_i he
        cases ids with
        | nil => cases hj
        | cons x l => cases he
      · have hn : gid ∉ AMap.keys ({ k.storeAll E revs dlgs with groups := AMap.insert k.groups gid g' } : Keyhive).docs := by
          show gid ∉ AMap.keys (k.storeAll E revs dlgs).docs
          rw [s2, AMap.mem_keys_iff]
          simpa using hno
        have hpre : SameGroups { k.storeAll E revs dlgs with groups := AMap.insert k.groups gid g' } k' := by
          have key : ∀ (dids : List Id) (k k' : Keyhive) (acc ops : List SOp), k.propagateRemoves E L gid ids dids acc = (k', .ok ops) →
              SameGroups k k' := by
            intro dids
            induction dids with
            | nil => intro k k' acc ops h; cases h; exact .refl k
            | cons did dids ih =>
              intro k k' acc ops h
              unfold Keyhive.propagateRemoves at h
              split at h
              · cases h
              · rename_i k1 ops1 hk1
                refine SameGroups.trans ?_ (ih _ _ _ _ h)
                unfold Keyhive.propagateRemove at hk1
                split at hk1
                · cases hk1; exact .refl _
                · rename_i doc hd
                  split at hk1
                  · cases hk1
                  · split at hk1
                    · cases hk1; exact .refl _
                    · cases hk1
                      exact .setDoc hd (dropCgkaMembers_group _ doc [])
          exact key _ _ _ _ _ h
        rw [hpre.world] at hS hin hout
        have hS' : ∀ i doc, AMap.get ({ k.storeAll E revs dlgs with groups := AMap.insert k.groups gid g' } : Keyhive).docs i = some doc →
            Sound ({ k.storeAll E revs dlgs with groups := AMap.insert k.groups gid g' } : Keyhive).world doc.group := by
          intro i doc hd
          obtain ⟨doc', h2, h3⟩ := hpre.doc hd
          rw [← h3]
          exact hS i doc' h2
        obtain ⟨d3, e1, e2⟩ := hpre.doc hd1
        rw [hd'] at e1
        cases e1
        rw [e2] at hin hout
        refine propagateRemoves_gone hH hs hk1 hS' hn ?_ h hd1 hin hj hout doc c hd1 hc ht hcur doc' c' hd' hc' ho
        rw [AMap.mem_keys_iff, hd1]
        simp

end Verif.Keyhive
