import Verif.Keyhive.TakeSpec
import Verif.Keyhive.WaitProps
import Verif.Keyhive.FleetLemmas
import Verif.Cgka.HandLemmas

/-! # Helper lemmas: taking in the key history of a document -/

namespace Verif.Keyhive

open Verif.Group Verif.Cgka Verif.BeeKem

variable {E : Env}

/-- The document's tree has the operation with this hash. -/
def Doc.Knows (d : Doc) (x : Nat) : Prop := ∃ b, d.cgka = some b ∧ Verif.Cgka.Knows b x

theorem new_tree (H : SOp → Nat) (id : MemberId) (pk : Pk) (op : SOp) :
    ∃ c, Cgka.newFromInitAdd H id pk op = .ok c ∧ ∀ x, Verif.Cgka.Knows c x ↔ x = H op := by
  obtain ⟨t, ht, -⟩ := Verif.BeeKem.BeeKem.new_ok id pk
  unfold Cgka.newFromInitAdd
  rw [ht]
  refine ⟨_, rfl, fun x => ?_⟩
  unfold Verif.Cgka.Knows
  show (∃ o, AMap.get [(H op, op)] x = some o) ↔ _
  rw [AMap.get_cons]
  simp [eq_comm]

/-- The operations of a tree without predecessors. -/
theorem first_of {H : SOp → Nat} (hH : Function.Injective H) {c : Cgka} (hc : Trusted H c) (h1 : OneRoot c) {op : SOp}
    (hop : AMap.get c.graph.ops (H op) = some op) (hp : op.payload.preds = []) : ∃ id pk n ps, op.payload = .add id pk n [] ps := by
  have hi := reachOk_inv hH (trusted_ok hc)
  obtain ⟨r1, n, ps, r2⟩ := hi.root
  have hno : ∀ {o : SOp}, AMap.get c.graph.ops (H o) = some o → o.payload.preds = [] → ∀ p, ¬ Verif.Cgka.Names c p (H o) := by
    rintro o ho he p ⟨o', e1, e2⟩
    rw [ho] at e1
    cases e1
    rw [he] at e2
    cases e2
  have := h1 (H op) (H c.initAddOp) ⟨_, hop⟩ ⟨_, r1⟩ (hno hop hp) (hno r1 (by rw [r2]; rfl))
  rw [hH this]
  exact ⟨_, _, n, ps, r2⟩

/-- Taking in the next operation of the history of `c`. -/
theorem take_merge {H : SOp → Nat} (hH : Function.Injective H) {c : Cgka} (hc : Trusted H c) (h1 : OneRoot c) (hs : NoConcurrentRemoval c)
    {d : Doc} (hd : d.Has (Trusted H)) (hw : ∀ x, d.Knows x → Knows c x) {op : SOp} (hop : AMap.get c.graph.ops (H op) = some op)
    (hp : ∀ p ∈ op.payload.preds, d.Knows p) :
    ∃ b, (d.mergeCgkaOp H op).2 = .ok b ∧ ∀ x, (d.mergeCgkaOp H op).1.Knows x ↔ d.Knows x ∨ x = H op := by
  unfold Doc.mergeCgkaOp
  cases hb : d.cgka with
  | some b =>
    have he : ∀ x, d.Knows x ↔ Knows b x := fun x => by simp [Doc.Knows, hb]
    obtain ⟨r, e1, e2⟩ := hand_step hH (hd b hb) hc (fun x hx => hw x ((he x).2 hx)) h1 hs hop (fun p hpp => (he p).1 (hp p hpp))
    refine ⟨r, e1, fun x => ?_⟩
    rw [he, ← e2]
    simp [Doc.Knows]
  | none =>
    have he : ∀ x, ¬ d.Knows x := fun x => by simp [Doc.Knows, hb]
    have hn : op.payload.preds = [] := List.eq_nil_iff_forall_not_mem.2 (fun p hpp => he p (hp p hpp))
    obtain ⟨id, pk, n, ps, ho⟩ := first_of hH hc h1 hop hn
    obtain ⟨c', e1, e2⟩ := new_tree H id pk op
    simp only [ho, List.isEmpty_nil, Bool.not_true, e1]
    refine ⟨true, rfl, fun x => ?_⟩
    rw [or_iff_right (he x), ← e2]
    simp only [Bool.false_eq_true, if_false, Doc.Knows, Option.some.injEq, exists_eq_left']
    rfl

theorem take_invite {H : SOp → Nat} (hH : Function.Injective H) {c : Cgka} (hc : Trusted H c) (h1 : OneRoot c) (hs : NoConcurrentRemoval c)
    {d : Doc} (hd : d.Has (Trusted H)) (hw : ∀ x, d.Knows x → Knows c x) {op : SOp} (hop : AMap.get c.graph.ops (H op) = some op)
    (hp : ∀ p ∈ op.payload.preds, d.Knows p) (hn : d.cgka ≠ none) {id : MemberId} {pk : Pk} {i : Nat} {ps as : List Nat} (ho : op.payload = .add id pk i ps as)
    {sk : Sk} (hsk : pk = shareKey sk) :
    ∃ b, (d.mergeCgkaInviteOp H op sk).2 = .ok b ∧ ∀ x, (d.mergeCgkaInviteOp H op sk).1.Knows x ↔ d.Knows x ∨ x = H op := by
  obtain ⟨b, hb⟩ := Option.ne_none_iff_exists'.1 hn
  have he : ∀ x, d.Knows x ↔ Knows b x := fun x => by simp [Doc.Knows, hb]
  have hq : b.graph.containsPredecessors op.payload.preds = true := by
    rw [WaitProps.preds_of]
    intro p hpp
    obtain ⟨o, h⟩ := (he p).1 (hp p hpp)
    rw [h]; simp
  have hk : ∀ x, ({ d with cgka := some (withPublic (b.withNewOwner id (AMap.insert b.ownerSks pk sk))) } : Doc).Knows x ↔ d.Knows x := by
    intro x
    rw [he]
    simp only [Doc.Knows, Option.some.injEq, exists_eq_left']
    rfl
  have := take_merge hH hc h1 hs (d := { d with cgka := some (withPublic (b.withNewOwner id (AMap.insert b.ownerSks pk sk))) })
    (by
      intro c' h'
      cases h'
      exact trusted_public (hd b hb) ((trusted_pairs hH (hd b hb)).insert' hsk))
    (fun x hx => hw x ((hk x).1 hx)) hop (fun p hpp => (hk p).2 (hp p hpp))
  unfold Doc.mergeCgkaInviteOp
  rw [ho]
  simp only [hb]
  rw [ho] at hq
  rw [hq]
  simpa [hk] using this

/-- What a device needs in order to take in an operation that adds an agent. -/
structure Able (w : Keyhive) (d : Doc) (op : SOp) : Prop where
  prekey : ∀ pk i ps as, op.payload = .add w.reg.me pk i ps as → AMap.get w.pairs pk ≠ none
  begun : AddsAgent op w.reg.me ∨ AddsAgent op w.reg.pub → d.cgka ≠ none

theorem close_take {w : Keyhive} {did : Id} {d : Doc} (hd : AMap.get w.docs did = some d) {α : Type} {r : Doc × Res α} {b : α}
    (h : r.2 = .ok b) : (w.closeDoc did r).2 = .ok () ∧ AMap.get (w.closeDoc did r).1.docs did = some r.1 := by
  unfold Keyhive.closeDoc
  rw [h]
  refine ⟨rfl, ?_⟩
  show AMap.get (w.setDoc did r.1).docs did = _
  rw [get_setDoc hd]
  simp

theorem take_step (hH : ∀ i, Function.Injective (E.hashCgka i)) {w : Keyhive} (hw : FleetOk E w) {did : Id} {d : Doc}
    (hd : AMap.get w.docs did = some d) {c : Cgka} (hc : Trusted (E.hashCgka did) c) (h1 : OneRoot c) (hs : NoConcurrentRemoval c)
    (hsub : ∀ x, d.Knows x → Knows c x) {op : SOp} (hop : AMap.get c.graph.ops (E.hashCgka did op) = some op)
    (hp : ∀ p ∈ op.payload.preds, d.Knows p) (hv : E.validCgka did op = true) (hpub : PublicAsKnown op) (ha : Able w d op) :
    (w.receive E (.cgka did op)).2 = .ok () ∧ ∃ d', AMap.get (w.receive E (.cgka did op)).1.docs did = some d' ∧
      ∀ x, d'.Knows x ↔ d.Knows x ∨ x = E.hashCgka did op := by
  have ht := hw.trees did d hd
  obtain ⟨b, m1, m2⟩ := take_merge (hH did) hc h1 hs ht hsub hop hp
  have merge := close_take hd m1
  show (w.receiveCgkaOp E did op).2 = _ ∧ ∃ d', AMap.get (w.receiveCgkaOp E did op).1.docs did = _ ∧ _
  unfold Keyhive.receiveCgkaOp
  rw [hv, hd]
  simp only [Bool.not_true, Bool.false_eq_true, if_false]
  split
  · rename_i added pk i ps as ho
    split
    · rename_i hme
      subst hme
      obtain ⟨sk, hsk⟩ := Option.ne_none_iff_exists'.1 (ha.prekey _ _ _ _ ho)
      obtain ⟨b, n1, n2⟩ := take_invite (hH did) hc h1 hs ht hsub hop hp (ha.begun (.inl ⟨_, _, _, _, ho⟩)) ho (hw.pairs _ (AMap.mem_of_get hsk))
      rw [hsk]
      have := close_take hd n1
      exact ⟨this.1, _, this.2, n2⟩
    · split
      · rename_i hpp
        subst hpp
        have hpk : pk = shareKey publicSk := hpub pk i ps as (by rw [ho, hw.pub])
        obtain ⟨b, n1, n2⟩ := take_invite (hH did) hc h1 hs ht hsub hop hp (ha.begun (.inr ⟨_, _, _, _, ho⟩)) ho hpk
        unfold Keyhive.mergePublicInvite
        cases hq : d.mergeCgkaInviteOp (E.hashCgka did) op publicSk with
        | mk d' r =>
          rw [hq] at n1 n2
          cases n1
          obtain ⟨u, hu⟩ := WaitProps.reset_err hq w.reg.me
          have := close_take hd hu
          refine ⟨this.1, _, this.2, fun x => ?_⟩
          rw [← n2 x]
          unfold Doc.resetCgkaOwner
          split
          · rfl
          · rename_i c' hc'
            simp only [Doc.Knows, hc', Option.some.injEq, exists_eq_left']
            rfl
      · exact ⟨merge.1, _, merge.2, m2⟩
  · exact ⟨merge.1, _, merge.2, m2⟩

/-- Taking in all of it. -/
theorem take_all (hH : ∀ i, Function.Injective (E.hashCgka i)) {did : Id} {c : Cgka} (hc : Trusted (E.hashCgka did) c) (h1 : OneRoot c)
    (hs : NoConcurrentRemoval c) : ∀ {l : List SOp} {w : Keyhive} {d : Doc}, FleetOk E w → AMap.get w.docs did = some d →
    (∀ x, d.Knows x → Knows c x) → (∀ op ∈ l, AMap.get c.graph.ops (E.hashCgka did op) = some op) →
    (∀ l1 op l2, l = l1 ++ op :: l2 → ∀ p ∈ op.payload.preds, d.Knows p ∨ ∃ o ∈ l1, E.hashCgka did o = p) →
    (∀ op ∈ l, E.validCgka did op = true ∧ PublicAsKnown op) →
    (∀ op ∈ l, ∀ pk i ps as, op.payload = .add w.reg.me pk i ps as → AMap.get w.pairs pk ≠ none) →
    (∀ op ∈ l, op.payload.preds = [] → d.cgka = none → ¬ AddsAgent op w.reg.me ∧ ¬ AddsAgent op w.reg.pub) →
    TakesAll E did w l ∧ ∃ d', AMap.get (takes E did w l).docs did = some d' ∧
      ∀ x, d'.Knows x ↔ d.Knows x ∨ ∃ o ∈ l, E.hashCgka did o = x := by
  intro l
  induction l with
  | nil => intro w d _ hd _ _ _ _ _ _; exact ⟨trivial, d, hd, fun x => by simp⟩
  | cons op l ih =>
    intro w d hw hd hsub hall hord hval hkey hbeg
    have hop := hall op List.mem_cons_self
    have hp : ∀ p ∈ op.payload.preds, d.Knows p := fun p hpp => by
      rcases hord [] op l rfl p hpp with h | ⟨o, h, -⟩
      · exact h
      · cases h
    obtain ⟨v1, v2⟩ := hval op List.mem_cons_self
    have ha : Able w d op := by
      refine ⟨hkey op List.mem_cons_self, fun h hn => ?_⟩
      have hnil : op.payload.preds = [] := List.eq_nil_iff_forall_not_mem.2 (fun p hpp => by
        obtain ⟨b, hb, -⟩ := hp p hpp
        rw [hn] at hb
        cases hb)
      have := hbeg op List.mem_cons_self hnil hn
      exact h.elim this.1 this.2
    obtain ⟨s1, d1, s2, s3⟩ := take_step hH hw hd hc h1 hs hsub hop hp v1 v2 ha
    have hself := receive_self (E := E) w (.cgka did op)
    have hw1 : FleetOk E (w.receive E (.cgka did op)).1 := sound_receive hH hw (by
      intro i o he
      cases he
      exact ⟨⟨c, _, hc, hop⟩, v2⟩)
    have hn1 : d1.cgka ≠ none := by
      obtain ⟨b, hb, -⟩ := (s3 _).2 (.inr rfl)
      rw [hb]; simp
    obtain ⟨t1, d2, t2, t3⟩ := ih hw1 s2 (fun x hx => ((s3 x).1 hx).elim (hsub x) (fun e => e ▸ ⟨_, hop⟩))
      (fun o ho => hall o (List.mem_cons_of_mem _ ho))
      (by
        rintro l1 o l2 rfl p hpp
        rcases hord (op :: l1) o l2 rfl p hpp with h | ⟨o', h, rfl⟩
        · exact .inl ((s3 p).2 (.inl h))
        · rcases List.mem_cons.1 h with rfl | h
          · exact .inl ((s3 _).2 (.inr rfl))
          · exact .inr ⟨o', h, rfl⟩)
      (fun o ho => hval o (List.mem_cons_of_mem _ ho))
      (by
        rw [hself.me, hself.pairs]
        exact fun o ho => hkey o (List.mem_cons_of_mem _ ho))
      (fun o ho _ hn => absurd hn hn1)
    refine ⟨⟨s1, t1⟩, d2, t2, fun x => ?_⟩
    rw [t3, s3]
    constructor
    · rintro ((h | rfl) | ⟨o, h, rfl⟩)
      · exact .inl h
      · exact .inr ⟨op, List.mem_cons_self, rfl⟩
      · exact .inr ⟨o, List.mem_cons_of_mem _ h, rfl⟩
    · rintro (h | ⟨o, h, rfl⟩)
      · exact .inl (.inl h)
      · rcases List.mem_cons.1 h with rfl | h
        · exact .inl (.inr rfl)
        · exact .inr ⟨o, h, rfl⟩

end Verif.Keyhive
