import Verif.Keyhive.TakeProps
import Verif.Keyhive.IngestLemmas

/-! # Taking in a batch of group-key operations in any order (C127) -/

namespace Verif.Keyhive

open Verif.Group Verif.Cgka Verif.BeeKem

variable {E : Env}

/-- An operation something of whose past is missing is put off, and changes nothing. -/
theorem put_off {w : Keyhive} {did : Id} {d : Doc} (hd : AMap.get w.docs did = some d) {op : SOp}
    (hn : ¬ d.Knows (E.hashCgka did op)) (hp : ∃ p ∈ op.payload.preds, ¬ d.Knows p) (hv : E.validCgka did op = true) :
    ∃ err : Err, (w.receive E (.cgka did op)).2 = .error err ∧ err.fatal = false ∧ err.isPrekey = false ∧
      AMap.get (w.receive E (.cgka did op)).1.docs did = some d := by
  obtain ⟨p, hp1, hp2⟩ := hp
  have hmerge : ∃ e, d.mergeCgkaOp (E.hashCgka did) op = (d, .error e) ∧ Verif.Cgka.fatal e = false := by
    unfold Doc.mergeCgkaOp
    cases hc : d.cgka with
    | some c =>
      have h1 : c.graph.containsOpHash (E.hashCgka did op) = false := by
        cases hq : AMap.get c.graph.ops (E.hashCgka did op) with
        | some o => exact (hn ⟨c, hc, o, hq⟩).elim
        | none => simp [Graph.containsOpHash, AMap.contains, hq]
      have h2 : c.graph.containsPredecessors op.payload.preds = false := by
        rw [← Bool.not_eq_true, WaitProps.preds_of]
        intro h
        obtain ⟨o, ho⟩ := Option.ne_none_iff_exists'.1 (h p hp1)
        exact hp2 ⟨c, hc, o, ho⟩
      refine ⟨.outOfOrderOperation, ?_, rfl⟩
      dsimp only
      unfold Cgka.mergeConcurrentOperation
      rw [h1, h2]
      simp [← hc]
    | none =>
      cases ho : op.payload with
      | add id pk i preds as =>
        refine ⟨.outOfOrderOperation, ?_, rfl⟩
        have : preds ≠ [] := by
          rintro rfl
          rw [ho] at hp1
          simp [Payload.preds, sextend] at hp1
        cases preds with
        | nil => exact (this rfl).elim
        | cons a l => simp
      | _ => exact ⟨.unexpectedInitialOperation, rfl, rfl⟩
  have hinv : ∀ sk, ∃ e, d.mergeCgkaInviteOp (E.hashCgka did) op sk = (d, .error e) ∧ Verif.Cgka.fatal e = false := by
    intro sk
    unfold Doc.mergeCgkaInviteOp
    split
    · split
      · exact ⟨_, rfl, rfl⟩
      · rename_i c hc
        have h2 : c.graph.containsPredecessors op.payload.preds = false := by
          rw [← Bool.not_eq_true, WaitProps.preds_of]
          intro h
          obtain ⟨o, ho⟩ := Option.ne_none_iff_exists'.1 (h p hp1)
          exact hp2 ⟨c, hc, o, ho⟩
        rw [h2]
        exact ⟨_, rfl, rfl⟩
    · exact ⟨_, rfl, rfl⟩
  have hclose : ∀ {α : Type} {e : CgkaError}, Verif.Cgka.fatal e = false → ∃ err : Err, (w.closeDoc did (d, (.error e : Res α))).2 = .error err ∧
      err.fatal = false ∧ err.isPrekey = false ∧ AMap.get (w.closeDoc did (d, (.error e : Res α))).1.docs did = some d := by
    intro α e he
    refine ⟨.cgka e, rfl, he, rfl, ?_⟩
    show AMap.get (w.setDoc did d).docs did = some d
    rw [get_setDoc hd]
    simp
  show ∃ err : Err, (w.receiveCgkaOp E did op).2 = .error err ∧ _ ∧ _ ∧ AMap.get (w.receiveCgkaOp E did op).1.docs did = some d
  unfold Keyhive.receiveCgkaOp
  rw [hv, hd]
  simp only [Bool.not_true, Bool.false_eq_true, if_false]
  obtain ⟨e, he, hf⟩ := hmerge
  split
  · split
    · split
      · exact ⟨.unknownInvitePrekey, rfl, rfl, rfl, hd⟩
      · rename_i sk _
        obtain ⟨e', he', hf'⟩ := hinv sk
        rw [he']
        exact hclose hf'
    · split
      · obtain ⟨e', he', hf'⟩ := hinv publicSk
        unfold Keyhive.mergePublicInvite
        rw [he']
        exact hclose hf'
      · rw [he]; exact hclose hf
  · rw [he]; exact hclose hf

/-- A device that is taking in the key operations of a document. -/
structure Taking (E : Env) (did : Id) (c : Cgka) (me pub : Id) (pairs : ShareKeyMap) (w : Keyhive) (d : Doc) : Prop where
  ok : FleetOk E w
  doc : AMap.get w.docs did = some d
  sub : ∀ x, d.Knows x → Verif.Cgka.Knows c x
  isMe : w.reg.me = me
  isPub : w.reg.pub = pub
  hasPairs : w.pairs = pairs
  begun : d.cgka = none → ∀ op, AMap.get c.graph.ops (E.hashCgka did op) = some op → op.payload.preds = [] → ¬ AddsAgent op me ∧ ¬ AddsAgent op pub

/-- What is required of the operations and the one who has them all. -/
structure Source (E : Env) (did : Id) (c : Cgka) (me : Id) (pairs : ShareKeyMap) : Prop where
  trusted : Trusted (E.hashCgka did) c
  one : OneRoot c
  calm : NoConcurrentRemoval c
  valid : ∀ op, AMap.get c.graph.ops (E.hashCgka did op) = some op → E.validCgka did op = true ∧ PublicAsKnown op
  keys : ∀ op, AMap.get c.graph.ops (E.hashCgka did op) = some op → ∀ pk i ps as, op.payload = .add me pk i ps as → AMap.get pairs pk ≠ none

/-- A pass accepts the operations whose past is known, and puts off the others. -/
theorem pass_takes (hH : ∀ i, Function.Injective (E.hashCgka i)) {did : Id} {c : Cgka} {me pub : Id} {pairs : ShareKeyMap}
    (S : Source E did c me pairs) : ∀ {es : List Event} {w : Keyhive} {d : Doc} {next : List Event}, Taking E did c me pub pairs w d →
    (∀ e ∈ es, ∃ op, e = .cgka did op ∧ AMap.get c.graph.ops (E.hashCgka did op) = some op) →
    ∃ w' d' failed, Keyhive.pass E w es next = (w', .ok (next ++ failed)) ∧ Taking E did c me pub pairs w' d' ∧ failed.Sublist es ∧
      (∀ x, d.Knows x → d'.Knows x) ∧ (∀ op, .cgka did op ∈ es → d'.Knows (E.hashCgka did op) ∨ .cgka did op ∈ failed) ∧
      ∀ op, .cgka did op ∈ failed → ∃ p ∈ op.payload.preds, ¬ d.Knows p := by
  intro es
  induction es with
  | nil => intro w d next h _; exact ⟨w, d, [], by simp [Keyhive.pass], h, by simp, fun _ h => h, by simp, by simp⟩
  | cons e es ih =>
    intro w d next h hes
    obtain ⟨op, rfl, hop⟩ := hes e List.mem_cons_self
    obtain ⟨v1, v2⟩ := S.valid op hop
    have hself := receive_self (E := E) w (.cgka did op)
    have hw1 : FleetOk E (w.receive E (.cgka did op)).1 := sound_receive hH h.ok (by
      intro i o he
      cases he
      exact ⟨⟨c, _, S.trusted, hop⟩, v2⟩)
    by_cases hp : ∀ p ∈ op.payload.preds, d.Knows p
    · have ha : Able w d op := by
        refine ⟨fun pk i ps as ho => by rw [h.hasPairs]; exact S.keys op hop pk i ps as (h.isMe ▸ ho), fun hh hn => ?_⟩
        have hnil : op.payload.preds = [] := List.eq_nil_iff_forall_not_mem.2 (fun p hpp => by
          obtain ⟨b, hb, -⟩ := hp p hpp
          rw [hn] at hb
          cases hb)
        have := h.begun hn op hop hnil
        rw [h.isMe, h.isPub] at hh
        exact hh.elim this.1 this.2
      obtain ⟨s1, d1, s2, s3⟩ := take_step hH h.ok h.doc S.trusted S.one S.calm h.sub hop hp v1 v2 ha
      have T : Taking E did c me pub pairs (w.receive E (.cgka did op)).1 d1 := by
        refine ⟨hw1, s2, fun x hx => ((s3 x).1 hx).elim (h.sub x) (fun e => e ▸ ⟨_, hop⟩), hself.me.trans h.isMe, hself.pub.trans h.isPub,
          hself.pairs.trans h.hasPairs, fun hn => ?_⟩
        obtain ⟨b, hb, -⟩ := (s3 _).2 (.inr rfl)
        rw [hn] at hb
        cases hb
      obtain ⟨w', d', failed, r1, r2, r3, r4, r5, r6⟩ := ih (next := next) T (fun e he => hes e (List.mem_cons_of_mem _ he))
      refine ⟨w', d', failed, ?_, r2, r3.cons _, fun x hx => r4 x ((s3 x).2 (.inl hx)), fun o ho => ?_, fun o ho => ?_⟩
      · unfold Keyhive.pass
        cases hq : w.receive E (.cgka did op) with
        | mk k1 r =>
          rw [hq] at s1 r1
          dsimp only at s1 r1
          subst s1
          exact r1
      · rcases List.mem_cons.1 ho with ho | ho
        · cases ho
          exact .inl (r4 _ ((s3 _).2 (.inr rfl)))
        · exact r5 o ho
      · obtain ⟨p, hp1, hp2⟩ := r6 o ho
        exact ⟨p, hp1, fun hk => hp2 ((s3 p).2 (.inl hk))⟩
    · have hp' : ∃ p ∈ op.payload.preds, ¬ d.Knows p := by
        simp only [not_forall] at hp
        obtain ⟨p, h1, h2⟩ := hp
        exact ⟨p, h1, h2⟩
      have hn : ¬ d.Knows (E.hashCgka did op) := by
        rintro ⟨b, hb, o, ho⟩
        obtain ⟨p, h1, h2⟩ := hp'
        have g := (reachOk_inv (hH did) (trusted_ok (h.ok.trees did d h.doc b hb))).graph
        have := hH did (g.hash _ _ ho)
        subst this
        obtain ⟨q, hq⟩ := names_known g (c := b) ⟨o, ho, h1⟩
        exact h2 ⟨b, hb, q, hq⟩
      obtain ⟨err, s1, s2, s3, s4⟩ := put_off h.doc hn hp' v1
      have T : Taking E did c me pub pairs (w.receive E (.cgka did op)).1 d :=
        ⟨hw1, s4, h.sub, hself.me.trans h.isMe, hself.pub.trans h.isPub, hself.pairs.trans h.hasPairs, h.begun⟩
      obtain ⟨w', d', failed, r1, r2, r3, r4, r5, r6⟩ := ih (next := next ++ [.cgka did op]) T (fun e he => hes e (List.mem_cons_of_mem _ he))
      refine ⟨w', d', .cgka did op :: failed, ?_, r2, r3.cons_cons _, r4, fun o ho => ?_, fun o ho => ?_⟩
      · unfold Keyhive.pass
        cases hq : w.receive E (.cgka did op) with
        | mk k1 r =>
          rw [hq] at s1 r1
          dsimp only at s1 r1
          subst s1
          simp only [s2, s3, Bool.false_eq_true, if_false]
          rw [r1]
          simp
      · rcases List.mem_cons.1 ho with ho | ho
        · cases ho
          exact .inr List.mem_cons_self
        · exact (r5 o ho).imp id (List.mem_cons_of_mem _)
      · rcases List.mem_cons.1 ho with ho | ho
        · cases ho; exact hp'
        · exact r6 o ho

/-- Of a list in causal order, the first element that is not known has all its past known. -/
theorem first_ready {did : Id} {known : Nat → Prop} : ∀ (l1 l2 : List SOp), InOrder E did (l1 ++ l2) → (∀ o ∈ l1, known (E.hashCgka did o)) →
    (∃ o ∈ l2, ¬ known (E.hashCgka did o)) → ∃ o ∈ l2, ¬ known (E.hashCgka did o) ∧ ∀ p ∈ o.payload.preds, known p
  | _, [], _, _, h => by obtain ⟨o, ho, -⟩ := h; cases ho
  | l1, a :: l2, hi, h1, h => by
    by_cases ha : known (E.hashCgka did a)
    · obtain ⟨o, ho, hk, hp⟩ := first_ready (l1 ++ [a]) l2 (by simpa using hi)
        (fun o ho => by
          rcases List.mem_append.1 ho with ho | ho
          · exact h1 o ho
          · rw [List.mem_singleton.1 ho]; exact ha)
        (by
          obtain ⟨o, ho, hk⟩ := h
          rcases List.mem_cons.1 ho with rfl | ho
          · exact (hk ha).elim
          · exact ⟨o, ho, hk⟩)
      exact ⟨o, List.mem_cons_of_mem _ ho, hk, hp⟩
    · refine ⟨a, List.mem_cons_self, ha, fun p hp => ?_⟩
      obtain ⟨o, ho, rfl⟩ := hi l1 a l2 rfl p hp
      exact h1 o ho

/-- In the end nothing is left. -/
theorem rounds_take (hH : ∀ i, Function.Injective (E.hashCgka i)) {did : Id} {c : Cgka} {me pub : Id} {pairs : ShareKeyMap}
    (S : Source E did c me pairs) {l : List SOp} (hl : ∀ op, op ∈ l ↔ AMap.get c.graph.ops (E.hashCgka did op) = some op) (hi : InOrder E did l)
    {replayed : List Nat} : ∀ {n : Nat} {w : Keyhive} {d : Doc} {epoch : List Event}, Taking E did c me pub pairs w d → epoch.length < n →
    (∀ e ∈ epoch, ∃ op, e = .cgka did op ∧ AMap.get c.graph.ops (E.hashCgka did op) = some op) →
    (∀ op, op ∈ l → d.Knows (E.hashCgka did op) ∨ .cgka did op ∈ epoch) →
    ∃ w1 d', Keyhive.rounds E replayed n w epoch =
        ({ w1 with pending := w1.pending.filter (fun e => !decide (E.hashEvent e ∈ replayed)) }, some (.ok [])) ∧ w1.pending = w.pending ∧
      Taking E did c me pub pairs w1 d' ∧ ∀ op, op ∈ l → d'.Knows (E.hashCgka did op) := by
  intro n
  induction n with
  | zero => intro w d epoch _ h; omega
  | succ n ih =>
    intro w d epoch h hn hes hcov
    obtain ⟨w', d', failed, r1, r2, r3, r4, r5, r6⟩ := pass_takes hH S (next := []) h hes
    rw [List.nil_append] at r1
    have hpend : w'.pending = w.pending := (pass_spec r1).1.pending
    have hcov' : ∀ op, op ∈ l → d'.Knows (E.hashCgka did op) ∨ .cgka did op ∈ failed := by
      intro op ho
      rcases hcov op ho with hk | hk
      · exact .inl (r4 _ hk)
      · exact r5 op hk
    unfold Keyhive.rounds
    rw [r1]
    cases failed with
    | nil =>
      refine ⟨w', d', rfl, hpend, r2, fun op ho => (hcov' op ho).resolve_right (by simp)⟩
    | cons e es =>
      have hlt : (e :: es).length < epoch.length := by
        rcases Nat.lt_or_eq_of_le r3.length_le with hlt | heq
        · exact hlt
        · exfalso
          have hall := r3.eq_of_length heq
          obtain ⟨op0, rfl, hop0⟩ := hes e (by rw [← hall]; exact List.mem_cons_self)
          obtain ⟨p, hp1, hp2⟩ := r6 op0 List.mem_cons_self
          have g := (reachOk_inv (hH did) (trusted_ok S.trusted)).graph
          obtain ⟨q, hq⟩ := names_known g (c := c) ⟨op0, hop0, hp1⟩
          have he := g.hash _ _ hq
          subst he
          obtain ⟨o, ho1, ho2, ho3⟩ := first_ready (known := d.Knows) [] l (by simpa using hi) (by simp) ⟨q, (hl q).2 hq, hp2⟩
          have := (hcov o ho1).resolve_left ho2
          rw [← hall] at this
          obtain ⟨p', h1, h2⟩ := r6 o this
          exact h2 (ho3 p' h1)
      dsimp only
      rw [if_neg (Nat.ne_of_lt hlt)]
      obtain ⟨w1, d1, q1, q2, q3, q4⟩ := ih r2 (Nat.lt_of_lt_of_le hlt (Nat.lt_succ_iff.1 hn)) (fun e' he' => hes e' (r3.subset he')) hcov'
      exact ⟨w1, d1, q1, q2.trans hpend, q3, q4⟩

end Verif.Keyhive
