import Verif.Keyhive.MixedLemmas
import Verif.Keyhive.PlaceProps
import Verif.Keyhive.KeptSample

/-! # C127: one device brings another up to date -/

namespace Verif.Keyhive.SyncProps

open Verif.Group Verif.Cgka Verif.BeeKem

variable {E : Env} {me : Id}

theorem knows_has (hH : ∀ i, Function.Injective (E.hashCgka i)) {w : Keyhive} (hf : FleetOk E w) {did : Id} {d : Doc}
    (hd : AMap.get w.docs did = some d) (op : SOp) : HasKeyOp E w did op ↔ d.Knows (E.hashCgka did op) := by
  constructor
  · rintro ⟨d1, c1, f1, f2, f3⟩
    rw [hd] at f1
    cases f1
    exact ⟨c1, f2, _, f3⟩
  · rintro ⟨b, f1, o, f2⟩
    have g := (reachOk_inv (hH did) (trusted_ok (hf.trees did d hd b f1))).graph
    exact ⟨d, b, hd, f1, hH did (g.hash _ _ f2) ▸ f2⟩

theorem knows_op (hH : ∀ i, Function.Injective (E.hashCgka i)) {w : Keyhive} (hf : FleetOk E w) {did : Id} {d : Doc}
    (hd : AMap.get w.docs did = some d) {x : Nat} (h : d.Knows x) : ∃ op, x = E.hashCgka did op ∧ HasKeyOp E w did op := by
  obtain ⟨b, f1, o, f2⟩ := h
  have g := (reachOk_inv (hH did) (trusted_ok (hf.trees did d hd b f1))).graph
  have he := g.hash _ _ f2
  subst he
  exact ⟨o, rfl, d, b, hd, f1, f2⟩

/-- C127: a device that knows the document and takes in, in one call, in any order and with repetitions, group-key operations that another
device has for it, all those it lacked among them, has afterwards exactly the operations of the other device, and nothing is left over.
Missing from the full property: the conditions of `C120_taken_partial`, without which an operation can be refused for ever (`C127_fails`). -/
theorem C127_batch_partial (hH : ∀ i, Function.Injective (E.hashCgka i)) (hE : Function.Injective E.hashEvent) {ord : List Event → List Event}
    (hord : ∀ l, (ord l).Perm l) {k w : Keyhive} (hk : Fleet E k) (hw : Fleet E w) {did : Id} {d dw : Doc}
    {c : Cgka} (hd : AMap.get k.docs did = some d) (hc : d.cgka = some c) (h1 : OneRoot c) (hs : NoConcurrentRemoval c)
    (hdw : AMap.get w.docs did = some dw) (hsub : ∀ op, HasKeyOp E w did op → HasKeyOp E k did op)
    (hv : ∀ op, HasKeyOp E k did op → E.validCgka did op = true ∧ PublicAsKnown op)
    (hp : ∀ op, HasKeyOp E k did op → ∀ pk i ps as, op.payload = .add w.reg.me pk i ps as → AMap.get w.pairs pk ≠ none)
    (hb : dw.cgka = none → ∀ op, HasKeyOp E k did op → op.payload.preds = [] → ¬ AddsAgent op w.reg.me ∧ ¬ AddsAgent op w.reg.pub)
    {events : List Event} (hall : ∀ e ∈ events ++ w.pending, ∃ op, e = .cgka did op ∧ HasKeyOp E k did op)
    (hcov : ∀ op, HasKeyOp E k did op → HasKeyOp E w did op ∨ .cgka did op ∈ events ++ w.pending) :
    ∃ w', w.ingest E ord events = (w', some (.ok [])) ∧ w'.pending = [] ∧ ∀ op, HasKeyOp E w' did op ↔ HasKeyOp E k did op := by
  obtain ⟨l, -, -, e2, e3⟩ := TakeProps.C120_order_partial (fleet_reach hk) (hH did) hd hc h1
  have tc := fleet_trusted hH hk hd hc
  have hof := fleet_sound hH hw
  have has := TakeProps.has_iff (E := E) hd hc
  have S : Source E did c w.reg.me w.pairs :=
    ⟨tc, h1, hs, fun op ho => hv op ((has op).2 ho), fun op ho => hp op ((has op).2 ho)⟩
  have T : Taking E did c w.reg.me w.reg.pub w.pairs w dw := by
    refine ⟨hof, hdw, fun x hx => ?_, rfl, rfl, rfl, fun hn op ho => hb hn op ((has op).2 ho)⟩
    obtain ⟨op, rfl, ho⟩ := knows_op hH hof hdw hx
    exact ⟨op, (has op).1 (hsub op ho)⟩
  have hmem : ∀ e, e ∈ ord (Keyhive.dedup E (events ++ w.pending)) ↔ e ∈ events ++ w.pending := fun e => by
    rw [(hord _).mem_iff, dedup_mem hE]
  obtain ⟨w1, d', r1, r2, r3, r4⟩ := rounds_take hH S (l := l) (fun op => by rw [e2, has]) e3 (replayed := w.pending.map E.hashEvent) T (Nat.lt_succ_self _)
    (fun e he => by
      obtain ⟨op, rfl, ho⟩ := hall e ((hmem e).1 he)
      exact ⟨op, rfl, (has op).1 ho⟩)
    (fun op ho => (hcov op ((e2 op).1 ho)).imp (knows_has hH hof hdw op).1 (hmem _).2)
  refine ⟨_, r1, ?_, fun op => ?_⟩
  · show w1.pending.filter _ = []
    rw [r2, List.filter_eq_nil_iff]
    intro e he
    simpa using ⟨e, he, rfl⟩
  · have hd' : AMap.get w1.docs did = some d' := r3.doc
    constructor
    · rintro ⟨d1, b, f1, f2, f3⟩
      obtain ⟨o, ho⟩ := r3.sub _ ((knows_has hH r3.ok hd' op).1 ⟨d1, b, f1, f2, f3⟩)
      have g := (reachOk_inv (hH did) (trusted_ok tc)).graph
      exact (has op).2 (hH did (g.hash _ _ ho) ▸ ho)
    · intro ho
      obtain ⟨d1, b, f1, f2, f3⟩ := (knows_has hH r3.ok hd' op).2 (r4 op ((e2 op).2 ho))
      exact ⟨d1, b, f1, f2, f3⟩

/-- C127: the same for a call with any other events beside the operations: delegations and revocations, by which the document may only become
known, prekeys, and operations of other documents. When the call returns and the document is known, the operations of the document are those of
the other device, and none of them is left over.
Missing from the full property: as for `C127_batch_partial`; the key of the document must not sign delegations with a proof (`C82_fails`). -/
theorem C127_mixed_partial (hH : ∀ i, Function.Injective (E.hashCgka i)) (hE : Function.Injective E.hashEvent) {ord : List Event → List Event}
    (hord : ∀ l, (ord l).Perm l) {k w w' : Keyhive} (hk : Fleet E k) (hw : Fleet E w) {did : Id} (hor : E.OnlyRoots did) {d : Doc}
    {c : Cgka} (hd : AMap.get k.docs did = some d) (hc : d.cgka = some c) (h1 : OneRoot c) (hs : NoConcurrentRemoval c)
    (hsub : ∀ op, HasKeyOp E w did op → HasKeyOp E k did op)
    (hv : ∀ op, HasKeyOp E k did op → E.validCgka did op = true ∧ PublicAsKnown op)
    (hp : ∀ op, HasKeyOp E k did op → ∀ pk i ps as, op.payload = .add w.reg.me pk i ps as → AMap.get w.pairs pk ≠ none)
    (hb : (∀ op, ¬ HasKeyOp E w did op) → ∀ op, HasKeyOp E k did op → op.payload.preds = [] → ¬ AddsAgent op w.reg.me ∧ ¬ AddsAgent op w.reg.pub)
    {events left : List Event} (src : Id → SOp → Keyhive) (hf : ∀ i op, Fleet E (src i op))
    (hoth : ∀ i op, .cgka i op ∈ events → HasKeyOp E (src i op) i op ∧ PublicAsKnown op)
    (hall : ∀ op, .cgka did op ∈ events ++ w.pending → HasKeyOp E k did op)
    (hcov : ∀ op, HasKeyOp E k did op → HasKeyOp E w did op ∨ .cgka did op ∈ events ++ w.pending)
    (hi : w.ingest E ord events = (w', some (.ok left))) (hdoc : AMap.get w'.docs did ≠ none) :
    (∀ op, HasKeyOp E w' did op ↔ HasKeyOp E k did op) ∧ ∀ op, .cgka did op ∉ left := by
  obtain ⟨l, -, -, e2, e3⟩ := TakeProps.C120_order_partial (fleet_reach hk) (hH did) hd hc h1
  have tc := fleet_trusted hH hk hd hc
  have gc := (reachOk_inv (hH did) (trusted_ok tc)).graph
  have hof := fleet_sound hH hw
  have has := TakeProps.has_iff (E := E) hd hc
  have hmem : ∀ e, e ∈ ord (Keyhive.dedup E (events ++ w.pending)) ↔ e ∈ events ++ w.pending := fun e => by
    rw [(hord _).mem_iff, dedup_mem hE]
  -- what is received and what stays true
  have stays : ∀ {a b : Keyhive} {op : SOp}, Fed E a b → HasKeyOp E a did op → HasKeyOp E b did op := fun h =>
    KeptProps.C82_stays_partial hor (hH did) (onward_fed h)
  have known : ∀ {a b : Keyhive}, Fed E a b → AMap.get a.docs did ≠ none → AMap.get b.docs did ≠ none := by
    intro a b h ha
    induction h with
    | refl => exact ha
    | step e _ ih => exact (receive_docs _ e did).1 ih
  have T : Tracked E (fun e => ∀ i op, e = .cgka i op → Passed E i op ∧ (i = did → HasKeyOp E k did op))
      (fun s => Reach E s ∧ FleetOk E s ∧ (∀ op, HasKeyOp E s did op → HasKeyOp E k did op) ∧ SameSelf w s) (Fed E)
      (fun s e => ∀ op, e = .cgka did op → HasKeyOp E s did op) := by
    refine ⟨?_, fun _ => .refl, fun h h' => ?_, fun {k e} _ _ => .step e .refl, ?_, fun _ h hq op ho => stays h (hq op ho)⟩
    · rintro s e hS ⟨p1, p2, p3, p4⟩
      refine ⟨.call (.receive e) p1 trivial, sound_receive hH p2 (fun i op ho => (hS i op ho).1), fun op ho => ?_, p4.trans (receive_self s e)⟩
      rcases receive_from (hH did) ho with h | h
      · exact p3 op h
      · exact (hS did op h).2 rfl
    · induction h' with
      | refl => exact h
      | step e _ ih => exact .step e ih
    · rintro s e hS ⟨p1, p2, p3, p4⟩ hq op rfl
      refine recorded_receive p1 (hH did) (Prod.ext rfl ?_)
      cases hr : (s.receive E (.cgka did op)).2 with
      | ok u => rfl
      | error err =>
        exfalso
        have hpre := hq err hr
        simp only [Keyhive.receive, Keyhive.receiveCgkaOp] at hr
        repeat' (first | (cases hr; done) | split at hr)
        all_goals (simp only [Keyhive.mergePublicInvite, Keyhive.closeDoc] at hr)
        all_goals (repeat' (first | (cases hr; done) | (cases hr; cases hpre; done) | split at hr))
  have hS : ∀ e ∈ ord (Keyhive.dedup E (events ++ w.pending)), ∀ i op, e = .cgka i op → Passed E i op ∧ (i = did → HasKeyOp E k did op) := by
    rintro e he i op rfl
    have he' := (hmem _).1 he
    refine ⟨?_, fun h => by subst h; exact hall op he'⟩
    rcases List.mem_append.1 he' with h | h
    · obtain ⟨⟨d1, c1, q1, q2, q3⟩, q4⟩ := hoth i op h
      exact ⟨⟨c1, _, fleet_trusted hH (hf i op) q1 q2, q3⟩, q4⟩
    · exact hof.pend i op h
  obtain ⟨k0, k1, r1, r2, r3, r4, r5, r6⟩ := T.rounds hS ⟨fleet_reach hw, hof, hsub, SameSelf.rfl' w⟩ hi
  have up : ∀ {op}, HasKeyOp E k1 did op → HasKeyOp E w' did op := by
    rintro op ⟨d1, b, f1, f2, f3⟩
    exact ⟨d1, b, by rw [r3]; exact f1, f2, f3⟩
  have down : ∀ {op}, HasKeyOp E w' did op → HasKeyOp E k1 did op := by
    rintro op ⟨d1, b, f1, f2, f3⟩
    exact ⟨d1, b, by rw [← r3]; exact f1, f2, f3⟩
  -- an operation whose past is known is taken
  have takes : ∀ {s : Keyhive} {op : SOp}, Reach E s ∧ FleetOk E s ∧ (∀ op, HasKeyOp E s did op → HasKeyOp E k did op) ∧ SameSelf w s →
      Fed E w s → AMap.get s.docs did ≠ none → HasKeyOp E k did op → (∀ p ∈ op.payload.preds, ∃ o, p = E.hashCgka did o ∧ HasKeyOp E s did o) →
      (s.receive E (.cgka did op)).2 = .ok () := by
    rintro s op ⟨p1, p2, p3, p4⟩ hfed hn ho hpast
    obtain ⟨ds, hds⟩ := Option.ne_none_iff_exists'.1 hn
    refine (take_step hH p2 hds tc h1 hs ?_ ((has op).1 ho) ?_ (hv op ho).1 (hv op ho).2 ⟨?_, ?_⟩).1
    · intro x hx
      obtain ⟨o, rfl, ho⟩ := knows_op hH p2 hds hx
      exact ⟨o, (has o).1 (p3 o ho)⟩
    · intro p hpp
      obtain ⟨o, rfl, h⟩ := hpast p hpp
      exact (knows_has hH p2 hds o).1 h
    · rw [p4.me, p4.pairs]; exact hp op ho
    · intro hadd hn
      have hnil : op.payload.preds = [] := List.eq_nil_iff_forall_not_mem.2 (fun p hpp => by
        obtain ⟨o, -, d1, b, f1, f2, -⟩ := hpast p hpp
        rw [hds] at f1
        cases f1
        rw [hn] at f2
        cases f2)
      have hempty : ∀ o, ¬ HasKeyOp E w did o := by
        intro o h
        obtain ⟨d1, b, f1, f2, -⟩ := stays hfed h
        rw [hds] at f1
        cases f1
        rw [hn] at f2
        cases f2
      rw [p4.me, p4.pub] at hadd
      exact hadd.elim (hb hempty op ho hnil).1 (hb hempty op ho hnil).2
  by_cases hl : left = []
  · subst hl
    refine ⟨fun op => ⟨fun h => r1.2.2.1 op (down h), fun h => up ?_⟩, by simp⟩
    rcases hcov op h with h | h
    · exact stays r2 h
    · exact ((r5 _ ((hmem _).2 h)).resolve_left (by simp)) op rfl
  · obtain ⟨f1, f2, f3, f4, f5, f6⟩ := r6 hl
    have hk0 : AMap.get k0.docs did ≠ none := fun hn => hdoc (by rw [r3]; exact pass_none (next := []) (by simpa using f4) hn)
    have done : ∀ op, HasKeyOp E k did op → HasKeyOp E k0 did op := by
      by_contra hcon
      simp only [not_forall] at hcon
      obtain ⟨op, ho, hn⟩ := hcon
      obtain ⟨d0, hd0⟩ := Option.ne_none_iff_exists'.1 hk0
      obtain ⟨o, ho1, ho2, ho3⟩ := first_ready (E := E) (did := did) (known := d0.Knows) [] l (by simpa using e3) (by simp)
        ⟨op, (e2 op).2 ho, fun h => hn ((knows_has hH f1.2.1 hd0 op).2 h)⟩
      have ho' := (e2 o).1 ho1
      have hno : ¬ HasKeyOp E k0 did o := fun h => ho2 ((knows_has hH f1.2.1 hd0 o).1 h)
      have hleft : .cgka did o ∈ left := by
        rcases hcov o ho' with h | h
        · exact (hno (stays f2 h)).elim
        · exact (f5 _ ((hmem _).2 h)).resolve_right (fun h => hno (h o rfl))
      obtain ⟨s, err, g1, g2, g3⟩ := f6 _ hleft
      have := takes g1 (T.trans f2 g2) (known g2 hk0) ho' (fun p hpp => by
        obtain ⟨q, rfl, hq⟩ := knows_op hH f1.2.1 hd0 (ho3 p hpp)
        exact ⟨q, rfl, stays g2 hq⟩)
      rw [g3] at this
      cases this
    refine ⟨fun op => ⟨fun h => r1.2.2.1 op (down h), fun h => up (stays f3 (done op h))⟩, fun op hop => ?_⟩
    have ho := (hS _ ((r4 _ hop) ) did op rfl).2 rfl
    obtain ⟨s, err, g1, g2, g3⟩ := f6 _ hop
    have := takes g1 (T.trans f2 g2) (known g2 hk0) ho (fun p hpp => by
      obtain ⟨q, hq⟩ := names_known gc (c := c) ⟨op, (has op).1 ho, hpp⟩
      have he := gc.hash _ _ hq
      exact ⟨q, he.symm ▸ rfl, stays g2 (done q ((has q).2 (he ▸ hq)))⟩)
    rw [g3] at this
    cases this

/-! Trees that have recorded the same operations have the same history. -/

theorem names_same {a b : Cgka} (h : ∀ x, AMap.get a.graph.ops x = AMap.get b.graph.ops x) {p x : Nat} (hn : Cgka.Names a p x) : Cgka.Names b p x := by
  obtain ⟨o, h1, h2⟩ := hn
  exact ⟨o, by rw [← h]; exact h1, h2⟩

theorem before_same {a b : Cgka} (h : ∀ x, AMap.get a.graph.ops x = AMap.get b.graph.ops x) {x y : Nat} (hb : Before a x y) : Before b x y := by
  induction hb with
  | direct hn => exact .direct (names_same h hn)
  | more _ hn ih => exact .more ih (names_same h hn)

theorem changes_same {a b : Cgka} (h : ∀ x, AMap.get a.graph.ops x = AMap.get b.graph.ops x) (ha : ChangesApart a) : ChangesApart b := by
  rintro x y ⟨o, h1, h2⟩ ⟨o', h3⟩
  exact (ha x y ⟨o, by rw [h]; exact h1, h2⟩ ⟨o', by rw [h]; exact h3⟩).imp id (Or.imp (before_same h) (before_same h))

theorem turns_same {a b : Cgka} (h : ∀ x, AMap.get a.graph.ops x = AMap.get b.graph.ops x) (ha : UpdatesInTurn a) : UpdatesInTurn b := by
  intro x y ox oy i pc ps pc' ps' h1 h2 h3 h4
  exact (ha x y ox oy i pc ps pc' ps' (by rw [h]; exact h1) (by rw [h]; exact h2) h3 h4).imp id (Or.imp (before_same h) (before_same h))

theorem fresh_same {a b : Cgka} (h : ∀ x, AMap.get a.graph.ops x = AMap.get b.graph.ops x) (ha : FreshKeys a) : FreshKeys b := by
  intro x y ox oy s h1 h2
  exact ha x y ox oy s (by rw [h]; exact h1) (by rw [h]; exact h2)

theorem distinct_same {a b : Cgka} (h : ∀ x, AMap.get a.graph.ops x = AMap.get b.graph.ops x) (ha : DistinctKeys a) : DistinctKeys b := by
  intro x o h1
  exact ha x o (by rw [h]; exact h1)

/-- C127: somebody writes. Another device, the only one of its agent, is then sent the group-key operations of the writer that it lacks, together
with whatever else, in any order. When the call returns and the device knows the document, it reads what was written.
Missing from the full property: as for `C127_mixed_partial`; the agent must have a place in the group that it got in one of the ways of
`C113_reads_partial`, and members must not have been added or removed while others changed something. -/
theorem C127_reads_partial (hH : ∀ i, Function.Injective (E.hashCgka i)) (hE : Function.Injective E.hashEvent) {ord : List Event → List Event}
    (hord : ∀ l, (ord l).Perm l) {k k' w w' : Keyhive} (hk : Fleet E k) (hw : OnlyDevice E me w) {did : Id} (hor : E.OnlyRoots did) {L : Local}
    (hL : L.Honest E) (hsg : ∀ doc, GoodSigner (L.signCgka doc)) {r ps x : Nat} {e : EncContent} {o : SOp}
    (he : k.encryptContent E L did r ps x = (k', .ok (e, some o))) {d : Doc} {a : Cgka}
    (hd : AMap.get k'.docs did = some d) (hc : d.cgka = some a) (h1 : ChangesApart a) (h2 : UpdatesInTurn a) (h3 : FreshKeys a) (h4 : DistinctKeys a)
    (hsub : ∀ op, HasKeyOp E w did op → HasKeyOp E k' did op)
    (hv : ∀ op, HasKeyOp E k' did op → E.validCgka did op = true ∧ PublicAsKnown op)
    (hp : ∀ op, HasKeyOp E k' did op → ∀ pk i ps as, op.payload = .add w.reg.me pk i ps as → AMap.get w.pairs pk ≠ none)
    (hb : (∀ op, ¬ HasKeyOp E w did op) → ∀ op, HasKeyOp E k' did op → op.payload.preds = [] → ¬ AddsAgent op w.reg.me ∧ ¬ AddsAgent op w.reg.pub)
    {events left : List Event} (src : Id → SOp → Keyhive) (hf : ∀ i op, Fleet E (src i op))
    (hoth : ∀ i op, .cgka i op ∈ events → HasKeyOp E (src i op) i op ∧ PublicAsKnown op) (hno : ∀ i op, .cgka i op ∈ events → op.issuer ≠ me)
    (hall : ∀ op, .cgka did op ∈ events ++ w.pending → HasKeyOp E k' did op)
    (hcov : ∀ op, HasKeyOp E k' did op → HasKeyOp E w did op ∨ .cgka did op ∈ events ++ w.pending)
    (hi : w.ingest E ord events = (w', some (.ok left))) {d' : Doc} {b : Cgka} (hd' : AMap.get w'.docs did = some d') (hc' : d'.cgka = some b)
    (hin : a.tree.containsId b.ownerId = true) (hown : ∀ op, HasKeyOp E k' did op → op.payload.GivesTo b.ownerId → Places me op) :
    ∃ key, (w'.decryptContent E did e).2 = .ok (x, key) := by
  have hk' := fleet_write hk hL hsg he
  have ta := fleet_trusted hH hk' hd hc
  have sa := (reachOk_inv (hH did) (trusted_ok ta)).graph
  have T := together_of sa h1 h2 h3
  have hroot : OneRoot a := (oneRoot_iff sa).2 (together_oneRoot (hH did) ta T)
  have hcalm : NoConcurrentRemoval a := by
    rintro y z ⟨o, id, i, ks, qs, f1, f2⟩ hz
    exact h1 y z ⟨o, f1, fun _ _ _ h => by rw [f2] at h; cases h⟩ hz
  obtain ⟨same, -⟩ := C127_mixed_partial hH hE hord hk' (only_fleet hw) hor hd hc hroot hcalm hsub hv hp hb src hf hoth hall hcov hi (by rw [hd']; simp)
  have hw' : OnlyDevice E me w' := by
    have := OnlyDevice.ingest ord hord events hw src hf hoth hno
    rw [hi] at this
    exact this
  have sb := (reachOk_inv (hH did) (trusted_ok (fleet_trusted hH (only_fleet hw') hd' hc'))).graph
  have hops : ∀ y, AMap.get a.graph.ops y = AMap.get b.graph.ops y := by
    intro y
    cases hy : AMap.get a.graph.ops y with
    | some p =>
      have hp' := sa.hash _ _ hy
      subst hp'
      exact ((TakeProps.has_iff hd' hc' p).1 ((same p).2 ((TakeProps.has_iff hd hc p).2 hy))).symm
    | none =>
      cases hz : AMap.get b.graph.ops y with
      | none => rfl
      | some p =>
        have hp' := sb.hash _ _ hz
        subst hp'
        rw [(TakeProps.has_iff hd hc p).1 ((same p).1 ((TakeProps.has_iff hd' hc' p).2 hz))] at hy
        cases hy
  exact PlaceProps.C113_reads_partial hH hw' hk hL hsg he hd' hc' hd hc (changes_same hops h1) (turns_same hops h2) (fresh_same hops h3)
    (distinct_same hops h4) (fun op ho => (same op).2 ho) hin (fun op ho => hown op ((same op).1 ho))

namespace SyncSample

open FleetSample Verif.Keyhive.Sample TakeProps.TakeSample

/-- As for the fleet, but the key of document 300 does not sign delegations with a proof. -/
noncomputable def ES : Env := { EF with validDlg := fun s => decide (s.sig / 1000 = s.issuer) && (decide (s.issuer ≠ 300) || s.proof.isNone) }
/-- How agent 5 signs and draws keys when writing. -/
def LW : Local := { L2 with sign := sgR }
/-- Agent 5 creates document 300 and makes Alice a reader. -/
noncomputable def x2 : Keyhive := ((k0.generateDoc ES LR sgR 300 [] [1]).1.addMemberToDoc ES LR 300 ⟨.individual, 1⟩ .read []).1
/-- Agent 5 writes. -/
noncomputable def x3 : Keyhive := (x2.encryptContent ES LW 300 7 8 42).1
/-- Alice's device knows nothing yet. -/
def new : Keyhive := Keyhive.start regA [(⟨11⟩, 11)]
/-- What agent 5's device sends to it: last things first, one of them twice, and among them the delegation that makes the document known. -/
def parcel : List Event :=
  [.cgka 300 t5, .cgka 300 t3, .cgka 300 t5, .cgka 300 t2, .dlg ⟨300, 300005, 5, .admin, none, [], [(300, [1])]⟩, .cgka 300 t1, .cgka 300 t0]
/-- Alice's device afterwards. -/
noncomputable def done : Keyhive := (new.ingest ES id parcel).1

theorem ES_inj : ∀ i, Function.Injective (ES.hashCgka i) := fun _ => tableH_injective _
theorem ES_events : Function.Injective ES.hashEvent := hashEvent_injective (tableH_injective _)
theorem EF_events : Function.Injective EF.hashEvent := hashEvent_injective (tableH_injective _)

theorem ES_roots : ES.OnlyRoots 300 := by
  intro s h hi
  simp only [ES, Bool.and_eq_true, Bool.or_eq_true, decide_eq_true_eq, Option.isNone_iff_eq_none] at h
  exact h.2.resolve_left (fun h => h hi)

theorem signs : Signs ES sgR := by
  intro o s h
  have := sgR_signs o s h
  cases o with
  | dlg d => cases d <;> exact this
  | rev r => cases r <;> exact this
theorem LR_fair : LR.Honest ES := ⟨signs, fun _ _ _ h => by cases h; rfl⟩
theorem LW_fair : LW.Honest ES := ⟨signs, fun _ _ _ h => by cases h; rfl⟩
theorem LW_good (doc : Id) : GoodSigner (LW.signCgka doc) := fun _ => ⟨_, rfl, rfl⟩

theorem x2_fleet : Fleet ES x2 :=
  .call (.addToDoc LR 300 ⟨.individual, 1⟩ .read []) (.call (.newDoc LR sgR 300 [] [1])
    (.start reg [(⟨55⟩, 55)] rfl (Verif.Cgka.Sample.honest_one 55)) trivial ⟨signs, LR_fair⟩ L_good) trivial LR_fair L_good
theorem x3_fleet : Fleet ES x3 := .call (.encrypt LW 300 7 8 42) x2_fleet trivial LW_fair LW_good
theorem new_only : OnlyDevice ES 1 new := .start regA [(⟨11⟩, 11)] rfl (Verif.Cgka.Sample.honest_one 11) rfl

theorem x3_has : (treeOf x3 300).isSome = true := by decide +kernel
theorem done_has : (treeOf done 300).isSome = true := by decide +kernel

/-- The operations recorded at agent 5's device. -/
theorem all_x3 {op : SOp} (h : HasKeyOp ES x3 300 op) : op ∈ [t0, t1, t2, t3, t5] := by
  obtain ⟨d, c, h1, h2, h3⟩ := h
  have hq : ((AMap.get x3.docs 300).bind (·.cgka)).map (fun c => (c.graph.ops.map Prod.snd)) = some [t5, t3, t2, t1, t0] := by decide +kernel
  rw [h1, Option.bind_some, h2, Option.map_some] at hq
  have : op ∈ c.graph.ops.map Prod.snd := List.mem_map_of_mem (AMap.mem_of_get h3)
  rw [Option.some.inj hq] at this
  simp only [List.mem_cons, List.not_mem_nil, or_false] at this ⊢
  tauto

theorem x3_recorded : ∀ op ∈ [t0, t1, t2, t3, t5], recorded x3 300 (ES.hashCgka 300 op) = some op := by decide +kernel

theorem in_parcel {i : Id} {op : SOp} (h : .cgka i op ∈ parcel) : i = 300 ∧ op ∈ [t0, t1, t2, t3, t5] := by
  simp only [parcel, List.mem_cons, List.not_mem_nil, or_false, Event.cgka.injEq, reduceCtorEq, false_or] at h
  simp only [List.mem_cons, List.not_mem_nil, or_false]
  tauto

theorem taken : (new.ingest ES id parcel).2 = some (.ok []) := by decide +kernel

theorem valid_ops : ∀ o ∈ [t0, t1, t2, t3, t5], ES.validCgka 300 o = true := by decide +kernel

/-- The prekey Alice was added with is theirs. -/
theorem keys_of {op : SOp} (h : op ∈ [t0, t1, t2, t3, t5]) (pk : Pk) (i : Nat) (ps as : List Nat) (he : op.payload = .add 1 pk i ps as) :
    AMap.get [((⟨11⟩ : Pk), (11 : Sk))] pk ≠ none := by
  simp only [List.mem_cons, List.not_mem_nil, or_false] at h
  rcases h with rfl | rfl | rfl | rfl | rfl <;> cases he
  decide

/-- The tree begins with the document. -/
theorem begins {op : SOp} (h : op ∈ [t0, t1, t2, t3, t5]) (he : op.payload.preds = []) : ¬ AddsAgent op 1 ∧ ¬ AddsAgent op 0 := by
  simp only [List.mem_cons, List.not_mem_nil, or_false] at h
  rcases h with rfl | rfl | rfl | rfl | rfl <;> first | (exfalso; revert he; decide) | skip
  exact ⟨(by rintro ⟨_, _, _, _, h⟩; cases h), (by rintro ⟨_, _, _, _, h⟩; cases h)⟩

/-- Alice was added by agent 5. -/
theorem placed {op : SOp} (h : op ∈ [t0, t1, t2, t3, t5]) (hg : op.payload.GivesTo 1) : Places 1 op := by
  simp only [List.mem_cons, List.not_mem_nil, or_false] at h
  rcases h with rfl | rfl | rfl | rfl | rfl
  · exact absurd (show (_ : Nat) = _ from hg) (by decide)
  · exact absurd (show (_ : Nat) = _ from hg) (by decide)
  · exact absurd (show (_ : Nat) = _ from hg) (by decide)
  · exact .inl ⟨by decide, _, _, _, _, _, rfl⟩
  · exact absurd (show (_ : Nat) = _ from hg) (by decide)

theorem new_empty (op : SOp) : ¬ HasKeyOp ES new 300 op := by
  rintro ⟨d, c, h, -⟩
  cases h

/-- What the second device leaves over. -/
theorem second_left : (second.ingest EF id ([t0, t1, t2, t3, t5].map (.cgka 300 ·))).2 = some (.ok [.cgka 300 t5, .cgka 300 t3]) ∧
    recorded (second.ingest EF id ([t0, t1, t2, t3, t5].map (.cgka 300 ·))).1 300 (EF.hashCgka 300 t5) = none := by decide +kernel

end SyncSample

open FleetSample Verif.Keyhive.Sample TakeProps.TakeSample SyncSample

-- Alice's device is told of everything in the worst order.
example : ∃ w', fresh.ingest EF id ([t5, t3, t2, t1, t0, t5].map (.cgka 300 ·)) = (w', some (.ok [])) ∧ w'.pending = [] ∧
    ∀ op, HasKeyOp EF w' 300 op ↔ HasKeyOp EF d3 300 op := by
  have h : ∃ d, AMap.get fresh.docs 300 = some d := Option.ne_none_iff_exists'.1 (by decide +kernel)
  obtain ⟨dw, hdw⟩ := h
  obtain ⟨d, e1, e2⟩ := doc_of d3_has
  have hme : fresh.reg.me = 1 := by decide +kernel
  have hpub : fresh.reg.pub = 0 := by decide +kernel
  have hpairs : fresh.pairs = [(⟨11⟩, 11)] := by decide +kernel
  have hpend : fresh.pending = [] := by decide +kernel
  have hrec : ∀ op ∈ [t0, t1, t2, t3, t5], recorded d3 300 (EF.hashCgka 300 op) = some op := by decide +kernel
  refine C127_batch_partial EF_inj EF_events (fun l => .refl l) d3_fleet fresh_fleet e1 e2 (Verif.Cgka.Sample.oneRoot_of 0 (by decide +kernel))
    (no_removal (by decide +kernel)) hdw ?_ (fun op ho => ⟨valid_ops op (all_d3 ho), none_public _ (fun _ h => h) op (all_d3 ho)⟩)
    (fun op ho pk i ps as he => by rw [hme] at he; rw [hpairs]; exact keys_of (all_d3 ho) pk i ps as he)
    (fun _ op ho he => by rw [hme, hpub]; exact begins (all_d3 ho) he) ?_ ?_
  · rintro op ⟨d, c, h1, h2, -⟩
    have hq : ((AMap.get fresh.docs 300).bind (·.cgka)) = none := by decide +kernel
    rw [h1, Option.bind_some, h2] at hq
    cases hq
  · intro e he
    rw [hpend, List.append_nil] at he
    obtain ⟨op, ho, rfl⟩ := List.mem_map.1 he
    exact ⟨op, rfl, has_of (hrec op (by simp only [List.mem_cons, List.not_mem_nil, or_false] at ho ⊢; tauto))⟩
  · intro op ho
    refine .inr (List.mem_append_left _ (List.mem_map_of_mem ?_))
    have := all_d3 ho
    simp only [List.mem_cons, List.not_mem_nil, or_false] at this ⊢
    tauto

-- Alice's device does not even know the document. It gets the parcel, and reads what agent 5 wrote.
example : ∃ e key, x2.encryptContent ES LW 300 7 8 42 = (x3, .ok (e, some t5)) ∧ new.ingest ES id parcel = (done, some (.ok [])) ∧
    (∀ op, HasKeyOp ES done 300 op ↔ HasKeyOp ES x3 300 op) ∧ (done.decryptContent ES 300 e).2 = .ok (42, key) := by
  obtain ⟨d, e1, e2⟩ := doc_of x3_has
  obtain ⟨d', e3, e4⟩ := doc_of done_has
  have he : ∃ e, x2.encryptContent ES LW 300 7 8 42 = (x3, .ok (e, some t5)) := by
    have h : ((x2.encryptContent ES LW 300 7 8 42).2.toOption.bind (fun p => p.2)) = some t5 := by decide +kernel
    unfold x3
    cases hq : x2.encryptContent ES LW 300 7 8 42 with
    | mk k' r =>
      rw [hq] at h
      cases r with
      | error e => cases h
      | ok p =>
        obtain ⟨e, o⟩ := p
        have : o = some t5 := h
        exact ⟨e, by rw [this]⟩
  obtain ⟨e, he⟩ := he
  have hi : new.ingest ES id parcel = (done, some (.ok [])) := Prod.ext rfl taken
  have hv : ∀ op, HasKeyOp ES x3 300 op → ES.validCgka 300 op = true ∧ PublicAsKnown op :=
    fun op ho => ⟨valid_ops op (all_x3 ho), none_public _ (fun _ h => h) op (all_x3 ho)⟩
  have hoth : ∀ i op, .cgka i op ∈ parcel → HasKeyOp ES x3 i op ∧ PublicAsKnown op := by
    intro i op h
    obtain ⟨rfl, hm⟩ := in_parcel h
    exact ⟨has_of (x3_recorded op hm), none_public _ (fun _ h => h) op hm⟩
  have hall : ∀ op, .cgka 300 op ∈ parcel ++ new.pending → HasKeyOp ES x3 300 op := fun op h =>
    (hoth 300 op (by simpa [new, Keyhive.start] using h)).1
  have hcov : ∀ op, HasKeyOp ES x3 300 op → HasKeyOp ES new 300 op ∨ .cgka 300 op ∈ parcel ++ new.pending := by
    intro op ho
    refine .inr (List.mem_append_left _ ?_)
    have := all_x3 ho
    simp only [List.mem_cons, List.not_mem_nil, or_false] at this
    rcases this with rfl | rfl | rfl | rfl | rfl <;> simp [parcel]
  have ho : ((treeOf done 300).get done_has).ownerId = 1 := by decide +kernel
  have hno : ∀ op ∈ [t0, t1, t2, t3, t5], op.issuer ≠ 1 := by decide
  obtain ⟨key, hkey⟩ := C127_reads_partial ES_inj ES_events (fun l => .refl l) x2_fleet new_only ES_roots LW_fair LW_good he e1 e2
    (changes_of (by decide +kernel)) (turns_of (by decide +kernel)) (fresh_of (by decide +kernel))
    (Verif.Cgka.CutOffProps.Example.distinct_of (by decide +kernel)) (fun op h => (new_empty op h).elim) hv
    (fun op ho pk i ps as h => keys_of (all_x3 ho) pk i ps as h) (fun _ op ho h => begins (all_x3 ho) h) (fun _ _ => x3) (fun _ _ => x3_fleet)
    hoth (fun i op h => hno op (in_parcel h).2) hall hcov hi e3 e4 (by decide +kernel) (fun op h hg => placed (all_x3 h) (ho ▸ hg))
  refine ⟨e, key, he, hi, (C127_mixed_partial ES_inj ES_events (fun l => .refl l) x3_fleet (only_fleet new_only) ES_roots e1 e2
    (Verif.Cgka.Sample.oneRoot_of 0 (by decide +kernel)) (no_removal (by decide +kernel)) (fun op h => (new_empty op h).elim) hv
    (fun op ho pk i ps as h => keys_of (all_x3 ho) pk i ps as h) (fun _ op ho h => begins (all_x3 ho) h) (fun _ _ => x3) (fun _ _ => x3_fleet)
    hoth hall hcov hi (by rw [e3]; simp)).1, hkey⟩

/-- C127 fails. A device of an agent that does not hold the secret of the prekey with which the agent was added is sent everything in causal
order: the call returns, but the operation that adds the agent and the later one are left over, now and whenever they come again. -/
theorem C127_fails : Fleet EF d3 ∧ Fleet EF second ∧ HasKeyOp EF d3 300 t5 ∧
    d3.cgkaOpsForDoc 300 = .ok (some [t0, t1, t2, t3, t5]) ∧
    (second.ingest EF id ([t0, t1, t2, t3, t5].map (.cgka 300 ·))).2 = some (.ok [.cgka 300 t5, .cgka 300 t3]) ∧
    ¬ HasKeyOp EF (second.ingest EF id ([t0, t1, t2, t3, t5].map (.cgka 300 ·))).1 300 t5 := by
  refine ⟨d3_fleet, second_fleet, has_of (by decide +kernel), history, second_left.1, ?_⟩
  rintro ⟨d, c, h1, h2, h3⟩
  have := second_left.2
  unfold recorded treeOf at this
  rw [h1, Option.bind_some, h2, Option.bind_some, h3] at this
  cases this

end Verif.Keyhive.SyncProps
