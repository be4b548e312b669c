import Verif.Keyhive.TakeLemmas
import Verif.Keyhive.FleetProps

/-! # C120: handing over the key history of a document -/

namespace Verif.Keyhive.TakeProps

open Verif.Group Verif.Cgka Verif.BeeKem

variable {E : Env}

theorem has_iff {k : Keyhive} {did : Id} {d : Doc} {c : Cgka} (hd : AMap.get k.docs did = some d) (hc : d.cgka = some c) (op : SOp) :
    HasKeyOp E k did op ↔ AMap.get c.graph.ops (E.hashCgka did op) = some op := by
  constructor
  · rintro ⟨d', c', h1, h2, h3⟩
    rw [hd] at h1
    cases h1
    rw [hc] at h2
    cases h2
    exact h3
  · exact fun h => ⟨d, c, hd, hc, h⟩

/-- C120, the list: for a document whose operations all descend from one first operation, the key history is exactly the operations the device
has recorded for the document, each once, and each after those it builds on.
Missing: documents with several operations without predecessors, for which it is false (`C120_fails`). -/
theorem C120_order_partial {k : Keyhive} (hk : Reach E k) {did : Id} (hH : Function.Injective (E.hashCgka did)) {d : Doc} {c : Cgka}
    (hd : AMap.get k.docs did = some d) (hc : d.cgka = some c) (h1 : OneRoot c) :
    ∃ l, k.cgkaOpsForDoc did = .ok (some l) ∧ l.Nodup ∧ (∀ op, op ∈ l ↔ HasKeyOp E k did op) ∧ InOrder E did l := by
  have hr := reach_trees hk did d hd c hc
  have hg := (reach_inv hH hr).1
  obtain ⟨epochs, h2, h3⟩ := Verif.Cgka.Props.C14_replay_order_partial hH hr h1 hg.ne hg.headsN
    (fun x hx => (Verif.Cgka.Props.C13_heads_cover hH hr x).2 (.inl hx))
  have hmem : ∀ op, op ∈ epochs.flatten ↔ AMap.get c.graph.ops (E.hashCgka did op) = some op := by
    intro op
    refine ⟨h3.genuine op, fun h => ?_⟩
    have := (h3.exactly (E.hashCgka did op)).2 ((Verif.Cgka.Props.C13_heads_cover hH hr _).1 ⟨op, h⟩)
    obtain ⟨o, ho, e⟩ := List.mem_map.1 this
    exact hH e ▸ ho
  refine ⟨epochs.flatten, ?_, List.Nodup.of_map _ h3.once, fun op => by rw [hmem, has_iff hd hc], ?_⟩
  · unfold Keyhive.cgkaOpsForDoc Graph.topsortGraph
    rw [hd]
    simp only [hc, h2]
  · intro l1 op l2 hl p hp
    have hop := (hmem op).1 (by rw [hl]; simp)
    have hn : Verif.Cgka.Names c p (E.hashCgka did op) := ⟨op, hop, hp⟩
    obtain ⟨o, ho⟩ := names_known hg hn
    have he := hg.hash _ _ ho
    subst he
    have hm := (hmem o).2 ho
    have hca := h3.causal
    rw [hl] at hm hca
    rcases List.mem_append.1 hm with h | h
    · exact ⟨o, h, rfl⟩
    · exfalso
      rcases List.mem_cons.1 h with rfl | h
      · obtain ⟨r, hr⟩ := hg.acyclic
        exact absurd (hr _ _ ((hg.predOf _ _).2 hn)) (Nat.lt_irrefl _)
      · exact (List.pairwise_cons.1 (List.pairwise_append.1 hca).2.1).1 o h (.direct hn)

/-- C120, taking it in: when all devices run the library, a device that knows the document and has no key operations of it that the other device
lacks takes the other's key history in the order in which it is handed over: no operation is refused, and then both have the same operations.
The operations are correctly signed, add the public individual only with its well-known key, and add the receiving agent only with a prekey
whose secret the device holds; a tree the device does not have yet does not begin with its own agent or the public one; and nobody was removed
at the same time as something else was done.
Missing: removals at the same time as other operations, and prekeys whose secret the device does not hold (`C120_fails`). -/
theorem C120_taken_partial (hH : ∀ i, Function.Injective (E.hashCgka i)) {k w : Keyhive} (hk : Fleet E k) (hw : Fleet E w) {did : Id} {d dw : Doc}
    {c : Cgka} (hd : AMap.get k.docs did = some d) (hc : d.cgka = some c) (h1 : OneRoot c) (hs : NoConcurrentRemoval c)
    (hdw : AMap.get w.docs did = some dw) (hsub : ∀ op, HasKeyOp E w did op → HasKeyOp E k did op)
    (hv : ∀ op, HasKeyOp E k did op → E.validCgka did op = true ∧ PublicAsKnown op)
    (hp : ∀ op, HasKeyOp E k did op → ∀ pk i ps as, op.payload = .add w.reg.me pk i ps as → AMap.get w.pairs pk ≠ none)
    (hb : dw.cgka = none → ∀ op, HasKeyOp E k did op → op.payload.preds = [] → ¬ AddsAgent op w.reg.me ∧ ¬ AddsAgent op w.reg.pub) :
    ∃ l, k.cgkaOpsForDoc did = .ok (some l) ∧ TakesAll E did w l ∧
      ∀ op, HasKeyOp E (takes E did w l) did op ↔ HasKeyOp E k did op := by
  obtain ⟨l, e1, -, e2, e3⟩ := C120_order_partial (fleet_reach hk) (hH did) hd hc h1
  have tc := fleet_trusted hH hk hd hc
  have gc := (reachOk_inv (hH did) (trusted_ok tc)).graph
  have hof := fleet_sound hH hw
  have key : ∀ {w' : Keyhive} {d' : Doc}, FleetOk E w' → AMap.get w'.docs did = some d' →
      ∀ op, HasKeyOp E w' did op ↔ d'.Knows (E.hashCgka did op) := by
    intro w' d' hf hd' op
    constructor
    · rintro ⟨d1, c1, f1, f2, f3⟩
      rw [hd'] at f1
      cases f1
      exact ⟨c1, f2, _, f3⟩
    · rintro ⟨b, f1, o, f2⟩
      have g := (reachOk_inv (hH did) (trusted_ok (hf.trees did d' hd' b f1))).graph
      exact ⟨d', b, hd', f1, hH did (g.hash _ _ f2) ▸ f2⟩
  obtain ⟨t1, d', t2, t3⟩ := take_all hH tc h1 hs (l := l) hof hdw
    (by
      rintro x ⟨b, f1, o, f2⟩
      have g := (reachOk_inv (hH did) (trusted_ok (hof.trees did dw hdw b f1))).graph
      have he := g.hash _ _ f2
      subst he
      exact ⟨o, (has_iff hd hc o).1 (hsub o ⟨dw, b, hdw, f1, f2⟩)⟩)
    (fun op ho => (has_iff hd hc op).1 ((e2 op).1 ho))
    (fun l1 op l2 hl p hpp => .inr (e3 l1 op l2 hl p hpp))
    (fun op ho => hv op ((e2 op).1 ho)) (fun op ho => hp op ((e2 op).1 ho)) (fun op ho h h' => hb h' op ((e2 op).1 ho) h)
  refine ⟨l, e1, t1, fun op => ?_⟩
  have hw' : FleetOk E (takes E did w l) := by
    have : ∀ (l : List SOp) (w : Keyhive), FleetOk E w → (∀ op ∈ l, Passed E did op) → FleetOk E (takes E did w l) := by
      intro l
      induction l with
      | nil => exact fun w h _ => h
      | cons o l ih =>
        intro w h ho
        exact ih _ (sound_receive hH h (fun i o' he => by cases he; exact ho o List.mem_cons_self)) (fun o' h' => ho o' (List.mem_cons_of_mem _ h'))
    exact this l w hof (fun op ho => ⟨⟨c, _, tc, (has_iff hd hc op).1 ((e2 op).1 ho)⟩, (hv op ((e2 op).1 ho)).2⟩)
  rw [key hw' t2, t3]
  constructor
  · rintro (h | ⟨o, h, he⟩)
    · exact hsub op ((key hof hdw op).2 h)
    · exact hH did he ▸ (e2 o).1 h
  · exact fun h => .inr ⟨op, (e2 op).2 h, rfl⟩

namespace TakeSample

open FleetSample Verif.Keyhive.Sample

/-- Alice's device knows the document, and has none of its key operations. -/
noncomputable def fresh : Keyhive := feed EF (Keyhive.start regA [(⟨11⟩, 11)]) (mail [])
/-- It has the first two. -/
noncomputable def behind : Keyhive := feed EF (Keyhive.start regA [(⟨11⟩, 11)]) (mail [t0, t1])
/-- A device of Alice's that does not hold the secrets of their prekeys. -/
noncomputable def second : Keyhive := feed EF (Keyhive.start regA []) (mail [])

theorem none_public (ops : List SOp) (h : ∀ op ∈ ops, op ∈ [t0, t1, t2, t3, t5]) : ∀ op ∈ ops, PublicAsKnown op := by
  intro op ho pk i ps as he
  have := h op ho
  simp only [List.mem_cons, List.not_mem_nil, or_false] at this
  rcases this with rfl | rfl | rfl | rfl | rfl <;> cases he

theorem fresh_fleet : Fleet EF fresh := mail_fleet d3_fleet [] (by simp) (by simp)
theorem behind_fleet : Fleet EF behind := mail_fleet d3_fleet [t0, t1] (by decide +kernel) (none_public _ (by simp))
theorem second_fleet : Fleet EF second := by
  refine feed_fleet d3_fleet (.start regA [] rfl OwnPairs.nil) ?_
  intro did op ho
  simp [mail] at ho

theorem history : d3.cgkaOpsForDoc 300 = .ok (some [t0, t1, t2, t3, t5]) := by decide +kernel

/-- The operations recorded at agent 5's device. -/
theorem all_d3 {op : SOp} (h : HasKeyOp EF d3 300 op) : op ∈ [t0, t1, t2, t3, t5] := by
  obtain ⟨d, c, h1, h2, h3⟩ := h
  have hq : ((AMap.get d3.docs 300).bind (·.cgka)).map (fun c => (c.graph.ops.map Prod.snd)) = some [t5, t3, t2, t1, t0] := by decide +kernel
  rw [h1, Option.bind_some, h2, Option.map_some] at hq
  have : op ∈ c.graph.ops.map Prod.snd := List.mem_map_of_mem (AMap.mem_of_get h3)
  rw [Option.some.inj hq] at this
  simp only [List.mem_cons, List.not_mem_nil, or_false] at this ⊢
  tauto

theorem no_removal {c : Cgka} (h : ∀ p ∈ c.graph.ops, (match p.2.payload with | .remove .. => true | _ => false) = false) :
    NoConcurrentRemoval c := by
  rintro x y ⟨o, id, i, ks, ps, h1, h2⟩
  have := h _ (AMap.mem_of_get h1)
  rw [h2] at this
  cases this

/-- The tree of document 300 begins a second time. -/
def again : SOp := ⟨.initAdd 2 ⟨22⟩, 1, 1950⟩
/-- Digests and signatures. -/
noncomputable def ETwice : Env := env (tableH [s0, s1, again])
/-- The device has received the first operation, the second one, and the one that begins again. -/
noncomputable def twoRoots : Keyhive := feed ETwice k0 [.dlg docAlice, .cgka 300 s0, .cgka 300 s1, .cgka 300 again]

theorem twoRoots_reach : Reach ETwice twoRoots := by
  have : ∀ (es : List Event) {k : Keyhive}, Reach ETwice k → Reach ETwice (feed ETwice k es) := by
    intro es
    induction es with
    | nil => intro k h; exact h
    | cons e es ih => intro k h; exact ih (.call (.receive e) h trivial)
  exact this _ (.start reg [(⟨55⟩, 55)])

theorem told_twoRoots : recorded twoRoots 300 (ETwice.hashCgka 300 again) = some again ∧ twoRoots.cgkaOpsForDoc 300 = .ok (some [s0, s1]) := by
  decide +kernel

/-- What the second device says to the history, one operation after the other. -/
theorem told_second :
    let r0 := second.receive EF (.cgka 300 t0)
    let r1 := r0.1.receive EF (.cgka 300 t1)
    let r2 := r1.1.receive EF (.cgka 300 t2)
    let r3 := r2.1.receive EF (.cgka 300 t3)
    let r5 := r3.1.receive EF (.cgka 300 t5)
    r0.2 = .ok () ∧ r1.2 = .ok () ∧ r2.2 = .ok () ∧ r3.2 = .error .unknownInvitePrekey ∧ r5.2 = .error (.cgka .outOfOrderOperation) := by
  decide +kernel

end TakeSample

open FleetSample Verif.Keyhive.Sample TakeSample

-- Agent 5's device hands over what it has.
example : Reach EF d3 ∧ Function.Injective (EF.hashCgka 300) ∧ (∃ d c, AMap.get d3.docs 300 = some d ∧ d.cgka = some c ∧ OneRoot c) ∧
    d3.cgkaOpsForDoc 300 = .ok (some [t0, t1, t2, t3, t5]) := by
  obtain ⟨d, e1, e2⟩ := doc_of d3_has
  exact ⟨fleet_reach d3_fleet, EF_inj 300, ⟨d, _, e1, e2, Verif.Cgka.Sample.oneRoot_of 0 (by decide +kernel)⟩, history⟩

/-- Alice's device takes all of it, whether it has some of it already or not. -/
theorem alice_takes {w : Keyhive} (hw : Fleet EF w) (hme : w.reg.me = 1) (hpub : w.reg.pub = 0) (hpairs : w.pairs = [(⟨11⟩, 11)]) {dw : Doc}
    (hdw : AMap.get w.docs 300 = some dw) (hsub : ∀ op, HasKeyOp EF w 300 op → HasKeyOp EF d3 300 op) :
    TakesAll EF 300 w [t0, t1, t2, t3, t5] ∧ HasKeyOp EF (takes EF 300 w [t0, t1, t2, t3, t5]) 300 t5 := by
  obtain ⟨d, e1, e2⟩ := doc_of d3_has
  obtain ⟨l, h1, h2, h3⟩ := C120_taken_partial EF_inj d3_fleet hw e1 e2 (Verif.Cgka.Sample.oneRoot_of 0 (by decide +kernel))
    (no_removal (by decide +kernel)) hdw hsub (fun op ho => ⟨by
      have hv : ∀ o ∈ [t0, t1, t2, t3, t5], EF.validCgka 300 o = true := by decide +kernel
      exact hv op (all_d3 ho), none_public _ (fun _ h => h) op (all_d3 ho)⟩)
    (fun op ho pk i ps as he => by
      rw [hme] at he
      rw [hpairs]
      have := all_d3 ho
      simp only [List.mem_cons, List.not_mem_nil, or_false] at this
      rcases this with rfl | rfl | rfl | rfl | rfl <;> cases he
      decide)
    (fun _ op ho he => by
      rw [hme, hpub]
      have := all_d3 ho
      simp only [List.mem_cons, List.not_mem_nil, or_false] at this
      rcases this with rfl | rfl | rfl | rfl | rfl <;> first | (exfalso; revert he; decide) | skip
      exact ⟨(by rintro ⟨_, _, _, _, h⟩; cases h), (by rintro ⟨_, _, _, _, h⟩; cases h)⟩)
  rw [history] at h1
  cases h1
  exact ⟨h2, (h3 t5).2 (has_of (by decide +kernel))⟩

example : TakesAll EF 300 fresh [t0, t1, t2, t3, t5] := by
  have h : ∃ d, AMap.get fresh.docs 300 = some d := Option.ne_none_iff_exists'.1 (by decide +kernel)
  obtain ⟨dw, hdw⟩ := h
  refine (alice_takes fresh_fleet (by decide +kernel) (by decide +kernel) (by decide +kernel) hdw ?_).1
  rintro op ⟨d, c, h1, h2, -⟩
  have hq : ((AMap.get fresh.docs 300).bind (·.cgka)) = none := by decide +kernel
  rw [h1, Option.bind_some, h2] at hq
  cases hq

theorem behind_has : (treeOf behind 300).isSome = true := by decide +kernel

example : TakesAll EF 300 behind [t0, t1, t2, t3, t5] ∧ HasKeyOp EF (takes EF 300 behind [t0, t1, t2, t3, t5]) 300 t5 := by
  obtain ⟨dw, hdw, -⟩ := doc_of behind_has
  exact alice_takes behind_fleet (by decide +kernel) (by decide +kernel) (by decide +kernel) hdw (all_of behind_has (by decide +kernel))

/-- C120 fails. A device that has accepted a second operation without predecessors leaves it out of the history it hands over. And a device
of an agent that does not hold the secret of the prekey with which the agent was added refuses that operation of the history, and then
everything after it. -/
theorem C120_fails :
    (Reach ETwice twoRoots ∧ HasKeyOp ETwice twoRoots 300 again ∧ ∃ l, twoRoots.cgkaOpsForDoc 300 = .ok (some l) ∧ again ∉ l) ∧
    (Fleet EF d3 ∧ Fleet EF second ∧ ∃ l, d3.cgkaOpsForDoc 300 = .ok (some l) ∧ ¬ TakesAll EF 300 second l) := by
  refine ⟨⟨twoRoots_reach, has_of told_twoRoots.1, _, told_twoRoots.2, by decide⟩, d3_fleet, second_fleet, _, history, ?_⟩
  rintro ⟨-, -, -, h, -⟩
  have := told_second.2.2.2.1
  rw [h] at this
  cases this

end Verif.Keyhive.TakeProps
