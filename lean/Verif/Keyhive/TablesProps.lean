import Verif.Keyhive.TablesLemmas
import Verif.Keyhive.QueryProps
import Verif.Keyhive.KeptSample

/-!
# Property theorems: the tables of events a device hands out (C97, C98)

`k.eventsFor E a` are the events selected for the agent (C39, C75, C81, C89 say which these are); `k.eventTable E a` is the table of
`static_events_for_agent`, `k.jsEvents E a` that of `eventsForAgent`, `k.jsAll E` the tables of `allAgentEvents`.
-/

namespace Verif.Keyhive.TablesProps

open Verif.Group Verif.Cgka Verif.BeeKem Relation

variable {E : Env}

/-! ## A device for the examples -/

/-- A collision-free hash of lists of numbers. -/
def hashL : List Nat → Nat
  | [] => 0
  | a :: l => Nat.pair a (hashL l) + 1

theorem hashL_injective : Function.Injective hashL := by
  intro a b h
  induction a generalizing b with
  | nil => cases b with
    | nil => rfl
    | cons => simp [hashL] at h
  | cons x l ih => cases b with
    | nil => simp [hashL] at h
    | cons y m =>
      simp only [hashL, Nat.add_right_cancel_iff, Nat.pair_eq_pair] at h
      rw [h.1, ih h.2]

/-- The number of the variant. -/
def tag : Event → Nat
  | .prekey _ => 0
  | .cgka _ _ => 2
  | .dlg _ => 3
  | .rev _ => 4

/-- A number for what the event holds. -/
def content (E : Env) : Event → Nat
  | .dlg d => E.hashDlg d
  | .rev r => E.hashRev r
  | e => E.hashEvent e

/-- The same environment with hashes of bytes. -/
def bytes (E : Env) : Env := { E with
  hashDlg := fun d => hashL [E.hashDlg d], hashRev := fun r => hashL [E.hashRev r], hashEvent := fun e => hashL [tag e, 0, 0, 0, content E e] }

def layout (E : Env) : Layout (bytes E) :=
  ⟨hashL, hashL_injective, fun d => [E.hashDlg d], fun r => [E.hashRev r], fun _ => rfl, fun _ => rfl, fun _ => rfl, fun _ => rfl⟩

theorem apart (hE : Function.Injective E.hashEvent) (hC : E.NoClash) (hD : ∀ d r, E.hashDlg d ≠ E.hashRev r) : (bytes E).Apart where
  event := by
    intro a b h
    have h := hashL_injective h
    obtain ⟨h1, h⟩ := List.cons.inj h
    have h := (List.cons.inj (List.cons.inj (List.cons.inj (List.cons.inj h).2).2).2).1
    cases a <;> cases b <;> first
      | exact hE h
      | exact congrArg Event.dlg (hC.dlg h)
      | exact congrArg Event.rev (hC.rev h)
      | exact absurd h1 (by simp [tag])
  dlg := fun a b h => hC.dlg (List.cons.inj (hashL_injective h)).1
  rev := fun a b h => hC.rev (List.cons.inj (hashL_injective h)).1
  dlgRev := fun d r h => hD d r (List.cons.inj (hashL_injective h)).1
  eventDlg := fun e d h => absurd (congrArg List.length (hashL_injective h)) (by simp)
  eventRev := fun e d h => absurd (congrArg List.length (hashL_injective h)) (by simp)

theorem sample_apart : (bytes Sample.E).Apart := apart Sample.E_events Sample.E_noClash fun d r h => by
  have h : Sample.hashDlg d = Sample.hashRev r := h
  unfold Sample.hashDlg Sample.hashRev at h
  omega

/-- Alice makes Bob admin of team 200. -/
def toBob : SDlg := { Sample.kBob with proof := some (hashL [Sample.hashDlg Sample.kAlice]) }

/-- Alice is admin of team 200 and makes Bob admin. -/
noncomputable def team : Keyhive :=
  Sample.feed (bytes Sample.E) Sample.k0 [.dlg Sample.kAlice, .dlg toBob]

theorem reach_team : Reach (bytes Sample.E) team := Sample.reach_feed' (.start Sample.reg [(⟨55⟩, 55)])

/-- A device that received the second delegation and not the first. -/
noncomputable def waiting : Keyhive := (Sample.k0.ingest (bytes Sample.E) (fun l => l) [.dlg toBob]).1

theorem reach_waiting : Reach (bytes Sample.E) waiting := .call (.ingest (fun l => l) [.dlg toBob]) (.start Sample.reg [(⟨55⟩, 55)]) trivial

theorem sg_signs : Signs (bytes Sample.EL) Sample.sg := by
  intro o s h
  unfold Sample.sg at h
  split at h
  · rename_i hi
    cases h
    cases o with
    | dlg d => cases d <;> exact decide_eq_true hi
    | rev r => cases r <;> exact decide_eq_true hi
  · cases h

/-- Agent 5 creates document 300. -/
noncomputable def withDoc : Keyhive := (Sample.k0.generateDoc (bytes Sample.EL) Sample.L Sample.sg 300 [] [1]).1

theorem reach_withDoc : Reach (bytes Sample.EL) withDoc :=
  .call (.newDoc Sample.L Sample.sg 300 [] [1]) (.start Sample.reg [(⟨55⟩, 55)]) ⟨sg_signs, sg_signs, Sample.L_signs.2⟩

theorem withDoc_apart : (bytes Sample.EL).Apart := apart (Sample.hashEvent_injective (tableH_injective _)) Sample.EL_noClash fun d r h => by
  have h : Sample.hashDlg d = Sample.hashRev r := h
  unfold Sample.hashDlg Sample.hashRev at h
  omega

/-! ## C97: the names of events -/

/-- C97 for prekey operations and group-key operations: the table for an agent has an event under its hash.
Missing: delegations and revocations (`C97_fails`). -/
theorem C97_named_partial {k : Keyhive} {a : Agent} {n : Nat} {ev : Event} (h : AMap.get (k.eventTable E a) n = some ev)
    (hm : ¬ ev.IsMembership) : n = E.hashEvent ev := by
  have hc := Keyhive.table_coherent (E := E) (k := k) (a := a) _ (AMap.mem_of_get h)
  cases ev with
  | dlg d => exact absurd trivial hm
  | rev r => exact absurd trivial hm
  | prekey o => exact hc
  | cgka d o => exact hc

-- Alice is sent two delegations and prekey operations of three agents.
example : ((AMap.values (team.eventTable (bytes Sample.E) Sample.alice)).map tag) = [0, 0, 0, 3, 3] := by decide +kernel

/-- C97 fails for every delegation and revocation in every table: it is never under its own hash. -/
theorem C97_never (L : Layout E) {k : Keyhive} {a : Agent} {n : Nat} {ev : Event} (h : AMap.get (k.eventTable E a) n = some ev)
    (hm : ev.IsMembership) : n ≠ E.hashEvent ev := by
  have hc := Keyhive.table_coherent (E := E) (k := k) (a := a) _ (AMap.mem_of_get h)
  intro e
  have hne : ∀ (t : Nat) (bs : List Nat), L.hash bs ≠ L.hash ([t, 0, 0, 0] ++ bs) := fun t bs he => by
    have := congrArg List.length (L.inj he)
    simp at this
    omega
  cases ev with
  | dlg d =>
    have hc : n = E.hashDlg d := hc
    exact hne 3 (L.dlgBytes d) (by rw [← L.dlg, ← L.eventDlg, ← hc, e])
  | rev r =>
    have hc : n = E.hashRev r := hc
    exact hne 4 (L.revBytes r) (by rw [← L.rev, ← L.eventRev, ← hc, e])
  | prekey o => exact hm
  | cgka d o => exact hm

/-- What follows for a device that waits for events: none of the hashes by which it names them is in another device's table under
a delegation or revocation. -/
theorem C97_not_asked_for (hA : E.Apart) {k k' : Keyhive} {a : Agent} {n : Nat} {ev : Event} (h : AMap.get (k.eventTable E a) n = some ev)
    (hm : ev.IsMembership) : n ∉ k'.pendingHashes E := by
  have hc := Keyhive.table_coherent (E := E) (k := k) (a := a) _ (AMap.mem_of_get h)
  intro hp
  obtain ⟨e, -, he⟩ := List.mem_map.1 hp
  cases ev with
  | dlg d => exact hA.eventDlg e d (he.trans hc)
  | rev r => exact hA.eventRev e r (he.trans hc)
  | prekey o => exact hm
  | cgka d o => exact hm

/-- C97 fails: a device waits until it can apply the delegation to Bob; the device that has it offers it under another name than the one
under which the first lists it. -/
theorem C97_fails : ∃ (E : Env) (k k' : Keyhive) (a : Agent) (n : Nat) (ev : Event), Nonempty (Layout E) ∧ E.Apart ∧ Reach E k ∧ Reach E k' ∧
    AMap.get (k.eventTable E a) n = some ev ∧ ev ∈ k'.pending ∧ E.hashEvent ev ∈ k'.pendingHashes E ∧ n ∉ k'.pendingHashes E := by
  have h : AMap.get (team.eventTable (bytes Sample.E) Sample.alice) ((bytes Sample.E).hashDlg toBob) = some (.dlg toBob) ∧
      waiting.pending = [.dlg toBob] := by decide +kernel
  refine ⟨bytes Sample.E, team, waiting, Sample.alice, _, _, ⟨layout _⟩, sample_apart, reach_team, reach_waiting, h.1, ?_, ?_,
    C97_not_asked_for sample_apart h.1 trivial⟩
  · rw [h.2]; exact List.mem_singleton_self _
  · unfold Keyhive.pendingHashes; rw [h.2]; exact List.mem_singleton_self _

/-- The digest of the signed operation is the name of a delegation or revocation: with it, the table has exactly the events selected for
the agent. -/
theorem C97_table (hA : E.Apart) {k : Keyhive} {a : Agent} {n : Nat} {ev : Event} :
    AMap.get (k.eventTable E a) n = some ev ↔ ev ∈ k.eventsFor E a ∧ n = E.name ev := by
  have h0 := Keyhive.ops_coherent (E := E) (k := k) (a := a)
  have h1 : ∀ e ∈ (k.prekeyList a).map Event.prekey, E.hashEvent e = E.name e := by
    intro e he
    obtain ⟨o, -, rfl⟩ := List.mem_map.1 he
    rfl
  have h2 : ∀ e ∈ (k.cgkaOpsFor a.id).map (fun p => Event.cgka p.1 p.2), E.hashEvent e = E.name e := by
    intro e he
    obtain ⟨o, -, rfl⟩ := List.mem_map.1 he
    rfl
  unfold Keyhive.eventTable
  dsimp only
  rw [get_puts hA.name_inj _ _ (puts_coherent _ _ h0 h1) h2, get_puts hA.name_inj _ _ h0 h1]
  have hops : AMap.get ((k.membershipOpsFor E a).map (fun p => (p.1, Keyhive.toEvent E p.2))) n = some ev ↔
      ev ∈ (AMap.values (k.membershipOpsFor E a)).map (Keyhive.toEvent E) ∧ n = E.name ev := by
    constructor
    · intro h
      obtain ⟨p, hp, e⟩ := List.mem_map.1 (AMap.mem_of_get h)
      refine ⟨?_, h0 _ (AMap.mem_of_get h)⟩
      cases e
      exact List.mem_map_of_mem (List.mem_map_of_mem hp)
    · rintro ⟨h, rfl⟩
      obtain ⟨o, ho, rfl⟩ := List.mem_map.1 h
      obtain ⟨p, hp, rfl⟩ := List.mem_map.1 ho
      refine Keyhive.get_coherent hA.name_inj h0 ?_
      refine List.mem_map.2 ⟨p, hp, ?_⟩
      rw [Keyhive.toEvent_name, ← Keyhive.single_names p hp]
  rw [hops]
  unfold Keyhive.eventsFor
  rw [List.mem_append, List.mem_append]
  unfold Keyhive.prekeyList
  tauto

-- The five events for Alice are under five names.
example : (bytes Sample.E).Apart ∧ (AMap.keys (team.eventTable (bytes Sample.E) Sample.alice)).length = 5 ∧
    (AMap.keys (team.eventTable (bytes Sample.E) Sample.alice)).Nodup ∧ (team.eventsFor (bytes Sample.E) Sample.alice).length = 5 :=
  ⟨sample_apart, by decide +kernel, by decide +kernel, by decide +kernel⟩

/-! ## C98: the tables of the JavaScript interface -/

/-- C98, for one agent: the events of `eventsForAgent` are those selected for the agent, under the same names as in the table, and
`eventHashesForAgent` lists the names of exactly these. -/
theorem C98_one_agent {k : Keyhive} {a : Agent} :
    (∀ n ev, (n, ev) ∈ k.jsEvents E a ↔ ev ∈ k.eventsFor E a ∧ n = E.name ev) ∧
    ∀ n, n ∈ k.jsHashes E a ↔ ∃ ev ∈ k.eventsFor E a, n = E.name ev := by
  have h1 : ∀ n ev, (n, ev) ∈ k.jsEvents E a ↔ ev ∈ k.eventsFor E a ∧ n = E.name ev := by
    intro n ev
    unfold Keyhive.jsEvents Keyhive.eventsFor Keyhive.prekeyList
    simp only [List.mem_append, List.mem_map, Prod.mk.injEq, AMap.values]
    constructor
    · rintro ((⟨p, hp, rfl, rfl⟩ | ⟨o, ho, rfl, rfl⟩) | ⟨p, hp, rfl, rfl⟩)
      · exact ⟨.inl (.inl ⟨p.2, ⟨p, hp, rfl⟩, rfl⟩), by rw [Keyhive.toEvent_name]; exact Keyhive.single_names p hp⟩
      · exact ⟨.inl (.inr ⟨o, ho, rfl⟩), rfl⟩
      · exact ⟨.inr ⟨p, hp, rfl⟩, rfl⟩
    · rintro ⟨(⟨_, ⟨p, hp, rfl⟩, rfl⟩ | ⟨o, ho, rfl⟩) | ⟨p, hp, rfl⟩, rfl⟩
      · exact .inl (.inl ⟨p, hp, by rw [Keyhive.toEvent_name]; exact Keyhive.single_names p hp, rfl⟩)
      · exact .inl (.inr ⟨o, ho, rfl, rfl⟩)
      · exact .inr ⟨p, hp, rfl, rfl⟩
  refine ⟨h1, fun n => ?_⟩
  have h2 : k.jsHashes E a = (k.jsEvents E a).map (·.1) := by
    simp [Keyhive.jsHashes, Keyhive.jsEvents, AMap.keys, List.map_map, Function.comp_def]
  rw [h2, List.mem_map]
  constructor
  · rintro ⟨⟨m, ev⟩, hp, rfl⟩
    exact ⟨ev, (h1 _ _).1 hp⟩
  · rintro ⟨ev, he, rfl⟩
    exact ⟨(_, ev), (h1 _ _).2 ⟨he, rfl⟩, rfl⟩

-- Agent 5 has a document: membership, prekeys and group keys.
example : (withDoc.jsEvents (bytes Sample.EL) ⟨.individual, 5⟩).map (fun p => tag p.2) = [3, 0, 2, 2, 2] ∧
    withDoc.jsHashes (bytes Sample.EL) ⟨.individual, 5⟩ = (withDoc.eventsFor (bytes Sample.EL) ⟨.individual, 5⟩).map (bytes Sample.EL).name := by
  decide +kernel

/-- C98, following the names: every hash listed for a source leads to an event with this name. -/
theorem C98_every_hash (hA : E.Apart) {k : Keyhive} {b : Bulk (List Nat)}
    (hb : b = (k.jsAll E).membership ∨ b = (k.jsAll E).prekey ∨ b = (k.jsAll E).cgka) {s : Id} {hashes : List Nat}
    (hs : AMap.get b.ops s = some hashes) {n : Nat} (hn : n ∈ hashes) :
    ∃ ev, AMap.get (k.jsAll E).events n = some ev ∧ n = E.name ev := by
  have key : ∀ {b' : Bulk (List (Nat × Event))}, (∀ l ∈ AMap.values b'.ops, Coherent E l) →
      (∀ l ∈ AMap.values b'.ops, l ∈ AMap.values (k.jsMembership E).ops ++ AMap.values (k.jsPrekey E).ops ++ AMap.values (k.jsCgka E).ops) →
      b = ⟨b'.ops.map (fun p => (p.1, p.2.map (·.1))), b'.index⟩ → ∃ ev, AMap.get (k.jsAll E).events n = some ev ∧ n = E.name ev := by
    rintro b' hc hin rfl
    obtain ⟨⟨x, l⟩, hx, e⟩ := List.mem_map.1 (AMap.mem_of_get hs)
    cases e
    obtain ⟨⟨m, ev⟩, hp, rfl⟩ := List.mem_map.1 hn
    have hl : l ∈ AMap.values b'.ops := List.mem_map_of_mem (f := Prod.snd) hx
    exact ⟨ev, (Keyhive.get_jsAll hA.name_inj).2 ⟨l, hin l hl, hp⟩, hc l hl _ hp⟩
  rcases hb with rfl | rfl | rfl
  · exact key Keyhive.membership_coherent (fun l hl => by simp only [List.mem_append]; exact .inl (.inl hl)) rfl
  · exact key Keyhive.prekey_coherent (fun l hl => by simp only [List.mem_append]; exact .inl (.inr hl)) rfl
  · exact key Keyhive.cgka_coherent (fun l hl => by simp only [List.mem_append]; exact .inr hl) rfl

-- The tables for agent 5's document list ten events.
example : (bytes Sample.EL).Apart ∧ (AMap.keys (withDoc.jsAll (bytes Sample.EL)).events).length = 10 ∧
    (AMap.values (withDoc.jsAll (bytes Sample.EL)).membership.ops).map List.length = [1] ∧
    (AMap.values (withDoc.jsAll (bytes Sample.EL)).cgka.ops).map List.length = [3] := ⟨withDoc_apart, by decide +kernel⟩

/-- C98, group-key operations: from an agent through its sources one gets to exactly the operations selected for the agent. -/
theorem C98_group_keys (hA : E.Apart) {k : Keyhive} (hr : Reach E k) (hw : AMap.WF k.world) {a : Agent} {ev : Event} :
    Leads (k.jsAll E).events (k.jsAll E).cgka a.id ev ↔ ∃ did op, ev = .cgka did op ∧ ev ∈ k.eventsFor E a := by
  have hin : ∀ l ∈ AMap.values (k.jsCgka E).ops, ∀ p ∈ l, AMap.get (k.jsAll E).events p.1 = some p.2 := fun l hl p hp =>
    (Keyhive.get_jsAll hA.name_inj).2 ⟨l, List.mem_append_right _ hl, hp⟩
  show Leads (k.jsAll E).events ⟨(k.jsCgka E).ops.map (fun p => (p.1, p.2.map (·.1))), (k.jsCgka E).index⟩ a.id ev ↔ _
  rw [leads_iff hin]
  have hops : ((k.jsCgka E).opsFor a.id).getD [] =
      ((k.cgkaOpsForAll.opsFor a.id).getD []).map (fun l => l.map (fun q => (E.hashEvent (.cgka q.1 q.2), Event.cgka q.1 q.2))) :=
    opsFor_mapped _ _ _
  rw [hops]
  constructor
  · rintro ⟨l, hl, n, hp⟩
    obtain ⟨l', hl', rfl⟩ := List.mem_map.1 hl
    obtain ⟨⟨did, op⟩, hq, e⟩ := List.mem_map.1 hp
    cases e
    exact ⟨did, op, rfl, List.mem_append_right _ (List.mem_map.2 ⟨(did, op), (QueryProps.C56_group_keys hr hw).2 ⟨l', hl', hq⟩, rfl⟩)⟩
  · rintro ⟨did, op, rfl, he⟩
    have hq : (did, op) ∈ k.cgkaOpsFor a.id := by
      unfold Keyhive.eventsFor at he
      simp only [List.mem_append, List.mem_map] at he
      rcases he with (⟨o, _, e⟩ | ⟨o, _, e⟩) | ⟨⟨d, o⟩, h, e⟩
      · cases o <;> cases e
      · cases e
      · cases e; exact h
    obtain ⟨l, hl, hm⟩ := (QueryProps.C56_group_keys hr hw).1 hq
    exact ⟨_, List.mem_map_of_mem hl, _, List.mem_map_of_mem (f := fun q : Id × SOp => (E.hashEvent (.cgka q.1 q.2), Event.cgka q.1 q.2)) hm⟩

-- Agent 5's document, with three group-key operations.
example : Reach (bytes Sample.EL) withDoc ∧ AMap.WF withDoc.world ∧ (AMap.get (withDoc.jsAll (bytes Sample.EL)).cgka.index 5) = some [300] :=
  ⟨reach_withDoc, by unfold AMap.WF; decide +kernel, by decide +kernel⟩

/-- C98, membership operations, under the conditions of `C56_membership_partial`: from an agent through its sources one gets to exactly the
operations selected for the agent. Missing: other revocations (`QueryProps.C56_fails`). -/
theorem C98_membership_partial (hA : E.Apart) {k : Keyhive} (hr : Reach E k) (hw : AMap.WF k.world) (hD : Distinct E k) {a : Agent}
    (hg : ∀ r ∈ AMap.values k.revs, AMap.get k.world r.revoke.delegate.id = none)
    (hs : ∀ r ∈ AMap.values k.revs, r.revoke.delegate.id = a.id → r.revoke.delegate.sameAgentId a = true ∧
      ∀ d, ReflTransGen Dep (.rev r) (.dlg d) → d.delegate.kind ≠ .group) {ev : Event} :
    Leads (k.jsAll E).events (k.jsAll E).membership a.id ev ↔ ev.IsMembership ∧ ev ∈ k.eventsFor E a := by
  have hin : ∀ l ∈ AMap.values (k.jsMembership E).ops, ∀ p ∈ l, AMap.get (k.jsAll E).events p.1 = some p.2 := fun l hl p hp =>
    (Keyhive.get_jsAll hA.name_inj).2 ⟨l, List.mem_append_left _ (List.mem_append_left _ hl), hp⟩
  show Leads (k.jsAll E).events ⟨(k.jsMembership E).ops.map (fun p => (p.1, p.2.map (·.1))), (k.jsMembership E).index⟩ a.id ev ↔ _
  rw [leads_iff hin]
  have hops : ((k.jsMembership E).opsFor a.id).getD [] =
      (((k.membershipOpsForAll E).opsFor a.id).getD []).map (fun l => l.map (fun q => (q.1, Keyhive.toEvent E q.2))) :=
    opsFor_mapped _ _ _
  rw [hops]
  have hagree := fun {h o} => QueryProps.C56_membership_partial hr hw hD (a := a) hg hs (h := h) (o := o)
  have hname : ∀ (m : AMap Nat Op), Coherent E (m.map (fun q => (q.1, Keyhive.toEvent E q.2))) → ∀ {h o}, (h, o) ∈ m →
      ∃ o', AMap.get m h = some o' ∧ Keyhive.toEvent E o' = Keyhive.toEvent E o := by
    intro m hm h o hp
    have hne := (AMap.mem_keys_iff _ _).1 (List.mem_map_of_mem (f := Prod.fst) hp)
    cases hg' : AMap.get m h with
    | none => exact absurd hg' hne
    | some o' =>
      have h1 := hm _ (List.mem_map_of_mem (f := fun q : Nat × Op => (q.1, Keyhive.toEvent E q.2)) hp)
      have h2 := hm _ (List.mem_map_of_mem (f := fun q : Nat × Op => (q.1, Keyhive.toEvent E q.2)) (AMap.mem_of_get hg'))
      exact ⟨o', rfl, hA.name_inj (h2.symm.trans h1)⟩
  constructor
  · rintro ⟨l, hl, n, hp⟩
    obtain ⟨l', hl', rfl⟩ := List.mem_map.1 hl
    obtain ⟨⟨h, o⟩, hq, e⟩ := List.mem_map.1 hp
    cases e
    have hco : Coherent E (l'.map (fun q => (q.1, Keyhive.toEvent E q.2))) := by
      have := List.mem_map_of_mem (f := fun l : AMap Nat Op => l.map (fun q => (q.1, Keyhive.toEvent E q.2))) hl'
      rw [← hops] at this
      obtain ⟨s, hs⟩ := mem_opsFor this
      exact Keyhive.membership_coherent _ (List.mem_map_of_mem (f := Prod.snd) (AMap.mem_of_get hs))
    obtain ⟨o', ho', e⟩ := hname l' hco hq
    refine ⟨?_, ?_⟩
    · cases o <;> trivial
    · rw [← e]
      exact List.mem_append_left _ (List.mem_append_left _ (List.mem_map_of_mem
        (List.mem_map_of_mem (f := Prod.snd) (AMap.mem_of_get (hagree.2 ⟨l', hl', ho'⟩)))))
  · rintro ⟨hev, he⟩
    unfold Keyhive.eventsFor at he
    simp only [List.mem_append, List.mem_map] at he
    rcases he with (⟨o, ho, rfl⟩ | ⟨o, _, rfl⟩) | ⟨q, _, rfl⟩
    · obtain ⟨⟨h, _⟩, hp, rfl⟩ := List.mem_map.1 ho
      obtain ⟨o', ho', e⟩ := hname _ Keyhive.ops_coherent hp
      obtain ⟨m, hm, hmo⟩ := hagree.1 ho'
      exact ⟨_, List.mem_map_of_mem hm, h, List.mem_map.2 ⟨_, AMap.mem_of_get hmo, by rw [e]⟩⟩
    · exact hev.elim
    · exact hev.elim

-- The team of Alice and Bob: two delegations for Bob, and the prekeys of three agents.
example : Reach (bytes Sample.E) team ∧ AMap.WF team.world ∧ Distinct (bytes Sample.E) team ∧ (AMap.values team.revs).length = 0 ∧
    AMap.get (team.jsAll (bytes Sample.E)).membership.index 2 = some [200] ∧
    (team.eventsFor (bytes Sample.E) ⟨.individual, 2⟩).map tag = [3, 3, 0, 0, 0] :=
  ⟨reach_team, by unfold AMap.WF; decide +kernel, Sample.distinct_of (by decide +kernel), by decide +kernel, by decide +kernel,
    by decide +kernel⟩

/-- The key of group 100 takes the team out of it. -/
def outTeam : SRev := { Sample.rTeam with revoke := hashL [Sample.hashDlg Sample.gTeam] }

/-- The team of Alice and Bob was in a group, and was taken out of it. -/
noncomputable def teamOut : Keyhive :=
  Sample.feed (bytes Sample.E) Sample.k0 [.dlg Sample.kAlice, .dlg toBob, .dlg Sample.gTeam, .rev outTeam]

/-- C98 fails: from Alice, through their sources, one gets to the revocation of the team, which is not selected for Alice when asked
for them alone. -/
theorem C98_fails : ∃ (E : Env) (k : Keyhive) (a : Agent) (ev : Event), E.Apart ∧ Reach E k ∧ Distinct E k ∧ ev.IsMembership ∧
    Leads (k.jsAll E).events (k.jsAll E).membership a.id ev ∧ ev ∉ k.eventsFor E a := by
  refine ⟨bytes Sample.E, teamOut, ⟨.individual, 1⟩, .rev outTeam, sample_apart, Sample.reach_feed' (.start Sample.reg [(⟨55⟩, 55)]),
    Sample.distinct_of (by decide +kernel), trivial, ?_, by decide +kernel⟩
  have h : (match AMap.get (teamOut.jsAll (bytes Sample.E)).membership.index 1 with
    | some sources => sources.any (fun s => match AMap.get (teamOut.jsAll (bytes Sample.E)).membership.ops s with
      | some hashes => hashes.any (fun n => decide (AMap.get (teamOut.jsAll (bytes Sample.E)).events n = some (.rev outTeam)))
      | none => false)
    | none => false) = true := by decide +kernel
  split at h
  · rename_i sources hs
    obtain ⟨s, hm, h⟩ := List.any_eq_true.1 h
    split at h
    · rename_i hashes hh
      obtain ⟨n, hn, h⟩ := List.any_eq_true.1 h
      exact ⟨sources, hs, s, hm, hashes, hh, n, hn, of_decide_eq_true h⟩
    · cases h
  · cases h

end Verif.Keyhive.TablesProps
