import Verif.Keyhive.SettleLemmas
import Verif.Keyhive.Sample

/-! # Devices agree: the properties -/

namespace Verif.Keyhive.AgreeProps

open Verif.Group Verif.BeeKem Verif.Keyhive.Sample

variable {E : Env}

/-! ## The devices of the examples -/

/-- Device of agent 9. It knows fewer individuals. -/
def reg9 : Prekey.Registry := ⟨9, 0, [card 0, card 9, card 1, card 2, card 3], []⟩

/-- The device of agent 9 before it has received anything. -/
def k9 : Keyhive := Keyhive.start reg9 [(⟨99⟩, 99)]

theorem reach_k9 : Reach Sample.E k9 := .start reg9 [(⟨99⟩, 99)]

/-- Alice and Bob in a team, the team and Carol in a group, and then Bob out of the team. -/
def batch : List Event := [.dlg kAlice, .dlg kBob, .dlg gTeam, .dlg gCarol, .rev rBob]
/-- The same events in another order. -/
def batch' : List Event := [.dlg kAlice, .dlg gTeam, .dlg kBob, .dlg gCarol, .rev rBob]

theorem E_apart : ∀ s r, Sample.E.hashDlg s ≠ Sample.E.hashRev r := fun s r h => by
  change hashDlg s = hashRev r at h
  unfold hashDlg hashRev at h
  omega

theorem settled_start (reg : Prekey.Registry) (pairs : ShareKeyMap) : Settled (Keyhive.start reg pairs) :=
  ⟨fun o h => by cases o <;> (obtain ⟨_, h⟩ := h; cases h), fun _ _ _ h => (by cases h), fun _ _ h => (by cases h)⟩

theorem ids_k0 : OwnIds k0 := by
  intro i x h
  have := AMap.mem_of_get h
  simp [k0, Keyhive.start, reg, card, Prekey.Indie.new] at this
  rcases this with h | h | h | h | h | h <;> rw [h.1, h.2]

theorem ids_k9 : OwnIds k9 := by
  intro i x h
  have := AMap.mem_of_get h
  simp [k9, Keyhive.start, reg9, card, Prekey.Indie.new] at this
  rcases this with h | h | h | h | h <;> rw [h.1, h.2]

/-- Nothing in the batch is ambiguous. -/
theorem clear_batch {k : Keyhive} (h : ∀ m, k.HasOp Sample.E m → m.event ∈ batch) : Clear (k.HasOp Sample.E) := by
  have hd : ∀ s, k.HasOp Sample.E (.dlg s) → s ∈ [kAlice, kBob, gTeam, gCarol] := by
    intro s hs
    have := h _ hs
    simpa [batch, SMem.event] using this
  have hr : ∀ s, k.HasOp Sample.E (.rev s) → s = rBob := by
    intro s hs
    have := h _ hs
    simpa [batch, SMem.event] using this
  have key : ∀ a ∈ [kAlice, kBob, gTeam, gCarol], ∀ b ∈ [kAlice, kBob, gTeam, gCarol],
      (a.sig = b.sig → a = b) ∧ (a.delegate = b.delegate → a = b) ∧ a.sig ≠ rBob.sig := by decide +kernel
  refine ⟨?_, fun a b ha hb e _ _ _ _ => (key a (hd a ha) b (hd b hb)).2.1 e, fun a b ha hb _ => by rw [hr a ha, hr b hb]⟩
  intro a b ha hb e
  cases a with
  | dlg a =>
    cases b with
    | dlg b => exact congrArg _ ((key a (hd a ha) b (hd b hb)).1 e)
    | rev b => rw [hr b hb] at e; exact absurd e (key a (hd a ha) a (hd a ha)).2.2
  | rev a =>
    cases b with
    | dlg b => rw [hr a ha] at e; exact absurd e.symm (key b (hd b hb) b (hd b hb)).2.2
    | rev b => rw [hr a ha, hr b hb]

/-! ## C37: ingestion does not depend on order -/

/-- C37, the part that holds: if a batch is ingested in two orders and nothing is left over either time, then both times the device
ends with the same operations, and every group and document has the same members, through the same delegations and with the same
access. The device must hold each stored operation in the group it is about (`Settled`, which then stays so), and no group of the
batch may have the id of a known individual. Missing: orders that leave something over (`C37_fails`), ambiguous operations
(`Clear`), and whether the device takes a new id for a group or for a document (`C37_kind_fails`). -/
theorem C37_complete_partial (hE : E.NoClash) (hx : ∀ s r, E.hashDlg s ≠ E.hashRev r) (hH : Function.Injective E.hashEvent)
    {ord ord' : List Event → List Event} (hord : ∀ l, (ord l).Perm l) (hord' : ∀ l, (ord' l).Perm l)
    {k k1 k2 : Keyhive} (hk : Reach E k) (hset : Settled k) (hid : OwnIds k) {events events' : List Event} (hp : events.Perm events')
    (hsep : Separate k (events ++ k.pending)) (h1 : k.ingest E ord events = (k1, some (.ok [])))
    (h2 : k.ingest E ord' events' = (k2, some (.ok []))) (hc : Clear (k1.HasOp E)) :
    (∀ m, k1.HasOp E m ↔ k2.HasOp E m) ∧ Settled k1 ∧ Settled k2 ∧
    ∀ i, k1.membership E i = k2.membership E i ∧ k1.accessIn i = k2.accessIn i := by
  have hs := reach_storeOk hk
  have hsame : ∀ m, k1.HasOp E m ↔ k2.HasOp E m := fun m => by
    rw [ingest_has hE hH hord hs h1, ingest_has hE hH hord' hs h2, List.mem_append, List.mem_append, hp.mem_iff]
  have hc2 : Clear (k2.HasOp E) := by
    have : k1.HasOp E = k2.HasOp E := funext fun m => propext (hsame m)
    rw [← this]; exact hc
  have hsep2 : Separate k (events' ++ k.pending) := by
    have hm : ∀ e, e ∈ events' ++ k.pending ↔ e ∈ events ++ k.pending := fun e => by
      rw [List.mem_append, List.mem_append, hp.mem_iff]
    intro s hs' hn
    obtain ⟨p, q⟩ := hsep s ((hm _).1 hs') hn
    exact ⟨p, fun op ho => q op ((hm _).1 ho)⟩
  have s1 := settled_ingest hE hx hH hord hk h1 hset hid hsep hc
  have s2 := settled_ingest hE hx hH hord' hk h2 hset hid hsep2 hc2
  have r1 : Reach E k1 := by have := Reach.call (.ingest ord events) hk trivial; rw [Call.run, h1] at this; exact this
  have r2 : Reach E k2 := by have := Reach.call (.ingest ord' events') hk trivial; rw [Call.run, h2] at this; exact this
  exact ⟨hsame, s1, s2, agree_clear hE hx r1 r2 hsame hc s1 s2⟩

theorem sep_k0 : Separate k0 (batch ++ k0.pending) := by
  rw [show batch ++ k0.pending = batch from List.append_nil _]
  intro s h hn
  simp [batch] at h
  have : ∀ s ∈ [kAlice, kBob, gTeam, gCarol], s.proof = none → k0.individual s.issuer = none := by decide +kernel
  exact ⟨this s (by simpa using h) hn, by simp [batch]⟩

theorem sep_k9 : Separate k9 batch := by
  intro s h hn
  simp [batch] at h
  have : ∀ s ∈ [kAlice, kBob, gTeam, gCarol], s.proof = none → k9.individual s.issuer = none := by decide +kernel
  exact ⟨this s (by simpa using h) hn, by simp [batch]⟩

theorem left_k0 : k0.ingest Sample.E List.reverse batch = ((k0.ingest Sample.E List.reverse batch).1, some (.ok [])) :=
  Prod.ext rfl (by decide +kernel)

theorem left_k0' : k0.ingest Sample.E List.reverse batch' = ((k0.ingest Sample.E List.reverse batch').1, some (.ok [])) :=
  Prod.ext rfl (by decide +kernel)

theorem clear_k0 : Clear ((k0.ingest Sample.E List.reverse batch).1.HasOp Sample.E) :=
  clear_batch fun m hm => by
    rcases (ingest_has E_noClash E_events (fun l => l.reverse_perm) (reach_storeOk reach_k0) left_k0 m).1 hm with h | h
    · cases m <;> exact absurd rfl h
    · exact (List.mem_append.1 h).elim id (fun h => by cases h)

/-- The hypotheses are met by two orders of a batch in which two groups are nested and one member is revoked; the members are those
one expects. -/
example : (∀ m, (k0.ingest Sample.E List.reverse batch).1.HasOp Sample.E m ↔ (k0.ingest Sample.E List.reverse batch').1.HasOp Sample.E m) ∧
    Settled (k0.ingest Sample.E List.reverse batch).1 ∧ Settled (k0.ingest Sample.E List.reverse batch').1 ∧
    ∀ i, (k0.ingest Sample.E List.reverse batch).1.membership Sample.E i = (k0.ingest Sample.E List.reverse batch').1.membership Sample.E i ∧
      (k0.ingest Sample.E List.reverse batch).1.accessIn i = (k0.ingest Sample.E List.reverse batch').1.accessIn i :=
  C37_complete_partial E_noClash E_apart E_events (fun l => l.reverse_perm) (fun l => l.reverse_perm) reach_k0 (settled_start _ _) ids_k0
    (by decide) sep_k0 left_k0 left_k0' clear_k0

example : ((k0.ingest Sample.E List.reverse batch).1.accessIn 100).map (fun f => [1, 2, 3, 200].map f) = some [none, none, some .edit, some .admin] ∧
    ((k0.ingest Sample.E List.reverse batch').1.accessIn 100).map (fun f => [1, 2, 3, 200].map f) = some [none, none, some .edit, some .admin] ∧
    ((k0.ingest Sample.E List.reverse batch).1.accessIn 200).map (fun f => [1, 2, 3, 200].map f) = some [some .admin, none, none, none] := by
  decide +kernel

/-- The document key also gives Bob access, in an operation that does not mention the document's content. -/
def docBob : SDlg := ⟨300, 300002, 2, .edit, none, [], []⟩

/-- C37 fails in another way: whether a device takes a new id for a document or for a group depends on which of two delegations
from its key is ingested first; both are applied and nothing is left over. -/
theorem C37_kind_fails : ∃ (E : Env) (k k1 k2 : Keyhive) (es es' : List Event) (i : Id), Reach E k ∧ E.NoClash ∧ Function.Injective E.hashEvent ∧
    es.Perm es' ∧ k.ingest E List.reverse es = (k1, some (.ok [])) ∧ k.ingest E List.reverse es' = (k2, some (.ok [])) ∧
    AMap.get k1.groups i ≠ none ∧ AMap.get k1.docs i = none ∧ AMap.get k2.groups i = none ∧ AMap.get k2.docs i ≠ none :=
  ⟨Sample.E, k0, _, _, [.dlg docBob, .dlg docAlice], [.dlg docAlice, .dlg docBob], 300, reach_k0, E_noClash, E_events, by decide,
    Prod.ext rfl (by decide +kernel), Prod.ext rfl (by decide +kernel), by decide +kernel, by decide +kernel, by decide +kernel, by decide +kernel⟩

/-! ## C79: devices that hold the same operations agree about members -/

/-- C79, the part that holds: two devices, of the same or of different users, that hold the same membership operations show the same
members of every group and document, through the same delegations and with the same access. Missing: devices on which an operation
is stored but not in the group it is about (`C79_fails`), and ambiguous operations (`Clear`). -/
theorem C79_same_members_partial (hE : E.NoClash) (hx : ∀ s r, E.hashDlg s ≠ E.hashRev r) {k1 k2 : Keyhive} (r1 : Reach E k1) (r2 : Reach E k2)
    (h1 : Settled k1) (h2 : Settled k2) (hc : Clear (k1.HasOp E)) (hsame : ∀ m, k1.HasOp E m ↔ k2.HasOp E m) (i : Id) :
    k1.membership E i = k2.membership E i ∧ k1.accessIn i = k2.accessIn i :=
  agree_clear hE hx r1 r2 hsame hc h1 h2 i

/-- C79: a device on which every stored operation is in the group it is about stays so while it ingests batches, in any order and
even if something is left over, as long as no group has the id of a known individual. -/
theorem C79_settled_partial (hE : E.NoClash) (hx : ∀ s r, E.hashDlg s ≠ E.hashRev r) (hH : Function.Injective E.hashEvent)
    {ord : List Event → List Event} (hord : ∀ l, (ord l).Perm l) {k k' : Keyhive} (hk : Reach E k) (hset : Settled k) (hid : OwnIds k)
    {events left : List Event} (hsep : Separate k (events ++ k.pending)) (h : k.ingest E ord events = (k', some (.ok left)))
    (hc : Clear (k'.HasOp E)) : Settled k' :=
  settled_ingest hE hx hH hord hk h hset hid hsep hc

theorem left_k9 : k9.ingest Sample.E List.reverse batch' = ((k9.ingest Sample.E List.reverse batch').1, some (.ok [])) :=
  Prod.ext rfl (by decide +kernel)

/-- The hypotheses are met by the devices of agents 5 and 9, which know different individuals and got the operations in different
orders. -/
example (i : Id) : (k0.ingest Sample.E List.reverse batch).1.membership Sample.E i = (k9.ingest Sample.E List.reverse batch').1.membership Sample.E i ∧
    (k0.ingest Sample.E List.reverse batch).1.accessIn i = (k9.ingest Sample.E List.reverse batch').1.accessIn i := by
  have hsame : ∀ m, (k0.ingest Sample.E List.reverse batch).1.HasOp Sample.E m ↔ (k9.ingest Sample.E List.reverse batch').1.HasOp Sample.E m := by
    intro m
    rw [ingest_has E_noClash E_events (fun l => l.reverse_perm) (reach_storeOk reach_k0) left_k0,
      ingest_has E_noClash E_events (fun l => l.reverse_perm) (reach_storeOk reach_k9) left_k9]
    have h0 : ¬ k0.HasOp Sample.E m := by cases m <;> exact fun h => h rfl
    have h9 : ¬ k9.HasOp Sample.E m := by cases m <;> exact fun h => h rfl
    have hp : batch.Perm batch' := by decide
    simp only [h0, h9, false_or]
    rw [List.mem_append, List.mem_append, hp.mem_iff]
    rfl
  have hc9 : Clear ((k9.ingest Sample.E List.reverse batch').1.HasOp Sample.E) := by
    have := funext fun m => propext (hsame m)
    rw [← this]; exact clear_k0
  have hsep : Separate k9 (batch' ++ k9.pending) := by
    have hm : ∀ e, e ∈ batch' ++ k9.pending ↔ e ∈ batch := fun e => by
      have hp : batch'.Perm batch := by decide
      show e ∈ batch' ++ [] ↔ _
      rw [List.append_nil, hp.mem_iff]
    intro s hs hn
    obtain ⟨p, q⟩ := sep_k9 s ((hm _).1 hs) hn
    exact ⟨p, fun op ho => q op ((hm _).1 ho)⟩
  exact C79_same_members_partial E_noClash E_apart (.call (.ingest List.reverse batch) reach_k0 trivial) (.call (.ingest List.reverse batch') reach_k9 trivial)
    (C79_settled_partial E_noClash E_apart E_events (fun l => l.reverse_perm) reach_k0 (settled_start _ _) ids_k0 sep_k0 left_k0 clear_k0)
    (C79_settled_partial E_noClash E_apart E_events (fun l => l.reverse_perm) reach_k9 (settled_start _ _) ids_k9 hsep left_k9 hc9)
    clear_k0 hsame i

/-- C79 fails: two devices receive the same delegation, signed by 7 and giving Alice access to 7. The one that does not know 7 takes it
for a new group with Alice as a member. The other knows 7 as an individual: it stores the delegation and has no such group. -/
theorem C79_fails : ∃ (E : Env) (k1 k2 : Keyhive) (d : SDlg), Reach E k1 ∧ Reach E k2 ∧ E.NoClash ∧ (∀ s r, E.hashDlg s ≠ E.hashRev r) ∧
    (∀ m, k1.HasOp E m ↔ k2.HasOp E m) ∧ (∀ m, k1.HasOp E m ↔ m = .dlg d) ∧
    k1.membership E d.issuer = none ∧ (k2.membership E d.issuer).map (fun f => f d.delegate) = some (some [d]) := by
  have has : ∀ k : Keyhive, k.dlgs = [] → k.revs = [] → (k.receive Sample.E (.dlg x7)).2 = .ok () → Reach Sample.E k →
      ∀ m, (k.receive Sample.E (.dlg x7)).1.HasOp Sample.E m ↔ m = .dlg x7 := by
    intro k hd hr ho hk m
    constructor
    · intro hm
      rcases receive_has_back E_noClash (reach_storeOk hk) (.dlg x7) hm with h | h
      · cases m with
        | dlg s => rw [Keyhive.HasOp, hd] at h; exact absurd rfl h
        | rev s => rw [Keyhive.HasOp, hr] at h; exact absurd rfl h
      · cases m with
        | dlg s => cases h; rfl
        | rev s => cases h
    · rintro rfl
      exact (grown_receiveDelegation (reach_storeOk hk) x7).2 ho
  have h0 := has k0 rfl rfl (by decide +kernel) reach_k0
  have h9 := has k9 rfl rfl (by decide +kernel) reach_k9
  exact ⟨Sample.E, _, _, x7, .call (.receive (.dlg x7)) reach_k0 trivial, .call (.receive (.dlg x7)) reach_k9 trivial, E_noClash, E_apart,
    fun m => (h0 m).trans (h9 m).symm, h0, by decide +kernel, by decide +kernel⟩

end Verif.Keyhive.AgreeProps
