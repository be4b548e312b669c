import Verif.Keyhive.Save
import Verif.Keyhive.ArchiveProps

/-! # C141 — Saving a device while it is in use -/

namespace Verif.Keyhive.SaveProps

open Verif.Group Sample

variable {E : Env}

/-- C141 if what is saved does not change while it is being saved: the archive is that of the device at the end, so C38 holds for it: it can be loaded,
and the loaded device has the same operations, groups, documents, individuals, prekey pairs and pending events.
Missing: events that are received in the meantime (`C141_fails`, `C141_lost_fails`). -/
theorem C141_quiet_partial {k1 k2 k3 k4 k : Keyhive} (h : Reach E k) (hc : NoClash E.opDigest k.heads) (ha : Acyclic k.heads)
    (hr : ∀ d ∈ AMap.values k.dlgs, KnownAs k d.delegate) (h1 : k1.dlgs = k.dlgs ∧ k1.revs = k.revs)
    (h2 : k2.reg = k.reg ∧ k2.unlisted = k.unlisted ∧ k2.pairs = k.pairs) (h3 : k3.groups = k.groups) (h4 : k4.docs = k.docs) :
    saveAcross E k1 k2 k3 k4 k = k.intoArchive E ∧
    ∃ k', tryFromArchive E (saveAcross E k1 k2 k3 k4 k) = .ok k' ∧ (∀ x, AMap.get k'.dlgs x = AMap.get k.dlgs x) ∧
      (∀ x, AMap.get k'.revs x = AMap.get k.revs x) ∧ k'.groups = k.groups.map (fun p => (p.1, unmark p.2)) ∧
      k'.docs = k.docs.map (fun p => (p.1, { p.2 with group := unmark p.2.group })) ∧ k'.reg = k.reg ∧ k'.unlisted = false ∧
      k'.pairs = k.pairs ∧ k'.pending = k.pending := by
  have he : saveAcross E k1 k2 k3 k4 k = k.intoArchive E := by
    simp only [saveAcross, Keyhive.intoArchive, h1.1, h1.2, h2.1, h2.2.1, h2.2.2, h3, h4]
  exact ⟨he, by rw [he]; exact ArchiveProps.C38_round_trip_partial h hc ha hr⟩

example : Reach Sample.E ArchiveProps.full ∧ NoClash Sample.E.opDigest ArchiveProps.full.heads ∧ Acyclic ArchiveProps.full.heads ∧
    ∀ d ∈ AMap.values ArchiveProps.full.dlgs, KnownAs ArchiveProps.full d.delegate := ArchiveProps.full_meets

/-- C141: whatever happens while the device is being saved, the delegations and revocations in the archive are those the device had stored when the
saving began, and what they name.
Missing: what is pending (`C141_lost_fails`). -/
theorem C141_stored_partial {k1 k2 k3 k4 k5 : Keyhive}
    (hc : NoClash E.opDigest ((AMap.values k1.dlgs).map Op.dlg ++ (AMap.values k1.revs).map Op.rev))
    (ha : Acyclic ((AMap.values k1.dlgs).map Op.dlg ++ (AMap.values k1.revs).map Op.rev)) (x : SMem) :
    x ∈ (saveAcross E k1 k2 k3 k4 k5).ops ↔
      ∃ o, Below ((AMap.values k1.dlgs).map Op.dlg ++ (AMap.values k1.revs).map Op.rev) o ∧ x = E.smem o := by
  simp only [saveAcross, List.mem_map, List.mem_reverse]
  constructor
  · rintro ⟨o, ho, rfl⟩; exact ⟨o, (complete_of_acyclic hc ha).1 ho, rfl⟩
  · rintro ⟨o, ho, rfl⟩; exact ⟨o, (complete_of_acyclic hc ha).2 ho, rfl⟩

/-- A device with five delegations and a revocation meets the hypotheses. -/
example : NoClash Sample.E.opDigest ((AMap.values ArchiveProps.full.dlgs).map Op.dlg ++ (AMap.values ArchiveProps.full.revs).map Op.rev) ∧
    Acyclic ((AMap.values ArchiveProps.full.dlgs).map Op.dlg ++ (AMap.values ArchiveProps.full.revs).map Op.rev) :=
  have h := noClash_of (H := Sample.E.opDigest)
    (l := (AMap.values ArchiveProps.full.dlgs).map Op.dlg ++ (AMap.values ArchiveProps.full.revs).map Op.rev) (by decide +kernel)
  ⟨h, acyclic_of_direct (noClash_of (by decide +kernel)) (direct_of (by decide +kernel))⟩

/-- The device knows a team. -/
noncomputable def early : Keyhive := feed Sample.E k0 [.dlg kAlice]
/-- Then Bob is added to the team. -/
noncomputable def late : Keyhive := (early.receive Sample.E (.dlg kBob)).1

/-- C141 fails: while a device is being saved, after the stores have been read, it receives one delegation. The archive cannot be loaded. Before and after
the delegation, the archive of the device could be loaded. -/
theorem C141_fails : ∃ (E : Env) (k k' : Keyhive) (d : SDlg) (e : Err), Reach E k ∧ E.NoClash ∧ k.receive E (.dlg d) = (k', .ok ()) ∧
    tryFromArchive E (saveAcross E k k' k' k' k') = .error e ∧
    (∃ x, tryFromArchive E (k.intoArchive E) = .ok x) ∧ ∃ x, tryFromArchive E (k'.intoArchive E) = .ok x := by
  have key : ∀ {r : Except Err Keyhive}, r.isOk = true → ∃ x, r = .ok x := by
    intro r h
    cases r with
    | error e => cases h
    | ok x => exact ⟨x, rfl⟩
  exact ⟨Sample.E, early, late, kBob, .missingDelegation, reach_feed reach_k0, E_noClash, by decide +kernel, by decide +kernel,
    key (by decide +kernel), key (by decide +kernel)⟩

/-- A device that waits for a document. -/
noncomputable def waiting : Keyhive := (k0.ingest Sample.E id [.cgka 300 s0]).1
/-- The document arrives. -/
noncomputable def arrived : Keyhive := (waiting.ingest Sample.E id [.dlg docAlice]).1
/-- What is loaded. -/
noncomputable def loaded : Keyhive :=
  match tryFromArchive Sample.E (saveAcross Sample.E waiting waiting waiting waiting arrived) with
  | .ok k => k
  | .error _ => k0
/-- What is loaded if it is saved at once. -/
noncomputable def loaded' : Keyhive :=
  match tryFromArchive Sample.E (waiting.intoArchive Sample.E) with
  | .ok k => k
  | .error _ => k0

/-- C141 fails in another way: an event that was pending when the saving began, and could be applied before the saving ended, is not in the archive at
all: neither applied nor pending. If what it was waiting for arrives after loading, the document has no key tree. If the device is saved at once, it has
one. -/
theorem C141_lost_fails : ∃ (E : Env) (k k' x x' : Keyhive) (e : Event) (d : SDlg), Reach E k ∧ E.NoClash ∧ Function.Injective E.hashEvent ∧
    k.pending = [e] ∧ k.ingest E id [.dlg d] = (k', some (.ok [])) ∧
    tryFromArchive E (saveAcross E k k k k k') = .ok x ∧ x.pending = [] ∧ hasTree (x.ingest E id [.dlg d]).1 300 = false ∧
    tryFromArchive E (k.intoArchive E) = .ok x' ∧ hasTree (x'.ingest E id [.dlg d]).1 300 = true :=
  ⟨Sample.E, waiting, arrived, loaded, loaded', .cgka 300 s0, docAlice, .call (.ingest id [.cgka 300 s0]) reach_k0 trivial, E_noClash, E_events,
    by decide +kernel, by decide +kernel, by decide +kernel, by decide +kernel, by decide +kernel, by decide +kernel, by decide +kernel⟩

end Verif.Keyhive.SaveProps
