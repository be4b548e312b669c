import Verif.Keyhive.Coparents
import Verif.Keyhive.RegisterProps
import Verif.Keyhive.HeadsProps
import Verif.Keyhive.ArchiveProps
import Verif.Group.FoundLemmas

/-! # C108: making a group or document with others -/

namespace Verif.Keyhive.CoparentsProps

open Verif.Group Verif.Cgka Verif.BeeKem Sample RegisterProps

variable {E : Env}

/-! ## Lemmas -/

theorem agent_peer (k : Keyhive) (i : Id) : k.getAgent i = if i = k.reg.me then some ⟨.active, i⟩ else (k.getPeer i).map Peer.agent := by
  unfold Keyhive.getAgent Keyhive.getPeer
  split
  · rfl
  · unfold AMap.contains
    cases AMap.get k.docs i with
    | some d => rfl
    | none =>
      cases AMap.get k.groups i with
      | some g => rfl
      | none => cases k.individual i <;> rfl

theorem peer_id (p : Peer) : p.agent.id = p.id := by cases p <;> rfl

theorem know_peer (k : Keyhive) (p : Peer) :
    (k.knowPeer p).reg.me = k.reg.me ∧ (k.knowPeer p).dlgs = k.dlgs ∧ (k.knowPeer p).revs = k.revs ∧
    (k.getAgent p.id = none → ∀ j, (k.knowPeer p).getPeer j = if j = p.id then some p else k.getPeer j) ∧
    (k.getAgent p.id ≠ none → k.knowPeer p = k) := by
  unfold Keyhive.knowPeer
  cases h : k.getAgent p.id with
  | some a => exact ⟨rfl, rfl, rfl, by simp, by simp⟩
  | none =>
    obtain ⟨r1, r2, -, -, r5⟩ := C102_peer_rest k p
    have hne : p.id ≠ k.reg.me := by
      intro e
      rw [agent_peer, if_pos e] at h
      cases h
    have hn : k.getPeer p.id = none := by
      rw [agent_peer, if_neg hne] at h
      cases hp : k.getPeer p.id with
      | none => rfl
      | some q => rw [hp] at h; cases h
    exact ⟨r5, r1, r2, fun _ j => C102_peer_found (.inl hne) ((C102_peer k p).1.2 hn) j, by simp⟩

theorem know_kept (k : Keyhive) (p : Peer) {j : Id} {a : Agent} (h : k.getAgent j = some a) : (k.knowPeer p).getAgent j = some a := by
  obtain ⟨r1, -, -, r4, r5⟩ := know_peer k p
  by_cases hp : k.getAgent p.id = none
  · have hj : j ≠ p.id := by rintro rfl; rw [hp] at h; cases h
    rw [agent_peer, r1, r4 hp j, if_neg hj, ← agent_peer]
    exact h
  · rw [r5 hp]; exact h

theorem know_found (k : Keyhive) (p : Peer) : (k.knowPeer p).getAgent p.id ≠ none := by
  obtain ⟨r1, -, -, r4, r5⟩ := know_peer k p
  by_cases hp : k.getAgent p.id = none
  · rw [agent_peer, r4 hp, if_pos rfl]
    split <;> simp
  · rw [r5 hp]; exact hp

theorem knows_kept : ∀ (ps : List Peer) (k : Keyhive) {j : Id} {a : Agent}, k.getAgent j = some a →
    (ps.foldl Keyhive.knowPeer k).getAgent j = some a
  | [], _, _, _, h => h
  | p :: ps, k, _, _, h => knows_kept ps (k.knowPeer p) (know_kept k p h)

theorem knows_found : ∀ (ps : List Peer) (k : Keyhive), ∀ p ∈ ps, (ps.foldl Keyhive.knowPeer k).getAgent p.id ≠ none
  | p :: ps, k, q, hq => by
    rcases List.mem_cons.1 hq with rfl | hq
    · obtain ⟨a, ha⟩ := Option.ne_none_iff_exists'.1 (know_found k q)
      rw [List.foldl_cons, knows_kept ps _ ha]
      simp
    · exact knows_found ps (k.knowPeer p) q hq

theorem knows_same : ∀ (ps : List Peer) (k : Keyhive), (ps.foldl Keyhive.knowPeer k).reg.me = k.reg.me ∧
    (ps.foldl Keyhive.knowPeer k).dlgs = k.dlgs ∧ (ps.foldl Keyhive.knowPeer k).revs = k.revs
  | [], _ => ⟨rfl, rfl, rfl⟩
  | p :: ps, k => by
    obtain ⟨h1, h2, h3⟩ := knows_same ps (k.knowPeer p)
    obtain ⟨r1, r2, r3, -, -⟩ := know_peer k p
    exact ⟨h1.trans r1, h2.trans r2, h3.trans r3⟩

theorem knows_other : ∀ (ps : List Peer) (k : Keyhive) {j : Id}, (∀ p ∈ ps, p.id ≠ j) → (ps.foldl Keyhive.knowPeer k).getPeer j = k.getPeer j
  | [], _, _, _ => rfl
  | p :: ps, k, j, h => by
    rw [List.foldl_cons, knows_other ps _ (fun q hq => h q (by simp [hq]))]
    obtain ⟨-, -, -, r4, r5⟩ := know_peer k p
    by_cases hp : k.getAgent p.id = none
    · rw [r4 hp, if_neg (fun e => h p (by simp) e.symm)]
    · rw [r5 hp]

theorem knows_given : ∀ (ps : List Peer) (k : Keyhive), (ps.map Peer.id).Nodup → ∀ p ∈ ps, k.getAgent p.id = none →
    (ps.foldl Keyhive.knowPeer k).getPeer p.id = some p
  | p :: ps, k, hn, q, hq, hk => by
    rw [List.map_cons, List.nodup_cons] at hn
    obtain ⟨-, -, -, r4, r5⟩ := know_peer k p
    rcases List.mem_cons.1 hq with rfl | hq
    · rw [List.foldl_cons, knows_other ps _ (fun p hp e => hn.1 (List.mem_map.2 ⟨p, hp, e⟩)), r4 hk, if_pos rfl]
    · refine knows_given ps (k.knowPeer p) hn.2 q hq ?_
      have hne : q.id ≠ p.id := fun e => hn.1 (List.mem_map.2 ⟨q, hq, e⟩)
      by_cases hp : k.getAgent p.id = none
      · rw [agent_peer, (know_peer k p).1, r4 hp, if_neg hne, ← agent_peer]
        exact hk
      · rw [r5 hp]; exact hk

theorem doc_rest (k : Keyhive) (L : Local) (S : Op → Option Nat) (did : Id) (co : List Agent) (heads : List Nat) :
    let k' := (k.generateDoc E L S did co heads).1
    k'.reg.me = k.reg.me ∧ (∀ j, j ≠ did → k'.getPeer j = k.getPeer j) ∧ (k.getPeer did ≠ none → k'.getPeer did ≠ none) ∧
    ∀ d, Keeps k' (.dlg d) → Keeps k (.dlg d) ∨ d.delegate = ⟨.active, k.reg.me⟩ ∨ d.delegate ∈ co := by
  have key : ∀ g, Group.generate E.opDigest S did (⟨.active, k.reg.me⟩ :: co) [(did, heads)] = .ok g →
      g.id = did ∧ ∀ d, Keeps ((AMap.values g.dlgHeads).foldl (Keyhive.storeDlg E) k) (.dlg d) →
        Keeps k (.dlg d) ∨ d.delegate = ⟨.active, k.reg.me⟩ ∨ d.delegate ∈ co := by
    intro g hg
    obtain ⟨hs, rfl, h1, h2, h3⟩ := generate_ok hg
    refine ⟨rfl, fun d hd => ?_⟩
    have hd : Stored _ (.dlg d) := (keeps_iff _ _).1 hd
    rcases (storeDlgs_facts (E := E) (AMap.values hs) k).2.2.2.2 _ hd with h4 | ⟨d', hd, e⟩
    · exact .inl ((keeps_iff _ _).2 h4)
    · cases e
      obtain ⟨p, hp, rfl⟩ := List.mem_map.1 hd
      obtain ⟨-, a, ha, s, h4⟩ := h3 _ _ (AMap.get_of_mem h1 hp)
      rw [h4]
      rcases List.mem_cons.1 ha with rfl | ha
      · exact .inr (.inl rfl)
      · exact .inr (.inr ha)
  have same : ∀ ds : List Dlg, (ds.foldl (Keyhive.storeDlg E) k).unlisted = k.unlisted := by
    intro ds
    have : ∀ (ds : List Dlg) (k : Keyhive), (ds.foldl (Keyhive.storeDlg E) k).unlisted = k.unlisted := by
      intro ds
      induction ds with
      | nil => intro k; rfl
      | cons d ds ih => intro k; exact ih _
    exact this ds k
  have peer : ∀ ds : List Dlg, ∀ j, (ds.foldl (Keyhive.storeDlg E) k).getPeer j = k.getPeer j := by
    intro ds j
    obtain ⟨s1, s2, s3⟩ := storeDlgs_same (E := E) ds k
    unfold Keyhive.getPeer Keyhive.individual
    rw [s1, s2, s3, same]
  dsimp only
  unfold Keyhive.generateDoc
  split
  · exact ⟨rfl, fun _ _ => rfl, id, fun d h => .inl h⟩
  · rename_i g hg
    obtain ⟨hid, hk⟩ := key g hg
    have part : ∀ k1 : Keyhive, k1 = (AMap.values g.dlgHeads).foldl (Keyhive.storeDlg E) k → k1.reg.me = k.reg.me ∧
        (∀ j, j ≠ did → k1.getPeer j = k.getPeer j) ∧ (k.getPeer did ≠ none → k1.getPeer did ≠ none) ∧
        ∀ d, Keeps k1 (.dlg d) → Keeps k (.dlg d) ∨ d.delegate = ⟨.active, k.reg.me⟩ ∨ d.delegate ∈ co := by
      rintro k1 rfl
      exact ⟨by rw [(storeDlgs_same _ k).2.2], fun j _ => peer _ j, fun h => by rw [peer]; exact h, hk⟩
    dsimp only
    split
    · exact part _ rfl
    · split
      · exact part _ rfl
      · split
        · exact part _ rfl
        · obtain ⟨p1, p2, -, p4⟩ := part _ rfl
          refine ⟨p1, ?_, ?_, p4⟩
          · intro j hj
            rw [← p2 j hj]
            unfold Keyhive.getPeer Keyhive.individual Keyhive.insertDoc
            simp only [hid, AMap.get_insert, if_neg hj]
          · intro _
            unfold Keyhive.getPeer Keyhive.insertDoc
            simp only [hid, AMap.get_insert_self]
            simp

/-! ## The properties -/

theorem doc_known {k : Keyhive} {L : Local} {S : Op → Option Nat} {did : Id} {peers : List Peer} {heads : List Nat} {j : Id}
    (hf : (peers.foldl Keyhive.knowPeer k).getAgent j ≠ none) : (k.newDocWith E L S did peers heads).1.getAgent j ≠ none := by
  obtain ⟨d1, d2, d3, -⟩ := doc_rest (E := E) (peers.foldl Keyhive.knowPeer k) L S did (peers.map Peer.agent) heads
  unfold Keyhive.newDocWith
  rw [agent_peer] at hf ⊢
  rw [d1]
  split
  · simp
  · rename_i hme
    rw [if_neg hme] at hf
    by_cases hd : j = did
    · rw [hd] at hf ⊢
      have := d3 (fun e => hf (by rw [e]; rfl))
      simpa using this
    · rw [d2 _ hd]; exact hf

/-- C108: whatever comes of making a document, afterwards the device knows everybody it was to be made with. -/
theorem C108_doc_known (k : Keyhive) (L : Local) (S : Op → Option Nat) (did : Id) (peers : List Peer) (heads : List Nat) :
    ∀ p ∈ peers, (k.newDocWith E L S did peers heads).1.getAgent p.id ≠ none :=
  fun p hp => doc_known (knows_found peers k p hp)

/-- C108: those it knew before it knows as before, unless the document itself takes their place. -/
theorem C108_doc_kept {k : Keyhive} {L : Local} {S : Op → Option Nat} {did : Id} {peers : List Peer} {heads : List Nat} {j : Id}
    (hj : j ≠ did) {a : Agent} (h : k.getAgent j = some a) : (k.newDocWith E L S did peers heads).1.getAgent j = some a := by
  obtain ⟨d1, d2, -, -⟩ := doc_rest (E := E) (peers.foldl Keyhive.knowPeer k) L S did (peers.map Peer.agent) heads
  have hf := knows_kept peers k h
  unfold Keyhive.newDocWith
  rw [agent_peer] at hf ⊢
  rw [d1, d2 j hj]
  exact hf

/-- C108: those it did not know it knows afterwards just as they were given. -/
theorem C108_doc_given {k : Keyhive} {L : Local} {S : Op → Option Nat} {did : Id} {peers : List Peer} {heads : List Nat}
    (hn : (peers.map Peer.id).Nodup) {p : Peer} (hp : p ∈ peers) (hd : p.id ≠ did) (h : k.getAgent p.id = none) :
    (k.newDocWith E L S did peers heads).1.getPeer p.id = some p := by
  obtain ⟨-, d2, -, -⟩ := doc_rest (E := E) (peers.foldl Keyhive.knowPeer k) L S did (peers.map Peer.agent) heads
  unfold Keyhive.newDocWith
  rw [d2 _ hd]
  exact knows_given peers k hn p hp h

/-- C108: so if the device knows everybody that a delegation on record is for, this remains so. -/
theorem C108_doc_delegates {k : Keyhive} {L : Local} {S : Op → Option Nat} {did : Id} {peers : List Peer} {heads : List Nat}
    (h : ∀ d, Keeps k (.dlg d) → k.getAgent d.delegate.id ≠ none) :
    ∀ d, Keeps (k.newDocWith E L S did peers heads).1 (.dlg d) → (k.newDocWith E L S did peers heads).1.getAgent d.delegate.id ≠ none := by
  intro d hd
  obtain ⟨d1, d2, -, d4⟩ := doc_rest (E := E) (peers.foldl Keyhive.knowPeer k) L S did (peers.map Peer.agent) heads
  obtain ⟨s1, s2, s3⟩ := knows_same peers k
  rcases d4 d hd with h1 | h1 | h1
  · have hk : Keeps k (.dlg d) := by
      obtain ⟨x, hx⟩ := h1
      exact ⟨x, by rw [← s2]; exact hx⟩
    obtain ⟨a, ha⟩ := Option.ne_none_iff_exists'.1 (h d hk)
    exact doc_known (by rw [knows_kept peers k ha]; simp)
  · rw [h1]
    unfold Keyhive.newDocWith
    rw [agent_peer, d1, if_pos rfl]
    simp
  · obtain ⟨p, hp, e⟩ := List.mem_map.1 h1
    rw [← e, peer_id]
    exact C108_doc_known k L S did peers heads p hp

/-- The signer gives different signatures for the founding delegations of different agents. -/
def TellsApart (S : Op → Option Nat) (id : Id) (content : Content) : Prop :=
  ∀ (a b : Agent) (s : Nat), S (.dlg (.mk id 0 a .admin none [] content)) = some s → S (.dlg (.mk id 0 b .admin none [] content)) = some s → a.id = b.id

theorem founders {S : Op → Option Nat} {id : Id} {content : Content} {parents : List Agent} {g : Group} (hE : E.NoClash)
    (hS : TellsApart S id content) (hn : (parents.map Agent.id).Nodup) (h : Group.generate E.opDigest S id parents content = .ok g) (m : Id) :
    ((∃ d, g.MemberBy m d) ↔ ∃ a ∈ parents, a.id = m) ∧ ∀ d, g.MemberBy m d → d.can = .admin ∧ d.issuer = id := by
  have hu : ∀ a ∈ parents, ∀ b ∈ parents, a.id = b.id → a = b := fun a ha b hb e => List.inj_on_of_nodup_map hn ha hb e
  have key := fun d => generate_members (H := E.opDigest) (S := S) h
    (fun a ha b hb s s' _ _ e => hu a ha b hb (by
      have := hE.dlg ((dlgDigest_eq E _).symm.trans (e.trans (dlgDigest_eq E _)))
      exact congrArg SDlg.delegate this))
    (fun a ha b hb s e1 e2 => hu a ha b hb (hS a b s e1 e2)) (m := m) (d := d)
  refine ⟨⟨?_, ?_⟩, ?_⟩
  · rintro ⟨d, hd⟩
    obtain ⟨a, ha, s, -, e, -⟩ := (key d).1 hd
    exact ⟨a, ha, e.symm⟩
  · rintro ⟨a, ha, rfl⟩
    obtain ⟨s, hs⟩ := generate_signed h a ha
    exact ⟨_, (key _).2 ⟨a, ha, s, hs, rfl, rfl⟩⟩
  · intro d hd
    obtain ⟨a, ha, s, -, -, rfl⟩ := (key d).1 hd
    exact ⟨rfl, rfl⟩

theorem parents_ids (k : Keyhive) (peers : List Peer) :
    ((⟨.active, k.reg.me⟩ :: peers.map Peer.agent : List Agent).map Agent.id) = k.reg.me :: peers.map Peer.id := by
  simp only [List.map_cons, List.map_map, List.cons.injEq, true_and]
  exact List.map_congr_left (fun p _ => peer_id p)

theorem parents_mem (k : Keyhive) (peers : List Peer) (m : Id) :
    (∃ a ∈ (⟨.active, k.reg.me⟩ :: peers.map Peer.agent : List Agent), a.id = m) ↔ m ∈ k.reg.me :: peers.map Peer.id := by
  rw [← parents_ids]
  exact List.mem_map.symm

/-- C108: the members of the new document are the device and those it was made with, all of them admins by the document's own word. -/
theorem C108_doc_founders {k k' : Keyhive} {L : Local} {S : Op → Option Nat} {did i : Id} {peers : List Peer} {heads : List Nat}
    (hE : E.NoClash) (hS : TellsApart S did [(did, heads)]) (hn : (k.reg.me :: peers.map Peer.id).Nodup)
    (h : k.newDocWith E L S did peers heads = (k', .ok i)) :
    ∃ doc, AMap.get k'.docs did = some doc ∧ ∀ m, ((∃ d, doc.group.MemberBy m d) ↔ m ∈ k.reg.me :: peers.map Peer.id) ∧
      ∀ d, doc.group.MemberBy m d → d.can = .admin ∧ d.issuer = did := by
  unfold Keyhive.newDocWith Keyhive.generateDoc at h
  rw [(knows_same peers k).1] at h
  split at h
  · cases h
  · rename_i g hg
    simp only at h
    split at h
    · cases h
    · split at h
      · cases h
      · split at h
        · cases h
        · cases h
          have hid : g.id = did := by
            obtain ⟨hs, rfl, -⟩ := generate_ok hg
            rfl
          refine ⟨_, by rw [← hid]; exact AMap.get_insert_self _ _ _, fun m => ?_⟩
          have := founders hE hS (by rw [parents_ids]; exact hn) hg m
          rw [parents_mem] at this
          exact this

/-- C108: the same for a new group. -/
theorem C108_group_founders {k k' : Keyhive} {S : Op → Option Nat} {gid i : Id} {peers : List Peer}
    (hE : E.NoClash) (hS : TellsApart S gid []) (hn : (k.reg.me :: peers.map Peer.id).Nodup)
    (h : k.newGroupWith E S gid peers = (k', .ok i)) :
    ∃ g, AMap.get k'.groups gid = some g ∧ ∀ m, ((∃ d, g.MemberBy m d) ↔ m ∈ k.reg.me :: peers.map Peer.id) ∧
      ∀ d, g.MemberBy m d → d.can = .admin ∧ d.issuer = gid := by
  unfold Keyhive.newGroupWith Keyhive.generateGroup at h
  split at h
  · cases h
  · rename_i g hg
    cases h
    have hid : g.id = gid := by
      obtain ⟨hs, rfl, -⟩ := generate_ok hg
      rfl
    refine ⟨_, by rw [← hid]; exact AMap.get_insert_self _ _ _, fun m => ?_⟩
    have := founders hE hS (by rw [parents_ids]; exact hn) hg m
    rw [parents_mem] at this
    exact this

/-! ## A case -/

/-- Agent 9 joins the key tree of document 300, … -/
def v1 : SOp := ⟨.add 9 ⟨99⟩ 1 [0] [0], 5, 5009⟩
/-- … then agent 5, … -/
def v2 : SOp := ⟨.add 5 ⟨55⟩ 2 [1] [1], 5, 5005⟩
def box1 : EncryptedSecret := { key := { lo := 99, hi := 700 }, plain := 701, pairedPk := ⟨99⟩ }
def box2 : EncryptedSecret := { key := { lo := 55, hi := 701 }, plain := 702, pairedPk := ⟨55⟩ }
/-- … and the document updates. -/
def v3 : SOp :=
  ⟨.update 300 { leafId := 300, leafIdx := 0, leafPk := .share ⟨700⟩,
                 path := [(0, { versions := [{ pk := ⟨701⟩, sk := [(.leaf 1, box1), (.leaf 0, box1)], encrypterPk := ⟨700⟩ }] }),
                          (1, { versions := [{ pk := ⟨702⟩, sk := [(.leaf 2, box2), (.inner 0, box2)], encrypterPk := ⟨701⟩ }] })],
                 removedKeys := [⟨700⟩] } [2], 5, 5900⟩
noncomputable def hcV : SOp → Nat := tableH [t0, v1, v2, v3]
noncomputable def EV : Env := env hcV

theorem EV_noClash : EV.NoClash := env_noClash hcV

theorem sg_tells (id : Id) (content : Content) : TellsApart sg id content := by
  intro a b s ha hb
  unfold sg at ha hb
  split at ha
  · split at hb
    · have he := (Option.some.inj ha).trans (Option.some.inj hb).symm
      have he' : id * 1000 + a.id + (if id = 200 then 400 else 0) = id * 1000 + b.id + (if id = 200 then 400 else 0) := he
      exact Nat.add_left_cancel (Nat.add_right_cancel he')
    · cases hb
  · cases ha

/-- Somebody the device does not know: agent 9. -/
def nine : Peer := .individual 9 (card 9).2

-- The device makes document 300 with agent 9, whom it does not know.
example : k0.getAgent 9 = none ∧ (k0.newDocWith EV L sg 300 [nine] [1]).2 = .ok 300 ∧ (k0.reg.me :: [nine].map Peer.id).Nodup ∧
    (k0.newDocWith EV L sg 300 [nine] [1]).1.getPeer 9 = some nine ∧ k0.getAgent 1 = some ⟨.individual, 1⟩ ∧ nine.id ≠ 300 ∧
    (∀ d, ¬ Keeps k0 (.dlg d)) ∧ (k0.newGroupWith EV sg 200 [nine]).2 = .ok 200 :=
  ⟨by decide +kernel, by decide +kernel, by decide +kernel, by decide +kernel, by decide +kernel, by decide +kernel,
    (fun d ⟨h, hd⟩ => by cases hd), by decide +kernel⟩

/-- C108 fails for groups: after making a group with somebody it does not know, the device still does not know them, although a
delegation on record is for them. What it saves then cannot be loaded. The same call for a document leaves a device whose archive
can be loaded. -/
theorem C108_fails : ∃ (E : Env) (k : Keyhive) (L : Local) (S : Op → Option Nat) (p : Peer) (k' : Keyhive) (d : Dlg), Reach E k ∧ E.NoClash ∧
    L.Honest E ∧ Signs E S ∧ k.newGroupWith E S 200 [p] = (k', .ok 200) ∧ k'.getAgent p.id = none ∧
    Keeps k' (.dlg d) ∧ d.delegate.id = p.id ∧ tryFromArchive E (k'.intoArchive E) = .error .unknownAgent ∧
    (∃ k1, (k.newDocWith E L S 300 [p] [1]) = (k1, .ok 300) ∧ ∃ k2, tryFromArchive E (k1.intoArchive E) = .ok k2) := by
  refine ⟨EV, k0, L, sg, nine, (k0.newGroupWith EV sg 200 [nine]).1, .root 200 200409 ⟨.individual, 9⟩ .admin .nil [], .start reg [(⟨55⟩, 55)], EV_noClash,
    ⟨sg_signs hcV, fun _ _ _ h => by cases h; rfl⟩,
    sg_signs hcV, ?_, by decide +kernel, ⟨EV.dlgDigest (.root 200 200409 ⟨.individual, 9⟩ .admin .nil []), by decide +kernel⟩, rfl, ?_,
    (k0.newDocWith EV L sg 300 [nine] [1]).1, ?_, ?_⟩
  · have : (k0.newGroupWith EV sg 200 [nine]).2 = .ok 200 := by decide +kernel
    rw [← this]
  · have h : (match tryFromArchive EV ((k0.newGroupWith EV sg 200 [nine]).1.intoArchive EV) with
      | .ok _ => false | .error e => decide (e = .unknownAgent)) = true := by decide +kernel
    split at h
    · cases h
    · rename_i e he
      rw [of_decide_eq_true h] at he
      exact he
  · have : (k0.newDocWith EV L sg 300 [nine] [1]).2 = .ok 300 := by decide +kernel
    rw [← this]
  · have h : (match tryFromArchive EV ((k0.newDocWith EV L sg 300 [nine] [1]).1.intoArchive EV) with
      | .ok _ => true | .error _ => false) = true := by decide +kernel
    split at h
    · rename_i k2 he
      exact ⟨k2, he⟩
    · cases h

end Verif.Keyhive.CoparentsProps
