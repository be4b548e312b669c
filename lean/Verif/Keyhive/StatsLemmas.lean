import Verif.Keyhive.StatsSpec
import Verif.Keyhive.HeadsLemmas
import Verif.Keyhive.TakeInLemmas
import Verif.Keyhive.StockLemmas
import Verif.Keyhive.BridgeLemmas
import Mathlib.Data.List.Perm.Subperm
import Mathlib.Data.List.Nodup

/-! # Counting what a device has -/

namespace Verif.Keyhive

open Verif.Group Verif.Cgka Verif.BeeKem

variable {E : Env}

/-! ## Numbers -/

theorem Numbers.le {α : Type} {n n' : Nat} {P P' : α → Prop} (h : Numbers n P) (h' : Numbers n' P') (hp : ∀ x, P x → P' x) : n ≤ n' := by
  obtain ⟨l, hn, hm, rfl⟩ := h
  obtain ⟨l', -, hm', rfl⟩ := h'
  exact (hn.subperm (fun x hx => (hm' x).2 (hp x ((hm x).1 hx)))).length_le

theorem Numbers.congr {α : Type} {n : Nat} {P P' : α → Prop} (h : Numbers n P) (hp : ∀ x, P x ↔ P' x) : Numbers n P' := by
  obtain ⟨l, hn, hm, hl⟩ := h
  exact ⟨l, hn, fun x => (hm x).trans (hp x), hl⟩

theorem numbers_keys {α β : Type} [DecidableEq α] {m : AMap α β} (h : AMap.WF m) : Numbers m.length (fun a => AMap.get m a ≠ none) :=
  ⟨AMap.keys m, h, fun a => AMap.mem_keys_iff m a, by simp [AMap.keys]⟩

theorem values_nodup {α β : Type} [DecidableEq α] {m : AMap α β} (h : AMap.WF m) (f : β → α) (hf : ∀ a b, AMap.get m a = some b → f b = a) :
    (AMap.values m).Nodup := by
  apply List.Nodup.of_map f
  have : (AMap.values m).map f = AMap.keys m := by
    unfold AMap.values AMap.keys
    rw [List.map_map]
    refine List.map_congr_left (fun p hp => ?_)
    exact hf p.1 p.2 (AMap.get_of_mem h hp)
  rw [this]; exact h

theorem values_iff {α β : Type} [DecidableEq α] {m : AMap α β} (h : AMap.WF m) (b : β) : b ∈ AMap.values m ↔ ∃ a, AMap.get m a = some b := by
  unfold AMap.values
  constructor
  · intro hb
    obtain ⟨p, hp, rfl⟩ := List.mem_map.1 hb
    exact ⟨p.1, AMap.get_of_mem h hp⟩
  · rintro ⟨a, ha⟩
    exact List.mem_map.2 ⟨_, AMap.mem_of_get ha, rfl⟩

theorem numbers_pairs {α β γ : Type} [DecidableEq α] : ∀ {m : AMap α β}, AMap.WF m → ∀ {f : β → List γ},
    (∀ a b, AMap.get m a = some b → (f b).Nodup) →
    Numbers (m.map (fun p => (f p.2).length)).sum (fun x : α × γ => ∃ b, AMap.get m x.1 = some b ∧ x.2 ∈ f b) := by
  intro m hw f hf
  refine ⟨m.flatMap (fun p => (f p.2).map (Prod.mk p.1)), ?_, ?_, ?_⟩
  · rw [List.nodup_flatMap]
    refine ⟨fun p hp => ?_, ?_⟩
    · exact (hf p.1 p.2 (AMap.get_of_mem hw hp)).map (fun a b h => by injection h)
    · have : m.Pairwise (fun p q => p.1 ≠ q.1) := by
        unfold AMap.WF AMap.keys at hw
        rw [List.Nodup, List.pairwise_map] at hw
        exact hw
      refine this.imp (fun {p q} hpq => ?_)
      intro x hx hx'
      obtain ⟨_, _, rfl⟩ := List.mem_map.1 hx
      obtain ⟨_, _, h⟩ := List.mem_map.1 hx'
      exact hpq (by injection h with h1 _; exact h1.symm)
  · intro x
    rw [List.mem_flatMap]
    constructor
    · rintro ⟨p, hp, hx⟩
      obtain ⟨c, hc, rfl⟩ := List.mem_map.1 hx
      exact ⟨p.2, AMap.get_of_mem hw hp, hc⟩
    · rintro ⟨b, hb, hx⟩
      exact ⟨_, AMap.mem_of_get hb, List.mem_map.2 ⟨x.2, hx, rfl⟩⟩
  · rw [List.length_flatMap]
    simp

/-! ## The loops -/

/-- Announces a prekey. -/
def isAdd (op : Prekey.KeyOp) : Bool := match op.body with | .add _ => true | .rotate _ _ => false

theorem isAdd_iff (op : Prekey.KeyOp) : isAdd op = true ↔ Announces op := by
  unfold isAdd Announces
  cases op.body <;> simp

theorem isAdd_not (op : Prekey.KeyOp) : isAdd op = false ↔ Replaces op := by
  unfold isAdd Replaces
  cases op.body <;> simp

theorem keyOps_fold : ∀ (l : List Prekey.KeyOp) (s : Stats), l.foldl Stats.keyOp s =
    { s with prekeysExpanded := s.prekeysExpanded + (l.filter isAdd).length,
             prekeyRotations := s.prekeyRotations + (l.filter (fun o => !isAdd o)).length }
  | [], s => rfl
  | o :: l, s => by
    rw [List.foldl_cons, keyOps_fold l, List.filter_cons, List.filter_cons]
    unfold Stats.keyOp isAdd
    cases o.body <;> simp [Nat.add_assoc, Nat.add_comm 1]

theorem indies_fold : ∀ (l : List Prekey.Indie) (s : Stats), l.foldl (fun s x => (AMap.values x.state).foldl Stats.keyOp s) s =
    { s with prekeysExpanded := s.prekeysExpanded + (l.map (fun x => ((AMap.values x.state).filter isAdd).length)).sum,
             prekeyRotations := s.prekeyRotations + (l.map (fun x => ((AMap.values x.state).filter (fun o => !isAdd o)).length)).sum }
  | [], s => rfl
  | o :: l, s => by
    rw [List.foldl_cons, indies_fold l, keyOps_fold]
    simp [Nat.add_assoc]

/-- The recorded operations of the document's key tree. -/
def Doc.keyOps (d : Doc) : List SOp := match d.cgka with | none => [] | some c => AMap.values c.graph.ops

theorem docs_fold : ∀ (l : List Doc) (s : Stats), l.foldl Stats.doc s =
    { s with cgkaOperations := s.cgkaOperations + (l.map (fun d => d.keyOps.length)).sum }
  | [], s => rfl
  | d :: l, s => by
    rw [List.foldl_cons, docs_fold l]
    rw [List.map_cons, List.sum_cons]
    unfold Stats.doc
    cases hc : d.cgka with
    | none => simp [Doc.keyOps, hc]
    | some c => simp [Doc.keyOps, hc, Nat.add_assoc, AMap.values]

theorem event_pending (me : Id) (s : Stats) (e : Event) (q : Kind) : (s.event me e).pendingOf q =
    ((s.pendingOf q).1 + (if e.kind = q then 1 else 0), (s.pendingOf q).2 + (if e.kind = q ∧ e.issuer = me then 1 else 0)) := by
  unfold Stats.event
  rcases e with ⟨i, g, b⟩ | ⟨d, op⟩ | d | r
  · cases b <;> cases q <;> simp [Stats.pendingOf, Event.kind, Event.issuer, bump] <;> split <;> rfl
  all_goals cases q <;> simp [Stats.pendingOf, Event.kind, Event.issuer, bump] <;> split <;> rfl

theorem events_fold (me : Id) (q : Kind) : ∀ (l : List Event) (s : Stats), (l.foldl (Stats.event me) s).pendingOf q =
    ((s.pendingOf q).1 + (l.filter (fun e => decide (e.kind = q))).length,
     (s.pendingOf q).2 + (l.filter (fun e => decide (e.kind = q ∧ e.issuer = me))).length)
  | [], s => rfl
  | e :: l, s => by
    rw [List.foldl_cons, events_fold me q l, event_pending, List.filter_cons, List.filter_cons]
    by_cases h1 : e.kind = q
    · by_cases h2 : e.issuer = me <;> simp [h1, h2, Nat.add_assoc, Nat.add_comm 1]
    · simp [h1]

/-- What the loop over pending events leaves alone. -/
def Stats.held (s : Stats) : Nat × Nat × Nat := (s.prekeysExpanded, s.prekeyRotations, s.cgkaOperations)

theorem event_held (me : Id) (s : Stats) (e : Event) : (s.event me e).held = s.held := by
  unfold Stats.event
  rcases e with ⟨i, g, b⟩ | ⟨d, op⟩ | d | r
  · cases b <;> rfl
  all_goals rfl

theorem events_held (me : Id) : ∀ (l : List Event) (s : Stats), (l.foldl (Stats.event me) s).held = s.held
  | [], s => rfl
  | e :: l, s => by rw [List.foldl_cons, events_held me l, event_held]

theorem stats_held (k : Keyhive) : k.stats.held =
    (((AMap.values k.individuals).map (fun x => ((AMap.values x.state).filter isAdd).length)).sum,
     ((AMap.values k.individuals).map (fun x => ((AMap.values x.state).filter (fun o => !isAdd o)).length)).sum,
     ((AMap.values k.docs).map (fun d => d.keyOps.length)).sum) := by
  have h := events_held k.reg.me k.pending ((AMap.values k.docs).foldl Stats.doc
    ((AMap.values k.individuals).foldl (fun s x => (AMap.values x.state).foldl Stats.keyOp s) {}))
  have h2 : k.stats.held = (k.pending.foldl (Stats.event k.reg.me) ((AMap.values k.docs).foldl Stats.doc
    ((AMap.values k.individuals).foldl (fun s x => (AMap.values x.state).foldl Stats.keyOp s) {}))).held := rfl
  rw [h2, h, docs_fold, indies_fold]
  simp [Stats.held]

theorem stats_pending (k : Keyhive) (q : Kind) : k.stats.pendingOf q =
    ((k.pending.filter (fun e => decide (e.kind = q))).length,
     (k.pending.filter (fun e => decide (e.kind = q ∧ e.issuer = k.reg.me))).length) := by
  have h := events_fold k.reg.me q k.pending ((AMap.values k.docs).foldl Stats.doc
    ((AMap.values k.individuals).foldl (fun s x => (AMap.values x.state).foldl Stats.keyOp s) {}))
  rw [docs_fold, indies_fold] at h
  have h2 : k.stats.pendingOf q = (k.pending.foldl (Stats.event k.reg.me) ((AMap.values k.docs).foldl Stats.doc
    ((AMap.values k.individuals).foldl (fun s x => (AMap.values x.state).foldl Stats.keyOp s) {}))).pendingOf q := by
    unfold Keyhive.stats
    cases q <;> rfl
  rw [h2, docs_fold, indies_fold, h]
  cases q <;> simp [Stats.pendingOf]

/-! ## Maps of a device -/

theorem individuals_wf {k : Keyhive} (h : AMap.WF k.reg.indies) : AMap.WF k.individuals := by
  unfold Keyhive.individuals
  split
  · exact AMap.wf_erase h _
  · exact h

theorem individuals_get (k : Keyhive) (i : Id) : AMap.get k.individuals i = k.individual i := by
  unfold Keyhive.individuals Keyhive.individual
  cases k.unlisted with
  | false => simp
  | true =>
    simp only [if_true, and_true]
    rw [AMap.get_erase]

theorem ops_step {H : SOp → Nat} {c : Cgka} (h : AMap.WF c.graph.ops) {cmd : Cmd} (hc : cmd.Honest) : AMap.WF (step H c cmd).graph.ops := by
  have h1 := (step_frame (H := H) c cmd hc).1
  generalize (step H c cmd).graph = g' at h1
  cases h1 with
  | same => exact h
  | own hp _ => exact AMap.wf_insert h _ _
  | recv hf hk => exact AMap.wf_insert h _ _

theorem ops_wf {H : SOp → Nat} {c : Cgka} (h : Cgka.Reach H c) : AMap.WF c.graph.ops := by
  induction h with
  | new hp hn => rw [(newFromInitAdd_frame hn).1]; exact AMap.wf_insert AMap.wf_nil _ _
  | owner me sks _ ih => exact ih
  | call _ hc ih => exact ops_step ih hc

/-! ## Nothing is forgotten -/

theorem grown_storeDlgs : ∀ (ds : List Dlg) (k : Keyhive), Grown k (ds.foldl (Keyhive.storeDlg E) k)
  | [], k => .rfl' k
  | d :: ds, k => (grown_storeDlg k d).trans (grown_storeDlgs ds (k.storeDlg E d))

theorem grown_storeRevs : ∀ (rs : List Rev) (k : Keyhive), Grown k (rs.foldl (Keyhive.storeRev E) k)
  | [], k => .rfl' k
  | r :: rs, k => (grown_storeRev k r).trans (grown_storeRevs rs (k.storeRev E r))

theorem grown_storeAll (revs : List Rev) (dlgs : List Dlg) (k : Keyhive) : Grown k (k.storeAll E revs dlgs) :=
  (grown_storeRevs revs k).trans (grown_storeDlgs dlgs _)

theorem grown_newGroup (k : Keyhive) (S : Op → Option Nat) (gid : Id) (co : List Agent) : Grown k (k.generateGroup E S gid co).1 := by
  unfold Keyhive.generateGroup
  split
  · exact .rfl' k
  · exact (grown_storeDlgs _ k).same rfl rfl

theorem grown_newDoc (k : Keyhive) (L : Local) (S : Op → Option Nat) (did : Id) (co : List Agent) (heads : List Nat) :
    Grown k (k.generateDoc E L S did co heads).1 := by
  unfold Keyhive.generateDoc
  split
  · exact .rfl' k
  · dsimp only
    repeat' split
    all_goals exact (grown_storeDlgs _ k).same rfl rfl

theorem setDoc_stores (k : Keyhive) (i : Id) (d : Doc) : (k.setDoc i d).dlgs = k.dlgs ∧ (k.setDoc i d).revs = k.revs := ⟨rfl, rfl⟩

theorem grown_addToDoc (k : Keyhive) (L : Local) (did : Id) (who : Agent) (can : Access) (content : Content) :
    Grown k (k.addMemberToDoc E L did who can content).1 := by
  unfold Keyhive.addMemberToDoc
  split
  · exact .rfl' k
  · split
    · exact .rfl' k
    · dsimp only
      repeat' split
      all_goals exact (grown_storeDlg k _).same rfl rfl

theorem grown_addToGroup (k : Keyhive) (L : Local) (gid : Id) (who : Agent) (can : Access) (content : Content) :
    Grown k (k.addMemberToGroup E L gid who can content).1 := by
  unfold Keyhive.addMemberToGroup
  split
  · exact .rfl' k
  · split
    · exact .rfl' k
    · rename_i g' d _
      dsimp only
      split
      · have hp := propagateAdds_stores (E := E) (L := L) (gid := gid) (who := d.delegate) (AMap.keys (k.storeDlg E d).docs)
          { k.storeDlg E d with groups := AMap.insert k.groups gid g' } []
        split
        · rename_i heq
          rw [heq] at hp
          exact (grown_storeDlg k d).same hp.1 hp.2
        · rename_i heq
          rw [heq] at hp
          exact (grown_storeDlg k d).same hp.1 hp.2
      · exact (grown_storeDlg k _).same rfl rfl

theorem grown_revokeFromDoc (k : Keyhive) (L : Local) (did member : Id) (retain : Bool) (content : Content) :
    Grown k (k.revokeFromDoc E L did member retain content).1 := by
  unfold Keyhive.revokeFromDoc
  split
  · exact .rfl' k
  · split
    · exact .rfl' k
    · split
      · exact (grown_storeAll _ _ k).same rfl rfl
      · dsimp only
        repeat' split
        all_goals exact (grown_storeAll _ _ k).same rfl rfl

theorem grown_revokeFromGroup (k : Keyhive) (L : Local) (gid member : Id) (retain : Bool) (content : Content) :
    Grown k (k.revokeFromGroup E L gid member retain content).1 := by
  unfold Keyhive.revokeFromGroup
  split
  · exact .rfl' k
  · split
    · exact .rfl' k
    · split
      · exact (grown_storeAll _ _ k).same rfl rfl
      · dsimp only
        split
        · exact (grown_storeAll _ _ k).same rfl rfl
        · exact (grown_storeAll _ _ k).same (propagateRemoves_stores _ _ _).1 (propagateRemoves_stores _ _ _).2

theorem grown_call {k : Keyhive} (h : Reach E k) (c : Call) : Grown k (c.run E k) := by
  have hs := reach_storeOk h
  have hrec : ∀ k1 e, StoreOk E k1 ∧ Grown k k1 → StoreOk E (k1.receive E e).1 ∧ Grown k (k1.receive E e).1 :=
    fun k1 e h1 => ⟨storeOk_receive h1.1 e, h1.2.trans (grown_receive h1.1 e)⟩
  cases c with
  | receive e => exact grown_receive hs e
  | ingest ord events =>
    exact (ingest_keeps (P := fun k1 => StoreOk E k1 ∧ Grown k k1) hrec
      (fun k1 p h1 => ⟨h1.1.same rfl rfl, h1.2.same rfl rfl⟩) ord events ⟨hs, .rfl' k⟩).2
  | contactCard op => exact (Grown.rfl' k).same rfl rfl
  | newGroup S gid co => exact grown_newGroup k S gid co
  | newDoc L S did co heads => exact grown_newDoc k L S did co heads
  | addToGroup L gid who can content => exact grown_addToGroup k L gid who can content
  | addToDoc L did who can content => exact grown_addToDoc k L did who can content
  | revokeFromGroup L gid member retain content => exact grown_revokeFromGroup k L gid member retain content
  | revokeFromDoc L did member retain content => exact grown_revokeFromDoc k L did member retain content
  | ingestArchive ord a =>
    exact (ingestArchive_keeps (P := fun k1 => StoreOk E k1 ∧ Grown k k1) hrec
      (fun k1 p h1 => ⟨h1.1.same rfl rfl, h1.2.same rfl rfl⟩)
      (fun hb h1 => ⟨h1.1.same hb.dlgs hb.revs, h1.2.same hb.dlgs hb.revs⟩) ord a ⟨hs, .rfl' k⟩).2
  | encrypt L did r ps x => simp only [Call.run, Keyhive.encryptContent]; split <;> exact (Grown.rfl' k).same rfl rfl
  | decrypt did e => simp only [Call.run, Keyhive.decryptContent]; split <;> exact (Grown.rfl' k).same rfl rfl
  | pcsUpdate L did => simp only [Call.run, Keyhive.forcePcsUpdate]; split <;> exact (Grown.rfl' k).same rfl rfl

/-- The groups and documents of the first device are on the second. -/
structure Standing (k k' : Keyhive) : Prop where
  groups : ∀ i, AMap.get k.groups i ≠ none → AMap.get k'.groups i ≠ none
  docs : ∀ i, AMap.get k.docs i ≠ none → AMap.get k'.docs i ≠ none

theorem Standing.rfl' (k : Keyhive) : Standing k k := ⟨fun _ h => h, fun _ h => h⟩

theorem Standing.trans {k k1 k2 : Keyhive} (h : Standing k k1) (h' : Standing k1 k2) : Standing k k2 :=
  ⟨fun i hi => h'.groups i (h.groups i hi), fun i hi => h'.docs i (h.docs i hi)⟩

theorem Standing.same {k k' : Keyhive} (hg : k'.groups = k.groups) (hd : k'.docs = k.docs) : Standing k k' :=
  ⟨by rw [hg]; exact fun _ h => h, by rw [hd]; exact fun _ h => h⟩

theorem Unmoved.standing {k k' : Keyhive} (h : Unmoved k k') : Standing k k' := by
  refine ⟨fun i hi => fun hn => hi ((h.groups i).1 hn), fun i hi hn => hi ?_⟩
  have := h.docs i
  rw [hn] at this
  cases hg : AMap.get k.docs i with
  | none => rfl
  | some d => rw [hg] at this; cases this

theorem standing_insertGroup (k : Keyhive) (g : Group) : Standing k (k.insertGroup g) := by
  refine ⟨fun i hi => ?_, fun _ h => h⟩
  simp only [Keyhive.insertGroup, AMap.get_insert]
  split
  · simp
  · exact hi

theorem standing_insertDoc (k : Keyhive) (d : Doc) : Standing k (k.insertDoc d) := by
  refine ⟨fun _ h => h, fun i hi => ?_⟩
  simp only [Keyhive.insertDoc, AMap.get_insert]
  split
  · simp
  · exact hi

theorem standing_setDoc (k : Keyhive) (i : Id) (d : Doc) : Standing k (k.setDoc i d) := by
  refine ⟨fun _ h => h, fun j hj => ?_⟩
  unfold Keyhive.setDoc
  simp only
  rw [get_replace]
  cases hg : AMap.get k.docs j with
  | none => exact absurd hg hj
  | some x => split <;> simp

theorem standing_storeDlgs (ds : List Dlg) (k : Keyhive) : Standing k (ds.foldl (Keyhive.storeDlg E) k) :=
  .same (storeDlgs_same ds k).1 (storeDlgs_same ds k).2.1

theorem standing_receive (k : Keyhive) (e : Event) : Standing k (k.receive E e).1 := by
  cases e with
  | prekey op => exact .same rfl rfl
  | cgka id op => exact (unmoved_receiveCgkaOp k id op).standing
  | rev s =>
    simp only [Keyhive.receive, Keyhive.receiveRevocation]
    repeat' split
    all_goals first | exact .rfl' k | exact (unmoved_applyRev k _).standing
  | dlg s =>
    simp only [Keyhive.receive, Keyhive.receiveDelegation]
    split
    · exact .rfl' k
    · split
      · exact .rfl' k
      · split
        · exact .rfl' k
        · rename_i d _
          unfold Keyhive.applyDlg
          split
          · split
            · exact .rfl' k
            · rename_i hg _ _ _
              exact Unmoved.standing (Unmoved.insertGroup hg rfl rfl)
          · split
            · split
              · exact .rfl' k
              · rename_i hd _ _ _
                refine Unmoved.standing (Unmoved.insertDoc (k := k) (i := d.subject) hd ?_ rfl rfl)
                rfl
            · split
              · have hr : (k.removeIndividual d.subject).groups = k.groups ∧ (k.removeIndividual d.subject).docs = k.docs := by
                  unfold Keyhive.removeIndividual; split <;> exact ⟨rfl, rfl⟩
                have hu := unmoved_promote (E := E) k hr.1 hr.2 d
                split
                · rename_i heq; rw [heq] at hu; exact hu.standing
                · rename_i heq; rw [heq] at hu; exact hu.standing
              · unfold Keyhive.adopt
                dsimp only
                split
                · exact (Standing.same (k := k) (k' := k.storeDlg E d) rfl rfl).trans (standing_insertDoc _ _)
                · exact (Standing.same (k := k) (k' := k.storeDlg E d) rfl rfl).trans (standing_insertGroup _ _)

theorem standing_call (k : Keyhive) (c : Call) : Standing k (c.run E k) := by
  have hrec : ∀ k1 e, Standing k k1 → Standing k (k1.receive E e).1 := fun k1 e h1 => h1.trans (standing_receive k1 e)
  cases c with
  | receive e => exact standing_receive k e
  | ingest ord events => exact ingest_keeps (P := Standing k) hrec (fun k1 p h1 => h1.trans (.same rfl rfl)) ord events (.rfl' k)
  | contactCard op => exact .same rfl rfl
  | newGroup S gid co =>
    simp only [Call.run, Keyhive.generateGroup]
    split
    · exact .rfl' k
    · exact (standing_storeDlgs _ k).trans (standing_insertGroup _ _)
  | newDoc L S did co heads =>
    simp only [Call.run, Keyhive.generateDoc]
    split
    · exact .rfl' k
    · repeat' split
      all_goals first | exact standing_storeDlgs _ k | exact (standing_storeDlgs _ k).trans (standing_insertDoc _ _)
  | addToGroup L gid who can content => exact (unmoved_addToGroup k L gid who can content).standing
  | addToDoc L did who can content => exact (unmoved_addToDoc k L did who can content).standing
  | revokeFromGroup L gid member retain content => exact (unmoved_revokeFromGroup k L gid member retain content).standing
  | revokeFromDoc L did member retain content => exact (unmoved_revokeFromDoc k L did member retain content).standing
  | ingestArchive ord a =>
    exact ingestArchive_keeps (P := Standing k) hrec (fun k1 p h1 => h1.trans (.same rfl rfl))
      (fun hb h1 => h1.trans (.same hb.groups hb.docs)) ord a (.rfl' k)
  | encrypt L did r ps x =>
    simp only [Call.run, Keyhive.encryptContent]
    split
    · exact .rfl' k
    · exact (Standing.rfl' k).trans (standing_setDoc k _ _)
  | decrypt did e =>
    simp only [Call.run, Keyhive.decryptContent]
    split
    · exact .rfl' k
    · exact (Standing.rfl' k).trans (standing_setDoc k _ _)
  | pcsUpdate L did =>
    simp only [Call.run, Keyhive.forcePcsUpdate]
    split
    · exact .rfl' k
    · exact (Standing.rfl' k).trans (standing_setDoc k _ _)

/-! ## The stores of a loaded device -/

theorem loadOps_wfd {os : List SMem} : ∀ {k k' : Keyhive}, AMap.WF k.dlgs → k.loadOps E os = .ok k' → AMap.WF k'.dlgs := by
  induction os with
  | nil => intro k k' hw h; cases h; exact hw
  | cons o os ih =>
    intro k k' hw h
    unfold Keyhive.loadOps at h
    split at h
    · cases h
    · rename_i k1 heq
      refine ih ?_ h
      cases o with
      | dlg s =>
        unfold Keyhive.loadOp at heq
        simp only at heq
        split at heq
        · cases heq
        · cases heq; exact AMap.wf_insert hw _ _
      | rev s =>
        unfold Keyhive.loadOp at heq
        simp only at heq
        split at heq
        · cases heq
        · cases heq; exact hw

theorem load_wf_dlgs {a : Archive} {k : Keyhive} (h : tryFromArchive E a = .ok k) : AMap.WF k.dlgs := by
  unfold tryFromArchive at h
  split at h
  · cases h
  · rename_i k1 heq
    split at h
    · cases h
    · split at h
      · cases h
      · cases h
        have := loadOps_wfd AMap.wf_nil heq
        exact this

end Verif.Keyhive
