import Verif.Keyhive.ArchiveLemmas

/-! # Devices that differ only in the revocations marked as in effect -/

namespace Verif.Keyhive

open Verif.Group Verif.Cgka Verif.BeeKem

variable {E : Env}

/-! ## Groups -/

theorem unmark_id {g g' : Group} (h : unmark g' = unmark g) : g'.id = g.id := by
  have := congrArg Group.id h; exact this
theorem unmark_members {g g' : Group} (h : unmark g' = unmark g) : g'.members = g.members := by
  have := congrArg Group.members h; exact this
theorem unmark_dlgHeads {g g' : Group} (h : unmark g' = unmark g) : g'.dlgHeads = g.dlgHeads := by
  have := congrArg Group.dlgHeads h; exact this
theorem unmark_revHeads {g g' : Group} (h : unmark g' = unmark g) : g'.revHeads = g.revHeads := by
  have := congrArg Group.revHeads h; exact this

theorem unmark_self (H : Op → Nat) (N : Nested) (g : Group) (d : Dlg) :
    (unmark g).receiveDelegation H N d = g.receiveDelegation H N d := by
  unfold Group.receiveDelegation Group.addDelegation
  simp only [bind, Except.bind, pure, Except.pure, throw, throwThe, MonadExceptOf.throw]
  have h1 : (unmark g).id = g.id := rfl
  rw [h1]
  by_cases h2 : d.subject ≠ g.id
  · simp only [if_pos h2]
  · simp only [if_neg h2]
    by_cases h3 : d.proof.isNone = true ∧ d.issuer ≠ g.id
    · simp only [if_pos h3]
    · simp only [if_neg h3]
      cases checkChain N d.can d d.lineage <;> rfl

theorem unmark_selfRev (H : Op → Nat) (N : Nested) (g : Group) (r : Rev) :
    (unmark g).receiveRevocation H N r = g.receiveRevocation H N r := by
  unfold Group.receiveRevocation Group.addRevocation
  simp only [bind, Except.bind, pure, Except.pure, throw, throwThe, MonadExceptOf.throw]
  have h1 : (unmark g).id = g.id := rfl
  rw [h1]
  by_cases h2 : r.subject ≠ g.id
  · simp only [if_pos h2]
  · simp only [if_neg h2]
    cases r.proof with
    | none =>
      by_cases h3 : r.issuer ≠ g.id
      · simp only [if_pos h3]
      · simp only [if_neg h3]; rfl
    | some p =>
      simp only
      cases h5 : (!r.revoke.same p && !r.revoke.isDescendantOf p) with
      | false => simp only [Bool.false_eq_true, if_false]; cases checkChain N p.can p p.lineage <;> rfl
      | true =>
        simp only [if_true]
        cases isTransitiveMemberOf N p.delegate r.issuer r.revoke.can with
        | error e => rfl
        | ok b =>
          cases b with
          | false => rfl
          | true => simp only [Bool.not_true, Bool.false_eq_true, if_false]; cases checkChain N p.can p p.lineage <;> rfl

theorem receiveDelegation_alike {H : Op → Nat} {N : Nested} {g g' : Group} (h : unmark g' = unmark g) (d : Dlg) :
    g'.receiveDelegation H N d = g.receiveDelegation H N d := by
  rw [← unmark_self H N g, ← unmark_self H N g', h]

theorem receiveRevocation_alike {H : Op → Nat} {N : Nested} {g g' : Group} (h : unmark g' = unmark g) (r : Rev) :
    g'.receiveRevocation H N r = g.receiveRevocation H N r := by
  rw [← unmark_selfRev H N g, ← unmark_selfRev H N g', h]

/-! ## Worlds -/

/-- The same groups up to marks. -/
def SameWorld (W W' : World) : Prop := W'.map (fun p => (p.1, unmark p.2)) = W.map (fun p => (p.1, unmark p.2))

theorem get_map {α β γ : Type} [DecidableEq α] (f : β → γ) : ∀ (m : AMap α β) (a : α),
    AMap.get (m.map (fun p => (p.1, f p.2))) a = (AMap.get m a).map f
  | [], _ => rfl
  | (b, v) :: m, a => by
    simp only [List.map_cons, AMap.get]
    split
    · rfl
    · exact get_map f m a

theorem get_alike {α β γ : Type} [DecidableEq α] {f : β → γ} {m m' : AMap α β}
    (h : m'.map (fun p => (p.1, f p.2)) = m.map (fun p => (p.1, f p.2))) (a : α) : (AMap.get m' a).map f = (AMap.get m a).map f := by
  rw [← get_map, ← get_map, h]

/-- Either both have nothing there, or groups that are the same up to marks. -/
theorem get_cases {α β γ : Type} [DecidableEq α] {f : β → γ} {m m' : AMap α β}
    (h : m'.map (fun p => (p.1, f p.2)) = m.map (fun p => (p.1, f p.2))) (a : α) :
    (AMap.get m' a = none ∧ AMap.get m a = none) ∨ ∃ x' x, AMap.get m' a = some x' ∧ AMap.get m a = some x ∧ f x' = f x := by
  have := get_alike h a
  cases h1 : AMap.get m' a <;> cases h2 : AMap.get m a <;> rw [h1, h2] at this <;> simp at this
  · exact .inl ⟨rfl, rfl⟩
  · exact .inr ⟨_, _, rfl, rfl, this⟩

theorem size_alike {W W' : World} (h : SameWorld W W') : W'.size = W.size := by
  have key : ∀ W : World, World.size (W.map (fun p => (p.1, unmark p.2))) = W.size := by
    intro W
    unfold World.size
    rw [List.map_map]
    rfl
  rw [← key W', ← key W, h]

theorem turn_alike {W W' : World} (h : SameWorld W W') (held : List Id) (self : Id) (t : Trans) (a : Agent) (x y : Access) :
    Trans.turn W' held self t a x y = Trans.turn W held self t a x y := by
  unfold Trans.turn
  simp only
  rcases get_cases h a.id with ⟨h1, h2⟩ | ⟨g', g, h1, h2, h3⟩
  · rw [h1, h2]
  · rw [h1, h2]
    simp only [unmark_members h3]

theorem run_alike {W W' : World} (h : SameWorld W W') (held : List Id) (self : Id) : ∀ (n : Nat) (t : Trans),
    Trans.run W' held self n t = Trans.run W held self n t
  | 0, _ => rfl
  | n + 1, t => by
    unfold Trans.run
    split
    · rfl
    · rw [turn_alike h]
      simp only [bind, Except.bind]
      split
      · rfl
      · exact run_alike h held self n _

theorem transitive_alike {W W' : World} (h : SameWorld W W') (held : List Id) {g g' : Group} (hg : unmark g' = unmark g) :
    transitiveMembers W' held g' = transitiveMembers W held g := by
  unfold transitiveMembers
  rw [run_alike h, size_alike h, unmark_id hg, unmark_members hg]
  have : Trans.start g' = Trans.start g := by unfold Trans.start; rw [unmark_members hg]
  rw [this]

theorem membersOf_alike {W W' : World} (h : SameWorld W W') (held : List Id) : membersOf W' held = membersOf W held := by
  funext a
  unfold membersOf
  rcases get_cases h a.id with ⟨h1, h2⟩ | ⟨g', g, h1, h2, h3⟩
  · rw [h1, h2]
  · rw [h1, h2]
    simp only [transitive_alike h _ h3]

/-! ## Devices -/

namespace Alike

theorem refl (k : Keyhive) : Alike k k := ⟨rfl, rfl, rfl, rfl, fun _ => rfl, fun _ => rfl, rfl, rfl⟩

theorem world {k k' : Keyhive} (h : Alike k k') : SameWorld k.world k'.world := by
  unfold SameWorld Keyhive.world
  rw [List.map_append, List.map_append, h.groups, List.map_map, List.map_map]
  congr 1
  have := congrArg (List.map (fun p : Id × Doc => (p.1, p.2.group))) h.docs
  simpa [List.map_map, Function.comp_def] using this

theorem individual {k k' : Keyhive} (h : Alike k k') (i : Id) : k'.individual i = k.individual i := by
  unfold Keyhive.individual; rw [h.reg, h.unlisted]

theorem group {k k' : Keyhive} (h : Alike k k') (i : Id) : (AMap.get k'.groups i = none ∧ AMap.get k.groups i = none) ∨
    ∃ g' g, AMap.get k'.groups i = some g' ∧ AMap.get k.groups i = some g ∧ unmark g' = unmark g := get_cases h.groups i

theorem doc {k k' : Keyhive} (h : Alike k k') (i : Id) : (AMap.get k'.docs i = none ∧ AMap.get k.docs i = none) ∨
    ∃ d' d : Doc, AMap.get k'.docs i = some d' ∧ AMap.get k.docs i = some d ∧ unmark d'.group = unmark d.group ∧
      d'.heads = d.heads ∧ d'.cgka = d.cgka := by
  rcases get_cases (f := fun d : Doc => { d with group := unmark d.group }) h.docs i with h1 | ⟨d', d, h1, h2, h3⟩
  · exact .inl h1
  · exact .inr ⟨d', d, h1, h2, congrArg Doc.group h3, (by injection h3), (by injection h3)⟩

theorem contains {k k' : Keyhive} (h : Alike k k') (i : Id) :
    AMap.contains k'.groups i = AMap.contains k.groups i ∧ AMap.contains k'.docs i = AMap.contains k.docs i := by
  unfold AMap.contains
  constructor
  · rcases h.group i with ⟨h1, h2⟩ | ⟨_, _, h1, h2, _⟩ <;> rw [h1, h2] <;> rfl
  · rcases h.doc i with ⟨h1, h2⟩ | ⟨_, _, h1, h2, _⟩ <;> rw [h1, h2] <;> rfl

theorem getAgent {k k' : Keyhive} (h : Alike k k') (i : Id) : k'.getAgent i = k.getAgent i := by
  unfold Keyhive.getAgent
  rw [h.reg, (h.contains i).1, (h.contains i).2, h.individual]

theorem findProof {k k' : Keyhive} (h : Alike k k') (p : Option Nat) : k'.findProof p = k.findProof p := by
  cases p with
  | none => rfl
  | some x => simp only [Keyhive.findProof, h.dlgs]

theorem findRevs {k k' : Keyhive} (h : Alike k k') : ∀ l, k'.findRevs l = k.findRevs l
  | [] => rfl
  | x :: l => by simp only [Keyhive.findRevs, h.revs, findRevs h l]

theorem toDlg {k k' : Keyhive} (h : Alike k k') (s : SDlg) : k'.toDlg s = k.toDlg s := by
  unfold Keyhive.toDlg
  rw [h.findProof, h.getAgent, h.findRevs]

theorem toRev {k k' : Keyhive} (h : Alike k k') (s : SRev) : k'.toRev s = k.toRev s := by
  unfold Keyhive.toRev
  rw [h.findProof, h.dlgs]

theorem storeDlg {k k' : Keyhive} (h : Alike k k') (d : Dlg) : Alike (k.storeDlg E d) (k'.storeDlg E d) := by
  refine ⟨h.reg, h.unlisted, h.pairs, h.pending, fun x => ?_, h.revs, h.groups, h.docs⟩
  simp only [Keyhive.storeDlg, CaMap.insert, AMap.get_insert, h.dlgs]

theorem storeRev {k k' : Keyhive} (h : Alike k k') (r : Rev) : Alike (k.storeRev E r) (k'.storeRev E r) := by
  refine ⟨h.reg, h.unlisted, h.pairs, h.pending, h.dlgs, fun x => ?_, h.groups, h.docs⟩
  simp only [Keyhive.storeRev, CaMap.insert, AMap.get_insert, h.revs]

theorem removeIndividual {k k' : Keyhive} (h : Alike k k') (i : Id) : Alike (k.removeIndividual i) (k'.removeIndividual i) := by
  unfold Keyhive.removeIndividual
  rw [h.reg]
  split
  · exact ⟨rfl, rfl, h.pairs, h.pending, h.dlgs, h.revs, h.groups, h.docs⟩
  · exact ⟨rfl, h.unlisted, h.pairs, h.pending, h.dlgs, h.revs, h.groups, h.docs⟩

end Alike

theorem map_erase {α β γ : Type} [DecidableEq α] (f : β → γ) (m : AMap α β) (a : α) :
    (AMap.erase m a).map (fun p => (p.1, f p.2)) = AMap.erase (m.map (fun p => (p.1, f p.2))) a := by
  unfold AMap.erase
  rw [List.filter_map]
  rfl

theorem map_insert {α β γ : Type} [DecidableEq α] {f : β → γ} {m m' : AMap α β}
    (h : m'.map (fun p => (p.1, f p.2)) = m.map (fun p => (p.1, f p.2))) (a : α) {v v' : β} (hv : f v' = f v) :
    (AMap.insert m' a v').map (fun p => (p.1, f p.2)) = (AMap.insert m a v).map (fun p => (p.1, f p.2)) := by
  unfold AMap.insert
  simp only [List.map_cons, map_erase, h, hv]

theorem map_replace' {m m' : AMap Id Doc} {f : Doc → Doc}
    (h : m'.map (fun p => (p.1, f p.2)) = m.map (fun p => (p.1, f p.2))) (a : Id) {v v' : Doc} (hv : f v' = f v) :
    (Keyhive.replace a v' m').map (fun p => (p.1, f p.2)) = (Keyhive.replace a v m).map (fun p => (p.1, f p.2)) := by
  have key : ∀ (m : AMap Id Doc) (v : Doc), (Keyhive.replace a v m).map (fun p => (p.1, f p.2))
      = Keyhive.replace a (f v) (m.map (fun p => (p.1, f p.2))) := by
    intro m v
    induction m with
    | nil => rfl
    | cons p m ih =>
      unfold Keyhive.replace
      simp only [List.map_cons]
      split
      · rfl
      · simp only [List.map_cons, ih]
  rw [key, key, h, hv]

theorem SameOutcome.rfl' {α : Type} (a : Except Err α) : SameOutcome a a := .inl rfl

theorem find_none {α β : Type} [DecidableEq α] {m m' : AMap α β} (hw : AMap.WF m) (hw' : AMap.WF m')
    (h : ∀ x, AMap.get m' x = AMap.get m x) (p : β → Bool) : (AMap.values m').find? p = none ↔ (AMap.values m).find? p = none := by
  have key : ∀ v, v ∈ AMap.values m' ↔ v ∈ AMap.values m := by
    intro v
    simp only [AMap.values, List.mem_map]
    constructor
    · rintro ⟨⟨a, b⟩, h1, rfl⟩
      exact ⟨(a, b), AMap.mem_of_get ((h a) ▸ AMap.get_of_mem hw' h1), rfl⟩
    · rintro ⟨⟨a, b⟩, h1, rfl⟩
      exact ⟨(a, b), AMap.mem_of_get ((h a).symm ▸ AMap.get_of_mem hw h1), rfl⟩
  simp only [List.find?_eq_none, key]

/-- Alike, with well-formed stores. -/
structure Twins (k k' : Keyhive) : Prop where
  alike : Alike k k'
  wf : AMap.WF k.revs
  wf' : AMap.WF k'.revs

namespace Twins

theorem storeDlg {k k' : Keyhive} (h : Twins k k') (d : Dlg) : Twins (k.storeDlg E d) (k'.storeDlg E d) :=
  ⟨h.alike.storeDlg d, h.wf, h.wf'⟩

theorem storeRev {k k' : Keyhive} (h : Twins k k') (r : Rev) : Twins (k.storeRev E r) (k'.storeRev E r) :=
  ⟨h.alike.storeRev r, AMap.wf_insert h.wf _ _, AMap.wf_insert h.wf' _ _⟩

theorem removeIndividual {k k' : Keyhive} (h : Twins k k') (i : Id) : Twins (k.removeIndividual i) (k'.removeIndividual i) :=
  ⟨h.alike.removeIndividual i, by rw [(removeIndividual_stores k i).2]; exact h.wf,
    by rw [(removeIndividual_stores k' i).2]; exact h.wf'⟩

theorem setGroup {k k' : Keyhive} (h : Twins k k') (i : Id) {g g' : Group} (hg : unmark g' = unmark g) :
    Twins { k with groups := AMap.insert k.groups i g } { k' with groups := AMap.insert k'.groups i g' } :=
  ⟨⟨h.alike.reg, h.alike.unlisted, h.alike.pairs, h.alike.pending, h.alike.dlgs, h.alike.revs,
    map_insert h.alike.groups i hg, h.alike.docs⟩, h.wf, h.wf'⟩

theorem putDoc {k k' : Keyhive} (h : Twins k k') (i : Id) {d d' : Doc} (hg : unmark d'.group = unmark d.group)
    (hh : d'.heads = d.heads) (hc : d'.cgka = d.cgka) :
    Twins { k with docs := AMap.insert k.docs i d } { k' with docs := AMap.insert k'.docs i d' } :=
  ⟨⟨h.alike.reg, h.alike.unlisted, h.alike.pairs, h.alike.pending, h.alike.dlgs, h.alike.revs,
    h.alike.groups, map_insert (f := fun d : Doc => { d with group := unmark d.group }) h.alike.docs i
      (by simp only [hg, hh, hc])⟩, h.wf, h.wf'⟩

theorem setDoc {k k' : Keyhive} (h : Twins k k') (i : Id) {d d' : Doc} (hg : unmark d'.group = unmark d.group)
    (hh : d'.heads = d.heads) (hc : d'.cgka = d.cgka) : Twins (k.setDoc i d) (k'.setDoc i d') :=
  ⟨⟨h.alike.reg, h.alike.unlisted, h.alike.pairs, h.alike.pending, h.alike.dlgs, h.alike.revs,
    h.alike.groups, map_replace' (f := fun d : Doc => { d with group := unmark d.group }) h.alike.docs i
      (by simp only [hg, hh, hc])⟩, h.wf, h.wf'⟩

theorem setReg {k k' : Keyhive} (h : Twins k k') (reg : Prekey.Registry) : Twins { k with reg := reg } { k' with reg := reg } :=
  ⟨⟨rfl, h.alike.unlisted, h.alike.pairs, h.alike.pending, h.alike.dlgs, h.alike.revs, h.alike.groups, h.alike.docs⟩, h.wf, h.wf'⟩

/-- The outcome of a call on twins. -/
def Agree {α : Type} (a a' : Step α) : Prop := Twins a.1 a'.1 ∧ SameOutcome a'.2 a.2

theorem promote {k k' : Keyhive} (h : Twins k k') (d : Dlg) : Agree (k.promote E d) (k'.promote E d) := by
  refine ⟨by rw [promote_fst, promote_fst]; exact h.storeDlg d, ?_⟩
  unfold Keyhive.promote
  simp only
  have hf := find_none h.wf h.wf' h.alike.revs (fun r => decide (r.subject = d.issuer))
  cases h1 : (AMap.values (k'.storeDlg E d).revs).find? (fun r => decide (r.subject = d.issuer)) with
  | none =>
    have h2 : (AMap.values (k.storeDlg E d).revs).find? (fun r => decide (r.subject = d.issuer)) = none := hf.1 h1
    rw [h2]
    exact .inl rfl
  | some r' =>
    cases h2 : (AMap.values (k.storeDlg E d).revs).find? (fun r => decide (r.subject = d.issuer)) with
    | none =>
      have h3 : (AMap.values (k'.storeDlg E d).revs).find? (fun r => decide (r.subject = d.issuer)) = none := hf.2 h2
      rw [h3] at h1
      cases h1
    | some r =>
      refine .inr ⟨_, _, rfl, rfl, ?_, ?_⟩
      · cases r'.proof <;> rfl
      · cases r.proof <;> rfl

theorem adopt {k k' : Keyhive} (h : Twins k k') (d : Dlg) : Twins (k.adopt E d) (k'.adopt E d) := by
  have h1 := h.storeDlg (E := E) d
  unfold Keyhive.adopt
  simp only
  split
  · refine ⟨⟨?_, h1.alike.unlisted, h1.alike.pairs, h1.alike.pending, h1.alike.dlgs, h1.alike.revs, h1.alike.groups, ?_⟩, h1.wf, h1.wf'⟩
    · simp only [Keyhive.insertDoc, h1.alike.reg]
    · exact map_insert (f := fun d : Doc => { d with group := unmark d.group }) h1.alike.docs _ rfl
  · refine ⟨⟨?_, h1.alike.unlisted, h1.alike.pairs, h1.alike.pending, h1.alike.dlgs, h1.alike.revs, ?_, h1.alike.docs⟩, h1.wf, h1.wf'⟩
    · simp only [Keyhive.insertGroup, h1.alike.reg]
    · exact map_insert h1.alike.groups _ rfl

theorem applyDlg {k k' : Keyhive} (h : Twins k k') (d : Dlg) : Agree (k.applyDlg E d) (k'.applyDlg E d) := by
  unfold Keyhive.applyDlg
  rw [membersOf_alike h.alike.world]
  rcases h.alike.group d.subject with ⟨h1, h2⟩ | ⟨g', g, h1, h2, hg⟩
  · rw [h1, h2]
    simp only
    rcases h.alike.doc d.subject with ⟨h3, h4⟩ | ⟨d', d0, h3, h4, hg, hh, hc⟩
    · rw [h3, h4]
      simp only
      rw [h.alike.individual]
      split
      · have hp := (h.removeIndividual d.subject).promote (E := E) d
        obtain ⟨p1, p2⟩ := hp
        generalize (k.removeIndividual d.subject).promote E d = a at *
        generalize (k'.removeIndividual d.subject).promote E d = a' at *
        obtain ⟨s, o⟩ := a
        obtain ⟨s', o'⟩ := a'
        rcases p2 with h5 | ⟨e, e', h5, h6, h7, h8⟩
        · dsimp only at h5
          subst h5
          cases o' <;> exact ⟨p1, .inl rfl⟩
        · dsimp only at h5 h6
          subst h5 h6
          exact ⟨p1, .inr ⟨_, _, rfl, rfl, h7, h8⟩⟩
      · exact ⟨h.adopt d, .inl rfl⟩
    · rw [h3, h4]
      simp only
      rw [receiveDelegation_alike hg]
      split
      · exact ⟨h, .inl rfl⟩
      · exact ⟨(h.storeDlg d).putDoc d.subject (d := { d0 with group := _ }) (d' := { d' with group := _ }) rfl hh hc, .inl rfl⟩
  · rw [h1, h2]
    simp only
    rw [receiveDelegation_alike hg]
    split
    · exact ⟨h, .inl rfl⟩
    · exact ⟨(h.storeDlg d).setGroup d.subject rfl, .inl rfl⟩

theorem applyRev {k k' : Keyhive} (h : Twins k k') (r : Rev) : Agree (k.applyRev E r) (k'.applyRev E r) := by
  unfold Keyhive.applyRev
  rw [membersOf_alike h.alike.world]
  rcases h.alike.group r.subject with ⟨h1, h2⟩ | ⟨g', g, h1, h2, hg⟩
  · rw [h1, h2]
    simp only
    rcases h.alike.doc r.subject with ⟨h3, h4⟩ | ⟨d', d0, h3, h4, hg, hh, hc⟩
    · rw [h3, h4]
      simp only
      rw [h.alike.individual]
      split
      · have hp := (h.removeIndividual r.subject).promote (E := E) r.revoke
        obtain ⟨p1, p2⟩ := hp
        generalize (k.removeIndividual r.subject).promote E r.revoke = a at *
        generalize (k'.removeIndividual r.subject).promote E r.revoke = a' at *
        obtain ⟨s, o⟩ := a
        obtain ⟨s', o'⟩ := a'
        rcases p2 with h5 | ⟨e, e', h5, h6, h7, h8⟩
        · dsimp only at h5 p1
          subst h5
          cases o' with
          | error e => exact ⟨p1, .inl rfl⟩
          | ok g =>
            simp only
            rw [membersOf_alike p1.alike.world]
            split
            · exact ⟨p1, .inl rfl⟩
            · exact ⟨p1.storeRev r, .inl rfl⟩
        · dsimp only at h5 h6
          subst h5 h6
          exact ⟨p1, .inr ⟨_, _, rfl, rfl, h7, h8⟩⟩
      · exact ⟨h, .inl rfl⟩
    · rw [h3, h4]
      simp only
      rw [receiveRevocation_alike hg]
      split
      · exact ⟨h, .inl rfl⟩
      · exact ⟨(h.storeRev r).putDoc r.subject (d := { d0 with group := _ }) (d' := { d' with group := _ }) rfl hh hc, .inl rfl⟩
  · rw [h1, h2]
    simp only
    rw [receiveRevocation_alike hg]
    split
    · exact ⟨h, .inl rfl⟩
    · exact ⟨(h.storeRev r).setGroup r.subject rfl, .inl rfl⟩

/-- Documents that are the same up to marks. -/
def SameDoc (d d' : Doc) : Prop := unmark d'.group = unmark d.group ∧ d'.heads = d.heads ∧ d'.cgka = d.cgka

theorem mergeCgkaOp {H : SOp → Nat} {d d' : Doc} (h : SameDoc d d') (op : SOp) :
    SameDoc (d.mergeCgkaOp H op).1 (d'.mergeCgkaOp H op).1 ∧ (d'.mergeCgkaOp H op).2 = (d.mergeCgkaOp H op).2 := by
  unfold Doc.mergeCgkaOp
  rw [h.2.2]
  repeat' split
  all_goals first
    | exact ⟨⟨h.1, h.2.1, rfl⟩, rfl⟩
    | exact ⟨h, rfl⟩

theorem mergeCgkaInviteOp {H : SOp → Nat} {d d' : Doc} (h : SameDoc d d') (op : SOp) (sk : Sk) :
    SameDoc (d.mergeCgkaInviteOp H op sk).1 (d'.mergeCgkaInviteOp H op sk).1 ∧
      (d'.mergeCgkaInviteOp H op sk).2 = (d.mergeCgkaInviteOp H op sk).2 := by
  unfold Doc.mergeCgkaInviteOp
  rw [h.2.2]
  repeat' split
  all_goals first
    | exact ⟨h, rfl⟩
    | (refine mergeCgkaOp ?_ op; exact ⟨h.1, h.2.1, rfl⟩)

theorem resetCgkaOwner {d d' : Doc} (h : SameDoc d d') (owner : Id) :
    SameDoc (d.resetCgkaOwner owner).1 (d'.resetCgkaOwner owner).1 ∧ (d'.resetCgkaOwner owner).2 = (d.resetCgkaOwner owner).2 := by
  unfold Doc.resetCgkaOwner
  rw [h.2.2]
  split
  · exact ⟨h, rfl⟩
  · exact ⟨⟨h.1, h.2.1, rfl⟩, rfl⟩

theorem closeDoc {α : Type} {k k' : Keyhive} (h : Twins k k') (i : Id) {r r' : Doc × Res α} (hr : SameDoc r.1 r'.1 ∧ r'.2 = r.2) :
    Agree (k.closeDoc i r) (k'.closeDoc i r') := by
  refine ⟨h.setDoc i hr.1.1 hr.1.2.1 hr.1.2.2, ?_⟩
  simp only [Keyhive.closeDoc, hr.2]
  exact .inl rfl

theorem receiveCgkaOp {k k' : Keyhive} (h : Twins k k') (i : Id) (op : SOp) :
    Agree (k.receiveCgkaOp E i op) (k'.receiveCgkaOp E i op) := by
  unfold Keyhive.receiveCgkaOp
  split
  · exact ⟨h, .inl rfl⟩
  · rcases h.alike.doc i with ⟨h1, h2⟩ | ⟨d', d, h1, h2, h3⟩
    · rw [h1, h2]
      exact ⟨h, .inl rfl⟩
    · rw [h1, h2]
      simp only
      rw [h.alike.reg, h.alike.pairs]
      split
      · split
        · split
          · exact ⟨h, .inl rfl⟩
          · exact h.closeDoc i (mergeCgkaInviteOp h3 op _)
        · split
          · unfold Keyhive.mergePublicInvite
            have hm := mergeCgkaInviteOp (H := E.hashCgka i) h3 op publicSk
            generalize d.mergeCgkaInviteOp (E.hashCgka i) op publicSk = a at *
            generalize d'.mergeCgkaInviteOp (E.hashCgka i) op publicSk = a' at *
            obtain ⟨s, o⟩ := a
            obtain ⟨s', o'⟩ := a'
            obtain ⟨m1, m2⟩ := hm
            dsimp only at m1 m2
            subst m2
            cases o' with
            | error e => exact h.closeDoc i ⟨m1, rfl⟩
            | ok b =>
              simp only
              rw [h.alike.reg]
              exact h.closeDoc i (resetCgkaOwner m1 _)
          · exact h.closeDoc i (mergeCgkaOp h3 op)
      · exact h.closeDoc i (mergeCgkaOp h3 op)

theorem receive {k k' : Keyhive} (h : Twins k k') (e : Event) : Agree (k.receive E e) (k'.receive E e) := by
  cases e with
  | prekey op =>
    show Agree (k.receivePrekeyOp E op) (k'.receivePrekeyOp E op)
    unfold Keyhive.receivePrekeyOp
    rw [h.alike.reg]
    exact ⟨h.setReg _, .inl rfl⟩
  | cgka i op => exact h.receiveCgkaOp i op
  | dlg s =>
    show Agree (k.receiveDelegation E s) (k'.receiveDelegation E s)
    unfold Keyhive.receiveDelegation AMap.contains
    rw [h.alike.dlgs, h.alike.toDlg]
    repeat' split
    · exact ⟨h, .inl rfl⟩
    · exact ⟨h, .inl rfl⟩
    · exact ⟨h, .inl rfl⟩
    · exact h.applyDlg _
  | rev s =>
    show Agree (k.receiveRevocation E s) (k'.receiveRevocation E s)
    unfold Keyhive.receiveRevocation AMap.contains
    rw [h.alike.revs, h.alike.toRev]
    repeat' split
    · exact ⟨h, .inl rfl⟩
    · exact ⟨h, .inl rfl⟩
    · exact ⟨h, .inl rfl⟩
    · exact h.applyRev _

theorem pass : ∀ {es : List Event} {k k' : Keyhive} {next : List Event}, Twins k k' →
    Agree (Keyhive.pass E k es next) (Keyhive.pass E k' es next) := by
  intro es
  induction es with
  | nil => intro k k' next h; exact ⟨h, .inl rfl⟩
  | cons e es ih =>
    intro k k' next h
    have hr := h.receive (E := E) e
    unfold Keyhive.pass
    generalize k.receive E e = a at *
    generalize k'.receive E e = a' at *
    obtain ⟨s, o⟩ := a
    obtain ⟨s', o'⟩ := a'
    obtain ⟨m1, m2⟩ := hr
    dsimp only at m1
    rcases m2 with m2 | ⟨x, x', h1, h2, h3, h4⟩
    · dsimp only at m2
      subst m2
      cases o' with
      | ok u => exact ih m1
      | error x =>
        simp only
        split
        · exact ⟨m1, .inl rfl⟩
        · split
          · exact ih m1
          · exact ih m1
    · dsimp only at h1 h2
      subst h1 h2
      simp only [h3, h4, if_true]
      exact ⟨m1, .inr ⟨_, _, rfl, rfl, h3, h4⟩⟩

/-- The outcome of ingestion on twins. -/
def AgreeAll (a a' : Keyhive × Option (Except Err (List Event))) : Prop :=
  Twins a.1 a'.1 ∧ ((a'.2 = none ∧ a.2 = none) ∨ ∃ o o', a'.2 = some o' ∧ a.2 = some o ∧ SameOutcome o' o)

theorem rounds {replayed : List Nat} : ∀ {n : Nat} {k k' : Keyhive} {epoch : List Event}, Twins k k' →
    AgreeAll (Keyhive.rounds E replayed n k epoch) (Keyhive.rounds E replayed n k' epoch) := by
  intro n
  induction n with
  | zero => intro k k' epoch h; exact ⟨h, .inl ⟨rfl, rfl⟩⟩
  | succ n ih =>
    intro k k' epoch h
    have hp := pass (E := E) (es := epoch) (next := []) h
    unfold Keyhive.rounds
    generalize Keyhive.pass E k epoch [] = a at *
    generalize Keyhive.pass E k' epoch [] = a' at *
    obtain ⟨s, o⟩ := a
    obtain ⟨s', o'⟩ := a'
    obtain ⟨m1, m2⟩ := hp
    dsimp only at m1
    rcases m2 with m2 | ⟨x, x', h1, h2, h3, h4⟩
    · dsimp only at m2
      subst m2
      cases o' with
      | error x => exact ⟨m1, .inr ⟨_, _, rfl, rfl, .inl rfl⟩⟩
      | ok l =>
        cases l with
        | nil =>
          refine ⟨?_, .inr ⟨_, _, rfl, rfl, .inl rfl⟩⟩
          simp only
          rw [m1.alike.pending]
          exact ⟨⟨m1.alike.reg, m1.alike.unlisted, m1.alike.pairs, rfl, m1.alike.dlgs, m1.alike.revs, m1.alike.groups, m1.alike.docs⟩,
            m1.wf, m1.wf'⟩
        | cons e es =>
          simp only
          split
          · exact ⟨⟨⟨m1.alike.reg, m1.alike.unlisted, m1.alike.pairs, rfl, m1.alike.dlgs, m1.alike.revs, m1.alike.groups,
              m1.alike.docs⟩, m1.wf, m1.wf'⟩, .inr ⟨_, _, rfl, rfl, .inl rfl⟩⟩
          · exact ih m1
    · dsimp only at h1 h2
      subst h1 h2
      exact ⟨m1, .inr ⟨_, _, rfl, rfl, .inr ⟨_, _, rfl, rfl, h3, h4⟩⟩⟩

theorem ingest {k k' : Keyhive} (h : Twins k k') (ord : List Event → List Event) (events : List Event) :
    AgreeAll (k.ingest E ord events) (k'.ingest E ord events) := by
  unfold Keyhive.ingest
  rw [h.alike.pending]
  exact rounds h

end Twins

/-! ## Queries -/

theorem listed_alike {k k' : Keyhive} (h : Alike k k') {g g' : Group} (hg : unmark g' = unmark g) : k'.listed g' = k.listed g := by
  unfold Keyhive.listed
  rw [unmark_id hg, transitive_alike h.world _ hg]

theorem fold_alike {β γ δ : Type} {f : β → γ} {F F' : δ → β → δ} (hF : ∀ x b b', f b' = f b → F' x b' = F x b) :
    ∀ {l l' : List β}, l'.map f = l.map f → ∀ x, l'.foldl F' x = l.foldl F x
  | [], [], _, _ => rfl
  | [], _ :: _, h, _ => by simp at h
  | _ :: _, [], h, _ => by simp at h
  | b :: l, b' :: l', h, x => by
    simp only [List.map_cons, List.cons.injEq] at h
    simp only [List.foldl_cons, hF x b b' h.1]
    exact fold_alike hF h.2 _

theorem docsReachable_alike {k k' : Keyhive} (h : Alike k k') (i : Id) : k'.docsReachable i = k.docsReachable i := by
  unfold Keyhive.docsReachable
  refine fold_alike (f := fun d : Doc => { d with group := unmark d.group }) ?_ ?_ []
  · intro x d d' hd
    have hg : unmark d'.group = unmark d.group := congrArg Doc.group hd
    rw [listed_alike h hg, unmark_id hg]
  · have := congrArg (List.map Prod.snd) h.docs
    simpa [AMap.values, List.map_map, Function.comp_def] using this

end Verif.Keyhive
