import Verif.Keyhive.KeptSpec
import Verif.Keyhive.AdvanceLemmas
import Verif.Keyhive.StockLemmas
import Verif.Keyhive.SettleLemmas
import Verif.Keyhive.TakeInLemmas

/-! # Helper lemmas: individuals stay individuals -/

namespace Verif.Keyhive

open Verif.Group Verif.Cgka Verif.BeeKem

variable {E : Env} {Ind J : Id → Prop}

/-- There is a group or document with this id. -/
def Keyhive.Taken (k : Keyhive) (i : Id) : Prop := AMap.get k.groups i ≠ none ∨ AMap.get k.docs i ≠ none

/-- Individuals are not groups, every stored delegation is about a known group or document, and the individuals in `J` are known. -/
structure Roles (Ind J : Id → Prop) (k : Keyhive) : Prop where
  free : ∀ i, Ind i → ¬ k.Taken i
  subj : ∀ x d, AMap.get k.dlgs x = some d → k.Taken d.subject
  reg : ∀ i x, AMap.get k.reg.indies i = some x → x.id = i ∧ Ind i
  pend : ∀ op, .prekey op ∈ k.pending → Ind op.issuer
  here : k.unlisted = false
  known : ∀ i, J i → AMap.get k.reg.indies i ≠ none

theorem Roles.step {k k' : Keyhive} (h : Roles Ind J k) (up : ∀ i, k.Taken i → k'.Taken i) (new : ∀ i, k'.Taken i → k.Taken i ∨ ¬ Ind i)
    (hs : ∀ d, Stored k' (.dlg d) → Stored k (.dlg d) ∨ k'.Taken d.subject)
    (hr : k'.reg.indies = k.reg.indies) (hp : k'.pending = k.pending) (hu : k'.unlisted = k.unlisted) : Roles Ind J k' := by
  refine ⟨fun i hi ht => ?_, fun x d hd => ?_, by rw [hr]; exact h.reg, by rw [hp]; exact h.pend, hu.trans h.here, by rw [hr]; exact h.known⟩
  · rcases new i ht with h1 | h1
    · exact h.free i hi h1
    · exact h1 hi
  · rcases hs d ⟨x, hd⟩ with ⟨y, h1⟩ | h1
    · exact up _ (h.subj y d h1)
    · exact h1

theorem Roles.same {k k' : Keyhive} (h : Roles Ind J k) (ht : ∀ i, k'.Taken i ↔ k.Taken i) (hs : k'.dlgs = k.dlgs)
    (hr : k'.reg = k.reg) (hp : k'.pending = k.pending) (hu : k'.unlisted = k.unlisted) : Roles Ind J k' :=
  h.step (fun i => (ht i).2) (fun i hi => .inl ((ht i).1 hi)) (fun d hd => .inl (by obtain ⟨x, hd⟩ := hd; exact ⟨x, by rw [← hs]; exact hd⟩)) (by rw [hr]) hp hu

theorem taken_groups {k k' : Keyhive} {i : Id} {g : Group} (hi : k.Taken i) (hg : k'.groups = AMap.insert k.groups i g) (hd : k'.docs = k.docs) (j : Id) :
    k'.Taken j ↔ k.Taken j := by
  unfold Keyhive.Taken at *
  rw [hg, hd, AMap.get_insert]
  by_cases hj : j = i
  · subst hj; simp [hi]
  · simp [hj]

theorem taken_docs {k k' : Keyhive} {i : Id} {d : Doc} (hi : k.Taken i) (hg : k'.groups = k.groups) (hd : k'.docs = AMap.insert k.docs i d) (j : Id) :
    k'.Taken j ↔ k.Taken j := by
  unfold Keyhive.Taken at *
  rw [hg, hd, AMap.get_insert]
  by_cases hj : j = i
  · subst hj; simp [hi]
  · simp [hj]

theorem taken_setDoc (k : Keyhive) (i : Id) (d : Doc) (j : Id) : (k.setDoc i d).Taken j ↔ k.Taken j := by
  unfold Keyhive.Taken Keyhive.setDoc
  dsimp only
  rw [get_replace]
  split
  · rename_i h
    obtain ⟨rfl, h⟩ := h
    cases hg : AMap.get k.docs j with
    | none => rw [hg] at h; cases h
    | some x => simp
  · exact Iff.rfl

theorem Roles.setDoc {k : Keyhive} (h : Roles Ind J k) (i : Id) (d : Doc) : Roles Ind J (k.setDoc i d) :=
  h.same (taken_setDoc k i d) rfl rfl rfl rfl

theorem toDlg_stored {k : Keyhive} {s : SDlg} {d : Dlg} (hd : k.toDlg s = .ok d) :
    d.issuer = s.issuer ∧ (s.proof = none ∧ d.subject = s.issuer ∨ ∃ x p, AMap.get k.dlgs x = some p ∧ d.subject = p.subject) := by
  unfold Keyhive.toDlg at hd
  split at hd
  · cases hd
  · rename_i proof hp
    split at hd
    · cases hd
    · split at hd
      · cases hd
      · cases hd
        unfold Keyhive.findProof at hp
        split at hp
        · cases hp
          exact ⟨rfl, .inl ⟨by assumption, rfl⟩⟩
        · split at hp
          · cases hp
          · rename_i p hg
            cases hp
            exact ⟨rfl, .inr ⟨_, p, hg, View.Dlg.subject_proof (d := .link s.issuer s.sig _ s.can p _ s.content) rfl⟩⟩

theorem roles_applyDlg {k : Keyhive} (h : Roles Ind J k) (hI : E.Individuals Ind) {s : SDlg} (hv : E.validDlg s = true) {d : Dlg}
    (hd : k.toDlg s = .ok d) : Roles Ind J (k.applyDlg E d).1 := by
  obtain ⟨hi, hsub⟩ := toDlg_stored hd
  have hst : ∀ {k' : Keyhive} {y : Dlg}, k'.dlgs = (k.storeDlg E d).dlgs → Stored k' (.dlg y) → Stored k (.dlg y) ∨ y = d := by
    rintro k' y he ⟨x, hg⟩
    rw [he] at hg
    simp only [Keyhive.storeDlg, CaMap.insert, AMap.get_insert] at hg
    split at hg
    · cases hg; exact .inr rfl
    · exact .inl ⟨x, hg⟩
  unfold Keyhive.applyDlg
  split
  · rename_i g hg
    split
    · exact h
    · rename_i g' _
      have ht : k.Taken d.subject := .inl (by rw [hg]; simp)
      have hs := taken_groups (k' := { k.storeDlg E d with groups := AMap.insert k.groups d.subject g' }) ht rfl rfl
      refine h.step (fun i => (hs i).2) (fun i hi => .inl ((hs i).1 hi)) (fun y hy => ?_) rfl rfl rfl
      exact (hst rfl hy).imp id (by rintro rfl; exact (hs _).2 ht)
  · rename_i hng
    split
    · rename_i doc hg
      split
      · exact h
      · rename_i g' _
        have ht : k.Taken d.subject := .inr (by rw [hg]; simp)
        have hs := taken_docs (k' := { k.storeDlg E d with docs := AMap.insert k.docs d.subject { doc with group := g' } }) ht rfl rfl
        refine h.step (fun i => (hs i).2) (fun i hi => .inl ((hs i).1 hi)) (fun y hy => ?_) rfl rfl rfl
        exact (hst rfl hy).imp id (by rintro rfl; exact (hs _).2 ht)
    · rename_i hnd
      have hnt : ¬ k.Taken d.subject := by
        rintro (h1 | h1)
        · exact h1 hng
        · exact h1 hnd
      obtain ⟨hp, hsub⟩ : s.proof = none ∧ d.subject = s.issuer := by
        rcases hsub with h1 | ⟨x, p, h1, h2⟩
        · exact h1
        · exact absurd (by rw [h2]; exact h.subj x p h1) hnt
      have hnI := hI s hv hp
      split
      · rename_i i hi'
        exfalso
        unfold Keyhive.individual at hi'
        split at hi'
        · cases hi'
        · exact hnI (by rw [← hsub]; exact (h.reg _ _ hi').2)
      · unfold Keyhive.adopt
        dsimp only
        have hid : (Group.new E.opDigest d).id = s.issuer := hi
        split
        · refine h.step ?_ ?_ ?_ rfl rfl rfl
          · intro j hj
            unfold Keyhive.Taken Keyhive.insertDoc at *
            dsimp only
            rw [AMap.get_insert]
            rcases hj with hj | hj
            · exact .inl hj
            · refine .inr ?_
              split
              · simp
              · exact hj
          · intro j hj
            unfold Keyhive.Taken Keyhive.insertDoc at *
            dsimp only at hj
            rw [AMap.get_insert] at hj
            by_cases hj' : j = s.issuer
            · rw [hj']; exact .inr hnI
            · rw [if_neg (by exact fun he => hj' (he.trans hi))] at hj
              exact .inl hj
          · intro y hy
            refine (hst rfl hy).imp id ?_
            rintro rfl
            refine .inr ?_
            unfold Keyhive.insertDoc
            dsimp only
            rw [AMap.get_insert, if_pos (by exact hsub.trans hi.symm)]
            simp
        · refine h.step ?_ ?_ ?_ rfl rfl rfl
          · intro j hj
            unfold Keyhive.Taken Keyhive.insertGroup at *
            dsimp only
            rw [AMap.get_insert]
            rcases hj with hj | hj
            · refine .inl ?_
              split
              · simp
              · exact hj
            · exact .inr hj
          · intro j hj
            unfold Keyhive.Taken Keyhive.insertGroup at *
            dsimp only at hj
            rw [AMap.get_insert] at hj
            by_cases hj' : j = s.issuer
            · rw [hj']; exact .inr hnI
            · rw [if_neg (by exact fun he => hj' (he.trans hi))] at hj
              exact .inl hj
          · intro y hy
            refine (hst rfl hy).imp id ?_
            rintro rfl
            refine .inl ?_
            unfold Keyhive.insertGroup
            dsimp only
            rw [AMap.get_insert, if_pos (by exact hsub.trans hi.symm)]
            simp

theorem roles_applyRev {k : Keyhive} (h : Roles Ind J k) {r : Rev} (ht : k.Taken r.subject) : Roles Ind J (k.applyRev E r).1 := by
  unfold Keyhive.applyRev
  split
  · split
    · exact h
    · exact h.same (taken_groups ht rfl rfl) rfl rfl rfl rfl
  · rename_i hng
    split
    · split
      · exact h
      · exact h.same (taken_docs ht rfl rfl) rfl rfl rfl rfl
    · rename_i hnd
      exfalso
      rcases ht with h1 | h1
      · exact h1 hng
      · exact h1 hnd

theorem toRev_taken {k : Keyhive} (h : Roles Ind J k) {s : SRev} {r : Rev} (hr : k.toRev s = .ok r) : k.Taken r.subject := by
  unfold Keyhive.toRev at hr
  split at hr
  · cases hr
  · rename_i d hd
    split at hr
    · cases hr
    · rename_i proof _
      cases hr
      have := h.subj _ _ hd
      cases proof <;> exact this

theorem closeDoc_roles {α : Type} {k : Keyhive} (h : Roles Ind J k) (i : Id) (r : Doc × Res α) : Roles Ind J (k.closeDoc i r).1 := h.setDoc i _

theorem roles_receiveCgkaOp {k : Keyhive} (h : Roles Ind J k) (i : Id) (op : SOp) : Roles Ind J (k.receiveCgkaOp E i op).1 := by
  unfold Keyhive.receiveCgkaOp
  repeat' split
  all_goals first
    | exact h
    | exact closeDoc_roles h _ _
    | (unfold Keyhive.mergePublicInvite; split <;> exact closeDoc_roles h _ _)

theorem roles_prekey {k : Keyhive} (h : Roles Ind J k) {op : Prekey.KeyOp} (ho : Ind op.issuer) : Roles Ind J (k.receivePrekeyOp E op).1 := by
  obtain ⟨-, h2, h3⟩ := prekey_indies (E := E) k (fun i x hx => (h.reg i x hx).1) op
  refine ⟨h.free, h.subj, fun i x hx => ⟨h2 i x hx, ?_⟩, h.pend, h.here, ?_⟩
  · by_cases hi : op.issuer = i
    · rw [← hi]; exact ho
    · rw [h3 i hi] at hx
      exact (h.reg i x hx).2
  · intro i hi
    by_cases hne : op.issuer = i
    · unfold Keyhive.receivePrekeyOp
      dsimp only
      subst hne
      have hk := h.known _ hi
      have put : ∀ (x : Prekey.Indie), AMap.get (k.reg.receiveIndie E.hashKey E.validKey x op).1.indies op.issuer ≠ none := by
        intro x
        unfold Prekey.Registry.receiveIndie
        split
        · exact hk
        · dsimp only
          rw [AMap.get_insert]
          split
          · simp
          · exact hk
      unfold Prekey.Registry.receivePrekeyOp
      repeat' split
      all_goals first
        | exact hk
        | exact put _
        | (unfold Prekey.Registry.receiveMembered; repeat' split
           all_goals exact hk)
        | (rename_i hn; exact absurd hn hk)
    · rw [h3 i hne]
      exact h.known i hi

/-- The event does not bring prekeys of other agents. -/
def Event.Fine (Ind : Id → Prop) (e : Event) : Prop := ∀ op, e = .prekey op → Ind op.issuer

theorem roles_receive (hI : E.Individuals Ind) {k : Keyhive} (h : Roles Ind J k) {e : Event} (he : e.Fine Ind) : Roles Ind J (k.receive E e).1 := by
  cases e with
  | prekey op => exact roles_prekey h (he op rfl)
  | cgka i op => exact roles_receiveCgkaOp h i op
  | dlg s =>
    show Roles Ind J (k.receiveDelegation E s).1
    unfold Keyhive.receiveDelegation
    repeat' split
    · exact h
    · exact h
    · exact h
    · rename_i hv _ d hd
      exact roles_applyDlg h hI (by simpa using hv) hd
  | rev s =>
    show Roles Ind J (k.receiveRevocation E s).1
    unfold Keyhive.receiveRevocation
    repeat' split
    · exact h
    · exact h
    · exact h
    · rename_i r hr
      exact roles_applyRev h (toRev_taken h hr)

/-- As `pass_keeps`, for batches of which every event is fine. -/
theorem pass_fine {P : Keyhive → Prop} {Q : Event → Prop} (hP : ∀ k e, Q e → P k → P (k.receive E e).1) : ∀ {es : List Event} {k : Keyhive} {next : List Event},
    (∀ e ∈ es, Q e) → (∀ e ∈ next, Q e) → P k → P (Keyhive.pass E k es next).1 ∧ ∀ r, (Keyhive.pass E k es next).2 = .ok r → ∀ e ∈ r, Q e := by
  intro es
  induction es with
  | nil => intro k next _ hn h; exact ⟨h, fun r hr => by cases hr; exact hn⟩
  | cons e es ih =>
    intro k next hq hn h
    have h1 := hP k e (hq e (by simp)) h
    have hq' : ∀ e ∈ es, Q e := fun x hx => hq x (by simp [hx])
    unfold Keyhive.pass
    split
    · rename_i heq; rw [heq] at h1; exact ih hq' hn h1
    · rename_i heq
      rw [heq] at h1
      repeat' split
      · exact ⟨h1, fun r hr => by cases hr⟩
      · exact ih hq' hn h1
      · refine ih hq' ?_ h1
        intro x hx
        rcases List.mem_append.1 hx with hx | hx
        · exact hn x hx
        · cases List.mem_singleton.1 hx; exact hq _ (by simp)

theorem rounds_fine {P : Keyhive → Prop} {Q : Event → Prop} (hP : ∀ k e, Q e → P k → P (k.receive E e).1)
    (hpend : ∀ k p, (∀ e ∈ p, Q e ∨ e ∈ k.pending) → P k → P { k with pending := p })
    {replayed : List Nat} : ∀ {n : Nat} {k : Keyhive} {epoch : List Event}, (∀ e ∈ epoch, Q e) → P k → P (Keyhive.rounds E replayed n k epoch).1 := by
  intro n
  induction n with
  | zero => intro k epoch _ h; exact h
  | succ n ih =>
    intro k epoch hq h
    have := pass_fine hP (es := epoch) (next := []) hq (by simp) h
    unfold Keyhive.rounds
    split
    · rename_i heq; rw [heq] at this; exact this.1
    · rename_i heq; rw [heq] at this; exact hpend _ _ (fun e he => .inr (List.mem_filter.1 he).1) this.1
    · rename_i heq
      rw [heq] at this
      split
      · exact hpend _ _ (fun e he => .inl (this.2 _ rfl e he)) this.1
      · exact ih (this.2 _ rfl) this.1

theorem mem_of_dedup {events : List Event} {e : Event} (h : e ∈ Keyhive.dedup E events) : e ∈ events := by
  unfold Keyhive.dedup at h
  have key : ∀ (es : List Event) (m : AMap Nat Event), e ∈ AMap.values (es.foldl (fun (m : AMap Nat Event) e => AMap.orInsert m (E.hashEvent e) e) m) →
      e ∈ AMap.values m ∨ e ∈ es := by
    intro es
    induction es with
    | nil => intro m h; exact .inl h
    | cons x es ih =>
      intro m h
      rcases ih _ h with h1 | h1
      · unfold AMap.orInsert at h1
        dsimp only at h1
        split at h1
        · exact .inl h1
        · rcases List.mem_cons.1 h1 with h1 | h1
          · exact .inr (by simp [h1])
          · exact .inl h1
      · exact .inr (by simp [h1])
  simpa [AMap.values] using key events [] h

theorem roles_ingest (hI : E.Individuals Ind) {k : Keyhive} (h : Roles Ind J k) {ord : List Event → List Event} (hord : ∀ l, (ord l).Perm l)
    {events : List Event} (he : ∀ op, .prekey op ∈ events → Ind op.issuer) : Roles Ind J (k.ingest E ord events).1 := by
  refine rounds_fine (P := Roles Ind J) (Q := Event.Fine Ind) (fun k e hq h => roles_receive hI h hq) ?_ ?_ h
  · intro k p hp h
    refine ⟨h.free, h.subj, h.reg, fun op ho => ?_, h.here, h.known⟩
    rcases hp _ ho with h1 | h1
    · exact h1 op rfl
    · exact h.pend op h1
  · intro e hm op he'
    subst he'
    have := mem_of_dedup ((hord _).mem_iff.1 hm)
    rcases List.mem_append.1 this with h1 | h1
    · exact he op h1
    · exact h.pend op h1

theorem storeAll_pending (revs : List Rev) (dlgs : List Dlg) (k : Keyhive) : (k.storeAll E revs dlgs).pending = k.pending ∧
    (k.storeAll E revs dlgs).unlisted = k.unlisted := by
  have h1 : ∀ (l : List Rev) (k : Keyhive), (l.foldl (Keyhive.storeRev E) k).pending = k.pending ∧ (l.foldl (Keyhive.storeRev E) k).unlisted = k.unlisted := by
    intro l; induction l with
    | nil => intro k; exact ⟨rfl, rfl⟩
    | cons r l ih => intro k; exact ih _
  have h2 : ∀ (l : List Dlg) (k : Keyhive), (l.foldl (Keyhive.storeDlg E) k).pending = k.pending ∧ (l.foldl (Keyhive.storeDlg E) k).unlisted = k.unlisted := by
    intro l; induction l with
    | nil => intro k; exact ⟨rfl, rfl⟩
    | cons r l ih => intro k; exact ih _
  exact ⟨(h2 dlgs _).1.trans (h1 revs k).1, (h2 dlgs _).2.trans (h1 revs k).2⟩

theorem generate_free (hI : E.Individuals Ind) {S : Op → Option Nat} (hS : Signs E S) {id : Id} {a : Agent} {parents : List Agent} {content : Content} {g : Group}
    (h : Group.generate E.opDigest S id (a :: parents) content = .ok g) :
    ¬ Ind g.id ∧ ∀ d ∈ AMap.values g.dlgHeads, d.subject = g.id := by
  have hv := generate_valid hS h
  obtain ⟨heads, rfl, h1, h2, h3⟩ := generate_ok h
  have hs : ∀ d ∈ AMap.values heads, ∃ a s, d = .mk id s a .admin none [] content := by
    intro d hd
    obtain ⟨p, hp, rfl⟩ := List.mem_map.1 hd
    obtain ⟨-, a, _, s, h4⟩ := h3 _ _ (AMap.get_of_mem h1 hp)
    exact ⟨a, s, h4⟩
  refine ⟨?_, ?_⟩
  · cases heads with
    | nil => exact absurd rfl (h2 (by simp))
    | cons p ps =>
      obtain ⟨a, s, he⟩ := hs p.2 (by simp [AMap.values])
      have := hv p.2 (by simp [AMap.values, Group.rebuild])
      rw [he] at this
      exact hI _ this rfl
  · intro d hd
    obtain ⟨a, s, rfl⟩ := hs d hd
    rfl

theorem roles_newGroup (hI : E.Individuals Ind) {k : Keyhive} (h : Roles Ind J k) {S : Op → Option Nat} (hS : Signs E S) (gid : Id) (co : List Agent) :
    Roles Ind J (k.generateGroup E S gid co).1 := by
  unfold Keyhive.generateGroup
  split
  · exact h
  · rename_i g hg
    obtain ⟨h1, h2⟩ := generate_free hI hS hg
    have e : (AMap.values g.dlgHeads).foldl (Keyhive.storeDlg E) k = k.storeAll E [] (AMap.values g.dlgHeads) := rfl
    have hs := storeAll_same (E := E) [] (AMap.values g.dlgHeads) k
    rw [e]
    refine h.step ?_ ?_ ?_ (by unfold Keyhive.insertGroup; dsimp only; rw [hs.2.2]) (storeAll_pending ..).1 (storeAll_pending ..).2
    · intro j hj
      unfold Keyhive.Taken Keyhive.insertGroup at *
      dsimp only
      rw [AMap.get_insert, hs.1, hs.2.1]
      refine hj.imp (fun hj => ?_) id
      split
      · simp
      · exact hj
    · intro j hj
      unfold Keyhive.Taken Keyhive.insertGroup at *
      dsimp only at hj
      rw [AMap.get_insert, hs.1, hs.2.1] at hj
      by_cases hj' : j = g.id
      · rw [hj']; exact .inr h1
      · rw [if_neg hj'] at hj; exact .inl hj
    · intro d hd
      refine ((storeAll_facts (E := E) [] (AMap.values g.dlgHeads) k).2.2.2.2 (.dlg d) hd).imp id (fun hd => ?_)
      simp only [listed, List.map_nil, List.nil_append, List.mem_map] at hd
      obtain ⟨x, hx, he⟩ := hd
      cases he
      rw [h2 d hx]
      refine .inl ?_
      unfold Keyhive.insertGroup
      dsimp only
      rw [AMap.get_insert, if_pos rfl]
      simp

theorem roles_newDoc (hI : E.Individuals Ind) {k : Keyhive} (h : Roles Ind J k) (L : Local) {S : Op → Option Nat} (hS : Signs E S) (did : Id) (co : List Agent)
    (heads : List Nat) (hok : ∃ i, (k.generateDoc E L S did co heads).2 = .ok i) : Roles Ind J (k.generateDoc E L S did co heads).1 := by
  unfold Keyhive.generateDoc at *
  split
  · exact h
  · rename_i g hg
    rw [hg] at hok
    dsimp only at hok
    obtain ⟨h1, h2⟩ := generate_free hI hS hg
    have e : (AMap.values g.dlgHeads).foldl (Keyhive.storeDlg E) k = k.storeAll E [] (AMap.values g.dlgHeads) := rfl
    have hs := storeAll_same (E := E) [] (AMap.values g.dlgHeads) k
    rw [e] at hok ⊢
    dsimp only
    obtain ⟨i, hok⟩ := hok
    split at hok
    · cases hok
    · split at hok
      · cases hok
      · split at hok
        · cases hok
        · rename_i hm _ _ hp _ c hc
          simp only [hm, hp, hc]
          refine h.step ?_ ?_ ?_ (by unfold Keyhive.insertDoc; dsimp only; rw [hs.2.2]) (storeAll_pending ..).1 (storeAll_pending ..).2
          · intro j hj
            unfold Keyhive.Taken Keyhive.insertDoc at *
            dsimp only
            rw [AMap.get_insert, hs.1, hs.2.1]
            refine hj.imp id (fun hj => ?_)
            split
            · simp
            · exact hj
          · intro j hj
            unfold Keyhive.Taken Keyhive.insertDoc at *
            dsimp only at hj
            rw [AMap.get_insert, hs.1, hs.2.1] at hj
            by_cases hj' : j = g.id
            · rw [hj']; exact .inr h1
            · rw [if_neg (by exact hj')] at hj; exact .inl hj
          · intro d hd
            refine ((storeAll_facts (E := E) [] (AMap.values g.dlgHeads) k).2.2.2.2 (.dlg d) hd).imp id (fun hd => ?_)
            simp only [listed, List.map_nil, List.nil_append, List.mem_map] at hd
            obtain ⟨x, hx, he⟩ := hd
            cases he
            rw [h2 d hx]
            refine .inr ?_
            unfold Keyhive.insertDoc
            dsimp only
            rw [AMap.get_insert, if_pos rfl]
            simp

/-- Storing operations about a known group. -/
theorem Roles.more {k k' : Keyhive} (h : Roles Ind J k) {revs : List Rev} {dlgs : List Dlg} (ht : ∀ i, k'.Taken i ↔ k.Taken i)
    (hs : ∀ o ∈ listed revs dlgs, k.Taken o.subject) (hd : k'.dlgs = (k.storeAll E revs dlgs).dlgs) (hr : k'.reg = k.reg)
    (hp : k'.pending = k.pending) (hu : k'.unlisted = k.unlisted) : Roles Ind J k' := by
  refine h.step (fun i => (ht i).2) (fun i hi => .inl ((ht i).1 hi)) (fun d hd' => ?_) (by rw [hr]) hp hu
  obtain ⟨x, hx⟩ := hd'
  rw [hd] at hx
  refine ((storeAll_facts (E := E) revs dlgs k).2.2.2.2 (.dlg d) ⟨x, hx⟩).imp id (fun h1 => (ht _).2 (hs (.dlg d) h1))

theorem addMember_subject {S : Op → Option Nat} {N : Nested} {who : Agent} {can : Access} {signer : Id}
    {content : Content} {g g' : Group} {d : Dlg} (ha : g.addMember E.opDigest N S who can signer content = .ok (g', d)) : d.subject = g.id := by
  obtain ⟨_, _, _, _, _, h⟩ := addMember_ok ha
  exact backed_subject (receive_iff.1 ⟨_, h⟩)

theorem roles_addToDoc {k : Keyhive} (h : Roles Ind J k) (hk : Kept E k) (L : Local) (did : Id) (who : Agent) (can : Access)
    (content : Content) : Roles Ind J (k.addMemberToDoc E L did who can content).1 := by
  unfold Keyhive.addMemberToDoc
  split
  · exact h
  · rename_i doc hd
    split
    · exact h
    · rename_i g' d hg
      have h1 : Roles Ind J ((k.storeDlg E d).setDoc did { doc with group := g' }) := by
        refine h.more (E := E) (revs := []) (dlgs := [d]) (taken_setDoc (k.storeDlg E d) did { doc with group := g' }) ?_ rfl rfl rfl rfl
        intro o ho
        simp only [listed, List.map_nil, List.nil_append, List.map_cons, List.mem_singleton] at ho
        subst ho
        show k.Taken d.subject
        rw [addMember_subject hg, (hk.docs hd).1]
        exact .inr (by rw [hd]; simp)
      simp only
      repeat' split
      all_goals first | exact h1 | exact h1.setDoc _ _

theorem roles_propagateAdd {k : Keyhive} (h : Roles Ind J k) (L : Local) (gid : Id) (who : Agent) (did : Id) :
    Roles Ind J (k.propagateAdd E L gid who did).1 := by
  unfold Keyhive.propagateAdd
  repeat' split
  all_goals first | exact h | exact h.setDoc _ _

theorem roles_propagateAdds {L : Local} {gid : Id} {who : Agent} : ∀ {dids : List Id} {k : Keyhive} {acc : List SOp},
    Roles Ind J k → Roles Ind J (Keyhive.propagateAdds E L gid who k dids acc).1 := by
  intro dids
  induction dids with
  | nil => intro k acc h; exact h
  | cons did dids ih =>
    intro k acc h
    have h1 := roles_propagateAdd (E := E) h L gid who did
    unfold Keyhive.propagateAdds
    split
    · rename_i heq; rw [heq] at h1; exact h1
    · rename_i heq; rw [heq] at h1; exact ih h1

theorem roles_addToGroup {k : Keyhive} (h : Roles Ind J k) (hk : Kept E k) (L : Local) (gid : Id) (who : Agent) (can : Access)
    (content : Content) : Roles Ind J (k.addMemberToGroup E L gid who can content).1 := by
  unfold Keyhive.addMemberToGroup
  split
  · exact h
  · rename_i g hg0
    split
    · exact h
    · rename_i g' d hg
      have ht : k.Taken gid := .inl (by rw [hg0]; simp)
      have h1 : Roles Ind J { k.storeDlg E d with groups := AMap.insert k.groups gid g' } := by
        refine h.more (E := E) (revs := []) (dlgs := [d]) (taken_groups ht rfl rfl) ?_ rfl rfl rfl rfl
        intro o ho
        simp only [listed, List.map_nil, List.nil_append, List.map_cons, List.mem_singleton] at ho
        subst ho
        show k.Taken d.subject
        rw [addMember_subject hg, (hk.groups hg0).1]
        exact ht
      simp only
      split
      · have h2 := roles_propagateAdds (E := E) (L := L) (gid := gid) (who := d.delegate)
          (dids := AMap.keys ({ k.storeDlg E d with groups := AMap.insert k.groups gid g' } : Keyhive).docs) (acc := []) h1
        split
        · rename_i heq; rw [heq] at h2; exact h2
        · rename_i heq; rw [heq] at h2; exact h2
      · exact h1

theorem revoke_subjects {S : Op → Option Nat} {N : Nested} {i : Id} {g g' : Group} (hg : Good E i g) {member : Id} {retain : Bool} {signer : Id}
    {content : Content} {res : Except Group.Err (List Rev × List Dlg)} (hr : g.revokeMember E.opDigest N S member retain signer content = (g', res)) :
    (∀ revs dlgs, res = .ok (revs, dlgs) → ∀ o ∈ listed revs dlgs, o.subject = i) ∧
    ∀ o ∈ listed ((g.newOps g').filterMap Op.rev?) ((g.newOps g').filterMap Op.dlg?), o.subject = i := by
  obtain ⟨l, h1, h2⟩ := revokeMember_issued (N := N) (S := S) (V := fun _ => True)
    ⟨fun _ _ _ _ _ _ _ _ => trivial, fun _ _ _ _ _ _ => trivial⟩ hg.2.1 hg.2.2 member retain signer content
  obtain ⟨l0, hrun⟩ := revokeMember_run (H := E.opDigest) (N := N) (S := S) g member retain signer content
  rw [hr] at h1 h2 hrun
  have hid : g'.id = i := (hg.run hrun).1
  refine ⟨fun revs dlgs he o ho => ?_, fun o ho => ?_⟩
  · have := h2 revs dlgs he
    subst this
    rw [← hid]; exact h1.track.own o ho
  · obtain ⟨p1, p2⟩ := mem_listed_new.1 ho
    rcases h1.track.held o p1 with h3 | h3
    · exact absurd h3 p2
    · rw [← hid]; exact h1.track.own o h3

theorem roles_propagateRemoves {L : Local} {gid : Id} {ids : List Id} : ∀ {dids : List Id} {k : Keyhive} {acc : List SOp},
    Roles Ind J k → Roles Ind J (Keyhive.propagateRemoves E L gid ids k dids acc).1 := by
  intro dids
  induction dids with
  | nil => intro k acc h; exact h
  | cons did dids ih =>
    intro k acc h
    have h1 : Roles Ind J (k.propagateRemove E L gid ids did).1 := by
      unfold Keyhive.propagateRemove
      repeat' split
      all_goals first | exact h | exact h.setDoc _ _
    unfold Keyhive.propagateRemoves
    split
    · rename_i heq; rw [heq] at h1; exact h1
    · rename_i heq; rw [heq] at h1; exact ih h1

theorem roles_revokeFromGroup {k : Keyhive} (h : Roles Ind J k) (hk : Kept E k) (L : Local) (gid member : Id) (retain : Bool)
    (content : Content) : Roles Ind J (k.revokeFromGroup E L gid member retain content).1 := by
  unfold Keyhive.revokeFromGroup
  split
  · exact h
  · rename_i g hg0
    have ht : k.Taken gid := .inl (by rw [hg0]; simp)
    split
    · exact h
    · split
      · rename_i g' e heq
        have hs := storeNew_same (E := E) g g' k
        refine h.more (E := E) (taken_groups ht rfl hs.2.1) (fun o ho => ?_) rfl hs.2.2 (storeAll_pending ..).1 (storeAll_pending ..).2
        rw [(revoke_subjects (hk.groups hg0) heq).2 o ho]
        exact ht
      · rename_i g' revs dlgs heq
        have hs := storeAll_same (E := E) revs dlgs k
        have h3 : Roles Ind J { k.storeAll E revs dlgs with groups := AMap.insert k.groups gid g' } := by
          refine h.more (E := E) (taken_groups ht rfl hs.2.1) (fun o ho => ?_) rfl hs.2.2 (storeAll_pending ..).1 (storeAll_pending ..).2
          rw [(revoke_subjects (hk.groups hg0) heq).1 _ _ rfl o ho]
          exact ht
        simp only
        split
        · exact h3
        · exact roles_propagateRemoves h3

theorem roles_revokeFromDoc {k : Keyhive} (h : Roles Ind J k) (hk : Kept E k) (L : Local) (did member : Id) (retain : Bool)
    (content : Content) : Roles Ind J (k.revokeFromDoc E L did member retain content).1 := by
  unfold Keyhive.revokeFromDoc
  split
  · exact h
  · rename_i doc hd
    have ht : k.Taken did := .inr (by rw [hd]; simp)
    have same : ∀ {k' : Keyhive}, k'.groups = k.groups → k'.docs = k.docs → ∀ d i, (k'.setDoc did d).Taken i ↔ k.Taken i := by
      intro k' h1 h2 d i
      rw [taken_setDoc]
      unfold Keyhive.Taken
      rw [h1, h2]
    split
    · exact h
    · split
      · rename_i g' e heq
        have hs := storeNew_same (E := E) doc.group g' k
        refine h.more (E := E) (same hs.1 hs.2.1 _) (fun o ho => ?_) rfl hs.2.2 (storeAll_pending ..).1 (storeAll_pending ..).2
        rw [(revoke_subjects (hk.docs hd) heq).2 o ho]
        exact ht
      · rename_i g' revs dlgs heq
        have hs := storeAll_same (E := E) revs dlgs k
        have h1 : Roles Ind J ((k.storeAll E revs dlgs).setDoc did { doc with group := g' }) := by
          refine h.more (E := E) (same hs.1 hs.2.1 _) (fun o ho => ?_) rfl hs.2.2 (storeAll_pending ..).1 (storeAll_pending ..).2
          rw [(revoke_subjects (hk.docs hd) heq).1 _ _ rfl o ho]
          exact ht
        simp only
        repeat' split
        all_goals first | exact h1 | exact h1.setDoc _ _

theorem roles_merge {k : Keyhive} (h : Roles Ind J k) {a : Archive} (ha : Listed Ind a.reg) : Roles Ind J (k.merged a) := by
  have hs := merged_same k a
  have ht : ∀ i, (k.merged a).Taken i ↔ k.Taken i := by
    intro i
    unfold Keyhive.Taken
    rw [hs.groups, hs.docs]
  refine ⟨fun i hi => (ht i).not.2 (h.free i hi), fun x d hd => (ht _).2 (h.subj x d (by rw [← hs.dlgs]; exact hd)), ?_, by rw [hs.pending]; exact h.pend,
    hs.unlisted.trans h.here, fun i hi => ?_⟩
  rotate_left
  · cases hx : AMap.get k.reg.indies i with
    | none => exact absurd hx (h.known i hi)
    | some x =>
      obtain ⟨y, hy, -⟩ := (merged_wider h.here a).1 i x hx
      rw [hy]; simp
  have put : ∀ {m : AMap Id Prekey.Indie} {j : Id} {y : Prekey.Indie}, (∀ i x, AMap.get m i = some x → x.id = i ∧ Ind i) → y.id = j → Ind j →
      ∀ i x, AMap.get (AMap.insert m j y) i = some x → x.id = i ∧ Ind i := by
    intro m j y hm hy hj i x hx
    rw [AMap.get_insert] at hx
    split at hx
    · rename_i e; cases hx; subst e; exact ⟨hy, hj⟩
    · exact hm i x hx
  have hin : ∀ p ∈ a.individuals, p.2.id = p.1 ∧ Ind p.1 := by
    intro p hp
    unfold Archive.individuals at hp
    split at hp
    · exact ha p (List.mem_filter.1 hp).1
    · exact ha p hp
  have h0 : ∀ i x, AMap.get (k.mergeActive a).reg.indies i = some x → x.id = i ∧ Ind i := by
    unfold Keyhive.mergeActive
    dsimp only
    split
    · rename_i mine other hm ho
      obtain ⟨h1, h2⟩ := h.reg _ _ hm
      exact put h.reg h1 h2
    · exact h.reg
  unfold Keyhive.merged
  revert h0 hin
  generalize a.individuals = l
  generalize k.mergeActive a = k0
  clear hs ht h ha
  intro hin
  induction l generalizing k0 with
  | nil => exact id
  | cons p l ih =>
    intro h0
    refine ih _ (fun q hq => hin q (by simp [hq])) ?_
    obtain ⟨h1, h2⟩ := hin p (by simp)
    unfold Keyhive.mergeIndie
    split
    · exact h0
    · split
      · rename_i i hi
        refine put h0 ?_ h2
        unfold Keyhive.individual at hi
        split at hi
        · cases hi
        · exact (h0 _ _ hi).1
      · exact put h0 h1 h2

theorem roles_start {reg : Prekey.Registry} (pairs : ShareKeyMap) (h : Listed Ind reg) : Roles Ind (fun _ => False) (Keyhive.start reg pairs) := by
  refine ⟨?_, ?_, fun i x hx => h _ (AMap.mem_of_get hx), ?_, rfl, fun _ h => h.elim⟩
  · rintro i - (ht | ht) <;> exact ht rfl
  · intro x d hd; cases hd
  · intro op ho; cases ho

theorem roles_contactCard {k : Keyhive} (h : Roles Ind J k) {op : Prekey.KeyOp} (ho : Ind op.issuer) :
    Roles Ind J { k with reg := (k.reg.receiveContactCard E.hashKey E.validKey op).1 } := by
  refine ⟨h.free, h.subj, ?_, h.pend, h.here, ?_⟩
  rotate_left
  · intro i hi
    have hk := h.known i hi
    dsimp only
    unfold Prekey.Registry.receiveContactCard Prekey.Registry.receiveIndie Prekey.Registry.registerIndividual
    repeat' split
    all_goals first
      | exact hk
      | (dsimp only; rw [AMap.get_insert]; split
         · simp
         · exact hk)
  intro i x hx
  dsimp only at hx
  unfold Prekey.Registry.receiveContactCard at hx
  split at hx
  · rename_i y hy
    obtain ⟨h1, h2⟩ := h.reg _ _ hy
    unfold Prekey.Registry.receiveIndie at hx
    split at hx
    · exact h.reg i x hx
    · rename_i z hz
      dsimp only at hx
      rw [AMap.get_insert] at hx
      split at hx
      · rename_i e
        cases hx
        rw [indie_receive_id hz, e, h1]
        exact ⟨rfl, h2⟩
      · exact h.reg i x hx
  · unfold Prekey.Registry.registerIndividual at hx
    dsimp only at hx
    split at hx
    · exact h.reg i x hx
    · rw [AMap.get_insert] at hx
      split at hx
      · rename_i e
        cases hx
        rw [e]
        exact ⟨rfl, ho⟩
      · exact h.reg i x hx

theorem ReachPlain.reach {k : Keyhive} (h : ReachPlain E Ind k) : Reach E k := by
  induction h with
  | start reg pairs => exact .start reg pairs
  | call c _ hc _ ih => exact .call c ih hc

theorem roles_call (hI : E.Individuals Ind) {k : Keyhive} (hkept : Kept E k) (ih : Roles Ind J k) (c : Call) (hc : c.Honest E) (hp : c.Plain E Ind k) :
  Roles Ind J (c.run E k) := by
  cases c with
  | receive e => exact roles_receive hI ih (fun op he => by subst he; exact hp)
  | ingest ord events => exact roles_ingest hI ih hp.1 hp.2
  | contactCard op => exact roles_contactCard ih hp
  | newGroup S gid co => exact roles_newGroup hI ih hc gid co
  | newDoc L S did co heads => exact roles_newDoc hI ih L hc.1 did co heads hp.1
  | addToGroup L gid who can content => exact roles_addToGroup ih hkept L gid who can content
  | addToDoc L did who can content => exact roles_addToDoc ih hkept L did who can content
  | revokeFromGroup L gid member retain content => exact roles_revokeFromGroup ih hkept L gid member retain content
  | revokeFromDoc L did member retain content => exact roles_revokeFromDoc ih hkept L did member retain content
  | ingestArchive ord a =>
    refine roles_ingest hI (roles_merge ih hp.2) hp.1 (fun op ho => ?_)
    obtain ⟨x, _, hx⟩ := List.mem_map.1 ho
    cases x <;> cases hx
  | encrypt L did r ps x =>
    show Roles Ind J (k.encryptContent E L did r ps x).1
    unfold Keyhive.encryptContent
    split
    · exact ih
    · exact ih.setDoc _ _
  | decrypt did e =>
    show Roles Ind J (k.decryptContent E did e).1
    unfold Keyhive.decryptContent
    split
    · exact ih
    · exact ih.setDoc _ _
  | pcsUpdate L did =>
    show Roles Ind J (k.forcePcsUpdate E L did).1
    unfold Keyhive.forcePcsUpdate
    split
    · exact ih
    · exact ih.setDoc _ _

theorem reach_roles (hI : E.Individuals Ind) {k : Keyhive} (h : ReachPlain E Ind k) : Roles Ind (fun _ => False) k := by
  induction h with
  | start reg pairs h => exact roles_start pairs h
  | call c hk hc hp ih => exact roles_call hI (reach_kept hk.reach) ih c hc hp

end Verif.Keyhive
