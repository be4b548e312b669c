import Verif.Keyhive.LocalLemmas

/-! # The stores of a device have everything its groups hold -/

namespace Verif.Keyhive

open Verif.Group Verif.Cgka Verif.BeeKem Relation

variable {E : Env}

/-- Something is stored under the digest of the operation. -/
def Has (E : Env) (k : Keyhive) : Op → Prop
  | .dlg d => AMap.get k.dlgs (E.dlgDigest d) ≠ none
  | .rev r => AMap.get k.revs (E.revDigest r) ≠ none

/-- The operation is in the stores. -/
def Stored (k : Keyhive) : Op → Prop
  | .dlg d => ∃ h, AMap.get k.dlgs h = some d
  | .rev r => ∃ h, AMap.get k.revs h = some r

/-- Everything below the operation is stored. -/
def Deep (E : Env) (k : Keyhive) (o : Op) : Prop := ∀ b, ReflTransGen Dep o b → Has E k b

/-- A group whose operations are stored and whose root delegations are from its own key. -/
def Fit (E : Env) (k : Keyhive) (g : Group) : Prop :=
  (∀ o, g.Holds o → Has E k o) ∧ ∀ d, .dlg d ∈ g.heads → d.proof = none → d.issuer = g.id

structure Stocked (E : Env) (k : Keyhive) : Prop where
  wfd : AMap.WF k.dlgs
  wfr : AMap.WF k.revs
  wfgs : AMap.WF k.groups
  wfds : AMap.WF k.docs
  down : ∀ o, Stored k o → Deep E k o
  groups : ∀ {i g}, AMap.get k.groups i = some g → Fit E k g
  docs : ∀ {i d}, AMap.get k.docs i = some d → Fit E k d.group

theorem Fit.deep {k : Keyhive} {g : Group} (h : Fit E k g) {o : Op} (ho : g.Holds o) : Deep E k o :=
  fun b hb => h.1 b (ho.trans hb)

theorem has_same {k k' : Keyhive} (hd : k'.dlgs = k.dlgs) (hr : k'.revs = k.revs) (o : Op) : Has E k' o ↔ Has E k o := by
  cases o <;> simp [Has, hd, hr]

theorem stored_same {k k' : Keyhive} (hd : k'.dlgs = k.dlgs) (hr : k'.revs = k.revs) (o : Op) : Stored k' o ↔ Stored k o := by
  cases o <;> simp [Stored, hd, hr]

theorem Fit.mono {k k' : Keyhive} {g : Group} (h : Fit E k g) (hs : ∀ o, Has E k o → Has E k' o) : Fit E k' g :=
  ⟨fun o ho => hs o (h.1 o ho), h.2⟩

theorem Stocked.change {k k' : Keyhive} (h : Stocked E k) (hdl : k'.dlgs = k.dlgs) (hrv : k'.revs = k.revs)
    (hwg : AMap.WF k'.groups) (hwd : AMap.WF k'.docs)
    (hg : ∀ {i g}, AMap.get k'.groups i = some g → Fit E k g) (hd : ∀ {i d}, AMap.get k'.docs i = some d → Fit E k d.group) :
    Stocked E k' := by
  refine ⟨by rw [hdl]; exact h.wfd, by rw [hrv]; exact h.wfr, hwg, hwd, ?_, ?_, ?_⟩
  · intro o ho b hb
    exact (has_same hdl hrv b).2 (h.down o ((stored_same hdl hrv o).1 ho) b hb)
  · intro i g hi; exact (hg hi).mono (fun o ho => (has_same hdl hrv o).2 ho)
  · intro i d hi; exact (hd hi).mono (fun o ho => (has_same hdl hrv o).2 ho)

theorem Stocked.same {k k' : Keyhive} (h : Stocked E k) (hdl : k'.dlgs = k.dlgs) (hrv : k'.revs = k.revs)
    (hg : k'.groups = k.groups) (hd : k'.docs = k.docs) : Stocked E k' :=
  h.change hdl hrv (by rw [hg]; exact h.wfgs) (by rw [hd]; exact h.wfds) (fun hi => h.groups (by rw [← hg]; exact hi)) (fun hi => h.docs (by rw [← hd]; exact hi))

theorem Stocked.insertGroup {k k' : Keyhive} (h : Stocked E k) {i : Id} {g : Group} (hi : Fit E k g) (hdl : k'.dlgs = k.dlgs)
    (hrv : k'.revs = k.revs) (hg : k'.groups = AMap.insert k.groups i g) (hd : k'.docs = k.docs) : Stocked E k' := by
  refine h.change hdl hrv (by rw [hg]; exact AMap.wf_insert h.wfgs _ _) (by rw [hd]; exact h.wfds) (fun {j x} hj => ?_) (fun hj => h.docs (by rw [← hd]; exact hj))
  rw [hg, AMap.get_insert] at hj
  split at hj
  · cases hj; exact hi
  · exact h.groups hj

theorem Stocked.insertDoc {k k' : Keyhive} (h : Stocked E k) {i : Id} {d : Doc} (hi : Fit E k d.group) (hdl : k'.dlgs = k.dlgs)
    (hrv : k'.revs = k.revs) (hg : k'.groups = k.groups) (hd : k'.docs = AMap.insert k.docs i d) : Stocked E k' := by
  refine h.change hdl hrv (by rw [hg]; exact h.wfgs) (by rw [hd]; exact AMap.wf_insert h.wfds _ _) (fun hj => h.groups (by rw [← hg]; exact hj)) (fun {j x} hj => ?_)
  rw [hd, AMap.get_insert] at hj
  split at hj
  · cases hj; exact hi
  · exact h.docs hj

theorem keys_replace (i : Id) (d : Doc) : ∀ m : AMap Id Doc, AMap.keys (Keyhive.replace i d m) = AMap.keys m
  | [] => rfl
  | p :: m => by
    unfold Keyhive.replace
    split
    · rfl
    · simp only [AMap.keys, List.map_cons]
      exact congrArg _ (keys_replace i d m)

theorem wf_replace {i : Id} {d : Doc} {m : AMap Id Doc} (h : AMap.WF m) : AMap.WF (Keyhive.replace i d m) := by
  unfold AMap.WF at h ⊢
  rw [keys_replace]
  exact h

theorem Stocked.setDoc {k k' : Keyhive} (h : Stocked E k) {i : Id} {d : Doc} (hi : Fit E k d.group) (hdl : k'.dlgs = k.dlgs)
    (hrv : k'.revs = k.revs) (hg : k'.groups = k.groups) (hd : k'.docs = Keyhive.replace i d k.docs) : Stocked E k' := by
  refine h.change hdl hrv (by rw [hg]; exact h.wfgs) (by rw [hd]; exact wf_replace h.wfds) (fun hj => h.groups (by rw [← hg]; exact hj)) (fun {j x} hj => ?_)
  rw [hd, get_replace] at hj
  split at hj
  · cases hj; exact hi
  · exact h.docs hj

/-! ## Storing operations -/

theorem storeDlgs_facts : ∀ (ds : List Dlg) (k : Keyhive), (AMap.WF k.dlgs → AMap.WF (ds.foldl (Keyhive.storeDlg E) k).dlgs) ∧
    (ds.foldl (Keyhive.storeDlg E) k).revs = k.revs ∧
    (∀ o, Has E k o → Has E (ds.foldl (Keyhive.storeDlg E) k) o) ∧ (∀ d ∈ ds, Has E (ds.foldl (Keyhive.storeDlg E) k) (.dlg d)) ∧
    ∀ o, Stored (ds.foldl (Keyhive.storeDlg E) k) o → Stored k o ∨ ∃ d ∈ ds, o = .dlg d
  | [], k => ⟨id, rfl, fun _ h => h, by simp, fun o h => .inl h⟩
  | d :: ds, k => by
    obtain ⟨h1, h2, h3, h4, h5⟩ := storeDlgs_facts ds (k.storeDlg E d)
    have hm : ∀ o, Has E k o → Has E (k.storeDlg E d) o := by
      intro o ho
      cases o with
      | dlg x =>
        simp only [Has, Keyhive.storeDlg, CaMap.insert, AMap.get_insert] at ho ⊢
        split
        · simp
        · exact ho
      | rev x => exact ho
    refine ⟨fun hw => h1 (AMap.wf_insert hw _ _), h2, fun o ho => h3 o (hm o ho), ?_, ?_⟩
    · intro x hx
      rcases List.mem_cons.1 hx with rfl | hx
      · exact h3 _ (by simp [Has, Keyhive.storeDlg, CaMap.insert])
      · exact h4 x hx
    · intro o ho
      rcases h5 o ho with h | ⟨x, hx, rfl⟩
      · cases o with
        | dlg x =>
          obtain ⟨y, hy⟩ := h
          simp only [Keyhive.storeDlg, CaMap.insert, AMap.get_insert] at hy
          split at hy
          · cases hy; exact .inr ⟨d, by simp, rfl⟩
          · exact .inl ⟨y, hy⟩
        | rev x => exact .inl h
      · exact .inr ⟨x, by simp [hx], rfl⟩

theorem storeRevs_facts : ∀ (rs : List Rev) (k : Keyhive), (AMap.WF k.revs → AMap.WF (rs.foldl (Keyhive.storeRev E) k).revs) ∧
    (rs.foldl (Keyhive.storeRev E) k).dlgs = k.dlgs ∧
    (∀ o, Has E k o → Has E (rs.foldl (Keyhive.storeRev E) k) o) ∧ (∀ r ∈ rs, Has E (rs.foldl (Keyhive.storeRev E) k) (.rev r)) ∧
    ∀ o, Stored (rs.foldl (Keyhive.storeRev E) k) o → Stored k o ∨ ∃ r ∈ rs, o = .rev r
  | [], k => ⟨id, rfl, fun _ h => h, by simp, fun o h => .inl h⟩
  | d :: ds, k => by
    obtain ⟨h1, h2, h3, h4, h5⟩ := storeRevs_facts ds (k.storeRev E d)
    have hm : ∀ o, Has E k o → Has E (k.storeRev E d) o := by
      intro o ho
      cases o with
      | rev x =>
        simp only [Has, Keyhive.storeRev, CaMap.insert, AMap.get_insert] at ho ⊢
        split
        · simp
        · exact ho
      | dlg x => exact ho
    refine ⟨fun hw => h1 (AMap.wf_insert hw _ _), h2, fun o ho => h3 o (hm o ho), ?_, ?_⟩
    · intro x hx
      rcases List.mem_cons.1 hx with rfl | hx
      · exact h3 _ (by simp [Has, Keyhive.storeRev, CaMap.insert])
      · exact h4 x hx
    · intro o ho
      rcases h5 o ho with h | ⟨x, hx, rfl⟩
      · cases o with
        | rev x =>
          obtain ⟨y, hy⟩ := h
          simp only [Keyhive.storeRev, CaMap.insert, AMap.get_insert] at hy
          split at hy
          · cases hy; exact .inr ⟨d, by simp, rfl⟩
          · exact .inl ⟨y, hy⟩
        | dlg x => exact .inl h
      · exact .inr ⟨x, by simp [hx], rfl⟩

/-- The operations stored by `storeAll`. -/
def listed (revs : List Rev) (dlgs : List Dlg) : List Op := revs.map Op.rev ++ dlgs.map Op.dlg

theorem storeAll_facts (revs : List Rev) (dlgs : List Dlg) (k : Keyhive) :
    (AMap.WF k.dlgs → AMap.WF (k.storeAll E revs dlgs).dlgs) ∧ (AMap.WF k.revs → AMap.WF (k.storeAll E revs dlgs).revs) ∧
    (∀ o, Has E k o → Has E (k.storeAll E revs dlgs) o) ∧ (∀ o ∈ listed revs dlgs, Has E (k.storeAll E revs dlgs) o) ∧
    ∀ o, Stored (k.storeAll E revs dlgs) o → Stored k o ∨ o ∈ listed revs dlgs := by
  obtain ⟨a1, a2, a3, a4, a5⟩ := storeRevs_facts (E := E) revs k
  obtain ⟨b1, b2, b3, b4, b5⟩ := storeDlgs_facts (E := E) dlgs (revs.foldl (Keyhive.storeRev E) k)
  refine ⟨fun h => b1 (by rw [a2]; exact h), fun h => ?_, fun o h => b3 o (a3 o h), ?_, ?_⟩
  · show AMap.WF (dlgs.foldl (Keyhive.storeDlg E) (revs.foldl (Keyhive.storeRev E) k)).revs
    rw [b2]; exact a1 h
  · intro o ho
    rcases List.mem_append.1 ho with h | h
    · obtain ⟨r, hr, rfl⟩ := List.mem_map.1 h; exact b3 _ (a4 r hr)
    · obtain ⟨d, hd, rfl⟩ := List.mem_map.1 h; exact b4 d hd
  · intro o ho
    rcases b5 o ho with h | ⟨d, hd, rfl⟩
    · rcases a5 o h with h | ⟨r, hr, rfl⟩
      · exact .inl h
      · exact .inr (List.mem_append_left _ (List.mem_map.2 ⟨r, hr, rfl⟩))
    · exact .inr (List.mem_append_right _ (List.mem_map.2 ⟨d, hd, rfl⟩))

theorem storeAll_has {revs : List Rev} {dlgs : List Dlg} {k : Keyhive} {o : Op} (h : Deep E k o ∨ o ∈ listed revs dlgs) :
    Has E (k.storeAll E revs dlgs) o := by
  obtain ⟨-, -, s3, s4, -⟩ := storeAll_facts (E := E) revs dlgs k
  rcases h with h | h
  · exact s3 o (h o .refl)
  · exact s4 o h

theorem Stocked.storeAll {k : Keyhive} (h : Stocked E k) {revs : List Rev} {dlgs : List Dlg}
    (hd : ∀ o ∈ listed revs dlgs, ∀ b, Dep o b → Deep E k b ∨ b ∈ listed revs dlgs) : Stocked E (k.storeAll E revs dlgs) := by
  obtain ⟨s1, s2, s3, s4, s5⟩ := storeAll_facts (E := E) revs dlgs k
  obtain ⟨g1, g2, -⟩ := storeAll_same (E := E) revs dlgs k
  refine ⟨s1 h.wfd, s2 h.wfr, by rw [g1]; exact h.wfgs, by rw [g2]; exact h.wfds, ?_, ?_, ?_⟩
  · intro o ho b hb
    have key : Deep E k b ∨ b ∈ listed revs dlgs := by
      induction hb with
      | refl =>
        rcases s5 o ho with h1 | h1
        · exact .inl (h.down o h1)
        · exact .inr h1
      | tail _ hdep ih =>
        rcases ih with h1 | h1
        · exact .inl (fun c hc => h1 c (.head hdep hc))
        · exact hd _ h1 _ hdep
    exact storeAll_has key
  · intro i g hi; rw [g1] at hi; exact (h.groups hi).mono s3
  · intro i d hi; rw [g2] at hi; exact (h.docs hi).mono s3

/-! ## What groups hold after calls -/

theorem roots_run {g g' : Group} {l : List Op} (hg : HeadsOk E.opDigest g) (hb : Rebuilt E.opDigest g) (hr : Run E.opDigest g l g')
    (h : ∀ d, .dlg d ∈ g.heads → d.proof = none → d.issuer = g.id) : ∀ d, .dlg d ∈ g'.heads → d.proof = none → d.issuer = g'.id := by
  induction hr with
  | nil => exact h
  | snoc hr ha ih =>
    obtain ⟨h1, -, -⟩ := Run.good hg hb hr
    obtain ⟨-, -, h3⟩ := accepts_step ha h1
    intro d hd hp
    rw [h3]
    rcases heads_sub h1 ha hd with h4 | rfl
    · exact ih d h4 hp
    · cases ha with
      | dlg N hok => exact (receiveDelegation_ok hok).2.1 hp

/-- A group that accepted an operation put together from stored ones. -/
theorem Fit.accept {k : Keyhive} {i : Id} {g g' : Group} (h : Fit E k g) (hg : Good E i g) {o : Op} (ha : Accepts E.opDigest g o g')
    (ho : Deep E k o) : Fit E k g' := by
  refine ⟨fun x hx => ?_, roots_run hg.2.1 hg.2.2 (Run.one ha) h.2⟩
  rcases holds_sub hg.2.1 ha hx with h1 | h1 | ⟨b, h1, y, hy, hr⟩
  · exact h.1 x h1
  · rw [h1]; exact ho o .refl
  · rw [List.mem_singleton] at hy
    subst hy
    exact ho x (.head h1 hr)

/-- A new operation on top of stored ones. -/
theorem deep_of_deps {k k' : Keyhive} (hs : ∀ o, Has E k o → Has E k' o) {o : Op} (ho : Has E k' o) (hd : ∀ b, Dep o b → Deep E k b) :
    Deep E k' o := by
  intro b hb
  rcases ReflTransGen.cases_head hb with rfl | ⟨c, h1, h2⟩
  · exact ho
  · exact hs _ (hd c h1 b h2)

theorem storeDlg_all (k : Keyhive) (d : Dlg) : k.storeDlg E d = k.storeAll E [] [d] := rfl
theorem storeRev_all (k : Keyhive) (r : Rev) : k.storeRev E r = k.storeAll E [r] [] := rfl

theorem Stocked.storeDlg {k : Keyhive} (h : Stocked E k) {d : Dlg} (hd : ∀ b, Dep (.dlg d) b → Deep E k b) :
    Stocked E (k.storeDlg E d) ∧ Deep E (k.storeDlg E d) (.dlg d) := by
  rw [storeDlg_all]
  refine ⟨h.storeAll ?_, deep_of_deps (storeAll_facts [] [d] k).2.2.1 (storeAll_has (.inr (by simp [listed]))) hd⟩
  intro o ho b hb
  simp only [listed, List.map_nil, List.nil_append, List.map_cons, List.mem_singleton] at ho
  subst ho
  exact .inl (hd b hb)

theorem Stocked.storeRev {k : Keyhive} (h : Stocked E k) {r : Rev} (hd : ∀ b, Dep (.rev r) b → Deep E k b) :
    Stocked E (k.storeRev E r) ∧ Deep E (k.storeRev E r) (.rev r) := by
  rw [storeRev_all]
  refine ⟨h.storeAll ?_, deep_of_deps (storeAll_facts [r] [] k).2.2.1 (storeAll_has (.inr (by simp [listed]))) hd⟩
  intro o ho b hb
  simp only [listed, List.map_nil, List.append_nil, List.map_cons, List.mem_singleton] at ho
  subst ho
  exact .inl (hd b hb)

theorem fit_storeDlg {k : Keyhive} {g : Group} (h : Fit E k g) (d : Dlg) : Fit E (k.storeDlg E d) g := by
  rw [storeDlg_all]; exact h.mono (storeAll_facts [] [d] k).2.2.1

theorem fit_storeRev {k : Keyhive} {g : Group} (h : Fit E k g) (r : Rev) : Fit E (k.storeRev E r) g := by
  rw [storeRev_all]; exact h.mono (storeAll_facts [r] [] k).2.2.1

theorem fit_new {k : Keyhive} {d : Dlg} (hd : Deep E k (.dlg d)) : Fit E k (Group.new E.opDigest d) := by
  refine ⟨?_, ?_⟩
  · rintro o ⟨x, hx, hr⟩
    rw [(new_ok d).2.1, List.mem_singleton] at hx
    subst hx
    exact hd o hr
  · intro x hx hp
    rw [(new_ok d).2.1, List.mem_singleton] at hx
    cases hx
    rfl

/-! ## Receiving -/

theorem toDlg_deps {k : Keyhive} (h : Stocked E k) {s : SDlg} {d : Dlg} (hd : k.toDlg s = .ok d) : ∀ b, Dep (.dlg d) b → Deep E k b := by
  unfold Keyhive.toDlg at hd
  split at hd
  · cases hd
  · rename_i p hp
    split at hd
    · cases hd
    · split at hd
      · cases hd
      · rename_i rs hr
        cases hd
        intro b hb
        rcases mem_after_dlg.1 hb with ⟨q, hq, rfl⟩ | ⟨r, hr', rfl⟩
        · have : p = some q := by cases p <;> simpa [Dlg.mk, Dlg.proof] using hq
          subst this
          unfold Keyhive.findProof at hp
          split at hp
          · cases hp
          · split at hp
            · cases hp
            · rename_i x hx
              cases hp
              exact h.down _ ⟨_, hx⟩
        · have : r ∈ rs := by cases p <;> simpa [Dlg.mk, Dlg.after] using hr'
          have key : ∀ (hs : List Nat) (rs : List Rev), k.findRevs hs = .ok rs → ∀ r ∈ rs, Stored k (.rev r) := by
            intro hs
            induction hs with
            | nil => intro rs hr; cases hr; simp
            | cons x xs ih =>
              intro rs hr
              unfold Keyhive.findRevs at hr
              split at hr
              · cases hr
              · rename_i y hy
                split at hr
                · cases hr
                · rename_i l hl
                  cases hr
                  intro r hr
                  rcases List.mem_cons.1 hr with rfl | hr
                  · exact ⟨_, hy⟩
                  · exact ih l hl r hr
          exact h.down _ (key _ _ hr r this)

theorem toRev_deps {k : Keyhive} (h : Stocked E k) {s : SRev} {r : Rev} (hd : k.toRev s = .ok r) : ∀ b, Dep (.rev r) b → Deep E k b := by
  unfold Keyhive.toRev at hd
  split at hd
  · cases hd
  · rename_i d hg
    split at hd
    · cases hd
    · rename_i p hp
      cases hd
      intro b hb
      rcases rev_mk_deps hb with rfl | ⟨q, hq, rfl⟩
      · exact h.down _ ⟨_, hg⟩
      · subst hq
        unfold Keyhive.findProof at hp
        split at hp
        · cases hp
        · split at hp
          · cases hp
          · rename_i x hx
            cases hp
            exact h.down _ ⟨_, hx⟩

theorem removeIndividual_stores (k : Keyhive) (i : Id) :
    (k.removeIndividual i).dlgs = k.dlgs ∧ (k.removeIndividual i).revs = k.revs := by
  unfold Keyhive.removeIndividual
  split <;> exact ⟨rfl, rfl⟩

theorem Stocked.removeIndividual {k : Keyhive} (h : Stocked E k) (i : Id) : Stocked E (k.removeIndividual i) :=
  h.same (removeIndividual_stores k i).1 (removeIndividual_stores k i).2 (removeIndividual_groups k i).1 (removeIndividual_groups k i).2

theorem deep_removeIndividual {k : Keyhive} {o : Op} (h : Deep E k o) (i : Id) : Deep E (k.removeIndividual i) o :=
  fun b hb => (has_same (removeIndividual_stores k i).1 (removeIndividual_stores k i).2 b).2 (h b hb)

theorem stocked_applyDlg {k : Keyhive} (h : Stocked E k) (hk : Kept E k) {d : Dlg} (hd : ∀ b, Dep (.dlg d) b → Deep E k b) :
    Stocked E (k.applyDlg E d).1 := by
  obtain ⟨h1, h2⟩ := h.storeDlg hd
  unfold Keyhive.applyDlg
  split
  · rename_i g hg
    split
    · exact h
    · rename_i g' hg'
      exact h1.insertGroup ((fit_storeDlg (h.groups hg) d).accept (hk.groups hg) (.dlg _ hg') h2) rfl rfl rfl rfl
  · split
    · rename_i doc hdoc
      split
      · exact h
      · rename_i g' hg'
        exact h1.insertDoc (d := { doc with group := g' })
          ((fit_storeDlg (h.docs hdoc) d).accept (hk.docs hdoc) (.dlg _ hg') h2) rfl rfl rfl rfl
    · split
      · have hp := promote_fst (E := E) (k.removeIndividual d.subject) d
        have h3 := ((h.removeIndividual d.subject).storeDlg (d := d) (fun b hb => deep_removeIndividual (hd b hb) _)).1
        split
        · rename_i k' e heq
          rw [heq] at hp
          subst hp
          exact h3
        · rename_i k' e heq
          rw [heq] at hp
          subst hp
          exact h3
      · unfold Keyhive.adopt
        simp only
        split
        · exact h1.insertDoc (d := ⟨(Group.new E.opDigest d).rebuild E.opDigest, _, none⟩) (fit_new h2) rfl rfl rfl rfl
        · exact h1.insertGroup (fit_new h2) rfl rfl rfl rfl

theorem stocked_applyRev {k : Keyhive} (h : Stocked E k) (hk : Kept E k) {r : Rev} (hd : ∀ b, Dep (.rev r) b → Deep E k b) :
    Stocked E (k.applyRev E r).1 := by
  obtain ⟨h1, h2⟩ := h.storeRev hd
  unfold Keyhive.applyRev
  split
  · rename_i g hg
    split
    · exact h
    · rename_i g' hg'
      exact h1.insertGroup ((fit_storeRev (h.groups hg) r).accept (hk.groups hg) (.rev _ hg') h2) rfl rfl rfl rfl
  · split
    · rename_i doc hdoc
      split
      · exact h
      · rename_i g' hg'
        exact h1.insertDoc (d := { doc with group := g' })
          ((fit_storeRev (h.docs hdoc) r).accept (hk.docs hdoc) (.rev _ hg') h2) rfl rfl rfl rfl
    · split
      · have hp := promote_fst (E := E) (k.removeIndividual r.subject) r.revoke
        have hrev : Deep E k (.dlg r.revoke) := hd _ (mem_after_rev.2 (.inl rfl))
        have h3 := (h.removeIndividual r.subject).storeDlg (d := r.revoke)
          (fun b hb => deep_removeIndividual (fun c hc => hrev c (.head hb hc)) _)
        split
        · rename_i k' e heq
          rw [heq] at hp
          subst hp
          exact h3.1
        · rename_i k' e heq
          rw [heq] at hp
          subst hp
          split
          · exact h3.1
          · refine (h3.1.storeRev ?_).1
            intro b hb c hc
            rw [storeDlg_all]
            exact (storeAll_facts [] [r.revoke] _).2.2.1 _ (deep_removeIndividual (hd b hb) _ c hc)
      · exact h

theorem stocked_closeDoc {α : Type} {k : Keyhive} (h : Stocked E k) {i : Id} {d : Doc} (hd : AMap.get k.docs i = some d) (r : Doc × Res α)
    (hr : r.1.group = d.group) : Stocked E (k.closeDoc i r).1 :=
  h.setDoc (i := i) (d := r.1) (by rw [hr]; exact h.docs hd) rfl rfl rfl rfl

theorem stocked_receiveCgkaOp {k : Keyhive} (h : Stocked E k) (i : Id) (op : SOp) : Stocked E (k.receiveCgkaOp E i op).1 := by
  unfold Keyhive.receiveCgkaOp
  split
  · exact h
  · split
    · exact h
    · rename_i d hd
      split
      · split
        · split
          · exact h
          · exact stocked_closeDoc h hd _ (mergeCgkaInviteOp_group ..)
        · split
          · unfold Keyhive.mergePublicInvite
            have hm := mergeCgkaInviteOp_group (E.hashCgka i) d op publicSk
            split
            · rename_i d' e heq
              rw [heq] at hm
              exact stocked_closeDoc h hd _ hm
            · rename_i d' x heq
              rw [heq] at hm
              exact stocked_closeDoc h hd _ ((resetCgkaOwner_group ..).trans hm)
          · exact stocked_closeDoc h hd _ (mergeCgkaOp_group ..)
      · exact stocked_closeDoc h hd _ (mergeCgkaOp_group ..)

theorem stocked_receive {k : Keyhive} (h : Stocked E k) (hk : Kept E k) (e : Event) : Stocked E (k.receive E e).1 := by
  cases e with
  | prekey op => exact h.same rfl rfl rfl rfl
  | cgka i op => exact stocked_receiveCgkaOp h i op
  | dlg s =>
    show Stocked E (k.receiveDelegation E s).1
    unfold Keyhive.receiveDelegation
    split
    · exact h
    · split
      · exact h
      · split
        · exact h
        · rename_i hd; exact stocked_applyDlg h hk (toDlg_deps h hd)
  | rev s =>
    show Stocked E (k.receiveRevocation E s).1
    unfold Keyhive.receiveRevocation
    split
    · exact h
    · split
      · exact h
      · split
        · exact h
        · rename_i hd; exact stocked_applyRev h hk (toRev_deps h hd)

/-! ## Local calls -/

theorem generate_heads {S : Op → Option Nat} {id : Id} {parents : List Agent} {content : Content} {g : Group}
    (h : Group.generate E.opDigest S id parents content = .ok g) :
    AMap.values g.revHeads = [] ∧ ∀ d ∈ AMap.values g.dlgHeads, d.issuer = g.id ∧ ∀ b, ¬ Dep (.dlg d) b := by
  obtain ⟨heads, rfl, h1, _, h2⟩ := generate_ok h
  refine ⟨rfl, ?_⟩
  intro d hd
  obtain ⟨p, hp, rfl⟩ := List.mem_map.1 hd
  obtain ⟨-, a, _, s, h3⟩ := h2 _ _ (AMap.get_of_mem h1 hp)
  rw [h3]
  refine ⟨rfl, ?_⟩
  intro b hb
  rcases mem_after_dlg.1 hb with ⟨q, hq, -⟩ | ⟨r, hr, -⟩
  · cases hq
  · cases hr

theorem stocked_generate {k : Keyhive} (h : Stocked E k) {S : Op → Option Nat} {id : Id} {parents : List Agent} {content : Content}
    {g : Group} (hg : Group.generate E.opDigest S id parents content = .ok g) :
    Stocked E ((AMap.values g.dlgHeads).foldl (Keyhive.storeDlg E) k) ∧ Fit E ((AMap.values g.dlgHeads).foldl (Keyhive.storeDlg E) k) g := by
  obtain ⟨h1, h2⟩ := generate_heads hg
  have e : (AMap.values g.dlgHeads).foldl (Keyhive.storeDlg E) k = k.storeAll E [] (AMap.values g.dlgHeads) := rfl
  rw [e]
  have hl : listed [] (AMap.values g.dlgHeads) = g.heads := by simp [listed, Group.heads, h1]
  have hno : ∀ o ∈ listed [] (AMap.values g.dlgHeads), ∀ b, ¬ Dep o b := by
    intro o ho b
    simp only [listed, List.map_nil, List.nil_append, List.mem_map] at ho
    obtain ⟨d, hd, rfl⟩ := ho
    exact (h2 d hd).2 b
  refine ⟨h.storeAll (fun o ho b hb => absurd hb (hno o ho b)), ?_, ?_⟩
  · rintro o ⟨x, hx, hr⟩
    rw [← hl] at hx
    rcases ReflTransGen.cases_head hr with rfl | ⟨c, hc, _⟩
    · exact storeAll_has (.inr hx)
    · exact absurd hc (hno x hx c)
  · intro d hd _
    rw [← hl] at hd
    simp only [listed, List.map_nil, List.nil_append, List.mem_map] at hd
    obtain ⟨x, hx, he⟩ := hd
    cases he
    exact (h2 d hx).1

theorem stocked_newGroup {k : Keyhive} (h : Stocked E k) (S : Op → Option Nat) (gid : Id) (co : List Agent) :
    Stocked E (k.generateGroup E S gid co).1 := by
  unfold Keyhive.generateGroup
  split
  · exact h
  · rename_i g hg
    obtain ⟨h1, h2⟩ := stocked_generate h hg
    exact h1.insertGroup h2 rfl rfl rfl rfl

theorem stocked_newDoc {k : Keyhive} (h : Stocked E k) (L : Local) (S : Op → Option Nat) (did : Id) (co : List Agent) (heads : List Nat) :
    Stocked E (k.generateDoc E L S did co heads).1 := by
  unfold Keyhive.generateDoc
  split
  · exact h
  · rename_i g hg
    obtain ⟨h1, h2⟩ := stocked_generate h hg
    simp only
    repeat' split
    · exact h1
    · exact h1
    · exact h1
    · rename_i c _
      exact h1.insertDoc (i := g.id) (d := ⟨g, heads, some c⟩) h2 rfl rfl rfl rfl

theorem stocked_add {k : Keyhive} (h : Stocked E k) {S : Op → Option Nat} {N : Nested} {who : Agent} {can : Access} {signer : Id}
    {content : Content} {i : Id} {g g' : Group} {d : Dlg} (hf : Fit E k g) (hg : Good E i g)
    (ha : g.addMember E.opDigest N S who can signer content = .ok (g', d)) :
    Stocked E (k.storeDlg E d) ∧ Fit E (k.storeDlg E d) g' := by
  have h0 : Issued E.opDigest g.Holds (fun _ => True) [] g := ⟨⟨fun x hx => .inl hx, by simp, by simp, by simp⟩, hg.2.1, hg.2.2⟩
  have h1 := addMember_issued (S := S) (fun a b ha hd => ha.dep hd) ⟨fun _ _ _ _ _ _ _ _ => trivial, fun _ _ _ _ _ _ => trivial⟩ h0 ha
  have hdep : ∀ b, Dep (.dlg d) b → Deep E k b := by
    intro b hb
    rcases h1.track.deps (.dlg d) (by simp) b hb with h2 | h2
    · exact hf.deep h2
    · simp only [List.nil_append, List.mem_singleton] at h2
      have := Op.weight_after hb
      rw [h2] at this
      omega
  obtain ⟨h2, h3⟩ := h.storeDlg hdep
  obtain ⟨_, _, _, _, _, h4⟩ := addMember_ok ha
  exact ⟨h2, (fit_storeDlg hf d).accept hg (.dlg N h4) h3⟩

theorem mem_listed_new {g g' : Group} {o : Op} :
    o ∈ listed ((g.newOps g').filterMap Op.rev?) ((g.newOps g').filterMap Op.dlg?) ↔ g'.Holds o ∧ ¬ g.Holds o := by
  rw [← Group.mem_newOps]
  simp only [listed, List.mem_append, List.mem_map, List.mem_filterMap]
  constructor
  · rintro (⟨r, ⟨x, hx, he⟩, rfl⟩ | ⟨r, ⟨x, hx, he⟩, rfl⟩)
    · cases x <;> cases he; exact hx
    · cases x <;> cases he; exact hx
  · intro h
    cases o with
    | dlg d => exact .inr ⟨d, ⟨_, h, rfl⟩, rfl⟩
    | rev r => exact .inl ⟨r, ⟨_, h, rfl⟩, rfl⟩

theorem stocked_new {k : Keyhive} (h : Stocked E k) {i : Id} {g g' : Group} (hf : Fit E k g) (hg : Good E i g) {l : List Op}
    (hr : Run E.opDigest g l g') : Stocked E (k.storeNew E g g') ∧ Fit E (k.storeNew E g g') g' := by
  have hd : ∀ {o}, g'.Holds o → Deep E k o ∨ o ∈ listed ((g.newOps g').filterMap Op.rev?) ((g.newOps g').filterMap Op.dlg?) := by
    intro o ho
    by_cases hb : g.Holds o
    · exact .inl (hf.deep hb)
    · exact .inr (mem_listed_new.2 ⟨ho, hb⟩)
  refine ⟨h.storeAll (fun o ho b hb => hd ((mem_listed_new.1 ho).1.dep hb)), fun o ho => storeAll_has (hd ho),
    roots_run hg.2.1 hg.2.2 hr hf.2⟩

theorem stocked_revoked {k : Keyhive} (h : Stocked E k) {S : Op → Option Nat} {N : Nested} {i : Id} {g g' : Group} (hf : Fit E k g)
    (hg : Good E i g) {member : Id} {retain : Bool} {signer : Id} {content : Content} {revs : List Rev} {dlgs : List Dlg}
    (hr : g.revokeMember E.opDigest N S member retain signer content = (g', .ok (revs, dlgs))) :
    Stocked E (k.storeAll E revs dlgs) ∧ Fit E (k.storeAll E revs dlgs) g' := by
  obtain ⟨l, h1, h2⟩ := revokeMember_issued (N := N) (S := S) (V := fun _ => True)
    ⟨fun _ _ _ _ _ _ _ _ => trivial, fun _ _ _ _ _ _ => trivial⟩ hg.2.1 hg.2.2 member retain signer content
  obtain ⟨l0, hrun⟩ := revokeMember_run (H := E.opDigest) (N := N) (S := S) g member retain signer content
  rw [hr] at h1 h2 hrun
  have he : l = listed revs dlgs := h2 revs dlgs rfl
  subst he
  refine ⟨h.storeAll (fun o ho b hb => (h1.track.deps o ho b hb).imp hf.deep id),
    fun o ho => storeAll_has ((h1.track.held o ho).imp hf.deep id), roots_run hg.2.1 hg.2.2 hrun hf.2⟩

theorem stocked_addToDoc {k : Keyhive} (h : Stocked E k) (hk : Kept E k) (L : Local) (did : Id) (who : Agent) (can : Access)
    (content : Content) : Stocked E (k.addMemberToDoc E L did who can content).1 := by
  unfold Keyhive.addMemberToDoc
  split
  · exact h
  · rename_i doc hd
    split
    · exact h
    · rename_i g' d hg
      obtain ⟨q1, q2⟩ := stocked_add h (h.docs hd) (hk.docs hd) hg
      have h1 : Stocked E ((k.storeDlg E d).setDoc did { doc with group := g' }) :=
        q1.setDoc (i := did) (d := { doc with group := g' }) q2 rfl rfl rfl rfl
      simp only
      split
      · split
        · exact h1
        · rename_i prekeys _
          have hsame := addCgkaMembers_group (H := E.hashCgka did) (sign := L.signCgka did) prekeys { doc with group := g' } []
          split
          · rename_i doc'' e heq
            rw [heq] at hsame
            exact h1.setDoc (i := did) (d := doc'') (by rw [hsame]; exact q2) rfl rfl rfl rfl
          · rename_i doc'' e heq
            rw [heq] at hsame
            exact h1.setDoc (i := did) (d := doc'') (by rw [hsame]; exact q2) rfl rfl rfl rfl
      · exact h1

theorem stocked_propagateAdd {k : Keyhive} (h : Stocked E k) (L : Local) (gid : Id) (who : Agent) (did : Id) :
    Stocked E (k.propagateAdd E L gid who did).1 := by
  unfold Keyhive.propagateAdd
  split
  · exact h
  · rename_i doc hd
    split
    · exact h
    · split
      · exact h
      · split
        · exact h
        · rename_i prekeys _
          have hsame := addCgkaMembers_group (H := E.hashCgka did) (sign := L.signCgka did) prekeys doc []
          split
          · rename_i doc'' e heq
            rw [heq] at hsame
            exact h.setDoc (i := did) (d := doc'') (by rw [hsame]; exact h.docs hd) rfl rfl rfl rfl
          · rename_i doc'' e heq
            rw [heq] at hsame
            exact h.setDoc (i := did) (d := doc'') (by rw [hsame]; exact h.docs hd) rfl rfl rfl rfl

theorem stocked_propagateAdds {L : Local} {gid : Id} {who : Agent} : ∀ {dids : List Id} {k : Keyhive} {acc : List SOp},
    Stocked E k → Stocked E (Keyhive.propagateAdds E L gid who k dids acc).1 := by
  intro dids
  induction dids with
  | nil => intro k acc h; exact h
  | cons did dids ih =>
    intro k acc h
    have h1 := stocked_propagateAdd h L gid who did
    unfold Keyhive.propagateAdds
    split
    · rename_i heq; rw [heq] at h1; exact h1
    · rename_i heq; rw [heq] at h1; exact ih h1

theorem stocked_addToGroup {k : Keyhive} (h : Stocked E k) (hk : Kept E k) (L : Local) (gid : Id) (who : Agent) (can : Access)
    (content : Content) : Stocked E (k.addMemberToGroup E L gid who can content).1 := by
  unfold Keyhive.addMemberToGroup
  split
  · exact h
  · rename_i g hg0
    split
    · exact h
    · rename_i g' d hg
      obtain ⟨q1, q2⟩ := stocked_add h (h.groups hg0) (hk.groups hg0) hg
      have h1 : Stocked E { k.storeDlg E d with groups := AMap.insert k.groups gid g' } := q1.insertGroup q2 rfl rfl rfl rfl
      simp only
      split
      · have h2 := stocked_propagateAdds (E := E) (L := L) (gid := gid) (who := d.delegate)
          (dids := AMap.keys ({ k.storeDlg E d with groups := AMap.insert k.groups gid g' } : Keyhive).docs) (acc := []) h1
        split
        · rename_i heq; rw [heq] at h2; exact h2
        · rename_i heq; rw [heq] at h2; exact h2
      · exact h1

theorem stocked_revokeFromDoc {k : Keyhive} (h : Stocked E k) (hk : Kept E k) (L : Local) (did member : Id) (retain : Bool)
    (content : Content) : Stocked E (k.revokeFromDoc E L did member retain content).1 := by
  unfold Keyhive.revokeFromDoc
  split
  · exact h
  · rename_i doc hd
    split
    · exact h
    · rename_i ids _
      split
      · rename_i g' e heq
        obtain ⟨l, hl⟩ := revokeMember_run (H := E.opDigest) (N := membersOf k.world [did]) (S := L.sign) doc.group member retain k.reg.me content
        rw [heq] at hl
        obtain ⟨q1, q2⟩ := stocked_new h (h.docs hd) (hk.docs hd) hl
        exact q1.setDoc (i := did) (d := { doc with group := g' }) q2 rfl rfl rfl rfl
      · rename_i g' revs dlgs heq
        obtain ⟨q1, q2⟩ := stocked_revoked h (h.docs hd) (hk.docs hd) heq
        have h1 : Stocked E ((k.storeAll E revs dlgs).setDoc did { doc with group := g' }) :=
          q1.setDoc (i := did) (d := { doc with group := g' }) q2 rfl rfl rfl rfl
        simp only
        split
        · exact h1
        · rename_i still _
          split
          · rename_i doc'' e heq2
            have hsame : doc''.group = g' := by
              have := removeCgkaMembers_group (H := E.hashCgka did) (sign := L.signCgka did)
                (List.filter (fun i => decide (i ∉ still)) ids) { doc with group := g' } []
              rw [heq2] at this
              exact this
            exact h1.setDoc (i := did) (d := doc'') (by rw [hsame]; exact q2) rfl rfl rfl rfl
          · rename_i doc'' e heq2
            have hsame : doc''.group = g' := by
              have := removeCgkaMembers_group (H := E.hashCgka did) (sign := L.signCgka did)
                (List.filter (fun i => decide (i ∉ still)) ids) { doc with group := g' } []
              rw [heq2] at this
              exact this
            exact h1.setDoc (i := did) (d := doc'') (by rw [hsame]; exact q2) rfl rfl rfl rfl

theorem stocked_propagateRemove {k : Keyhive} (h : Stocked E k) (L : Local) (gid : Id) (ids : List Id) (did : Id) :
    Stocked E (k.propagateRemove E L gid ids did).1 := by
  unfold Keyhive.propagateRemove
  split
  · exact h
  · rename_i doc hd
    split
    · exact h
    · split
      · exact h
      · exact h.setDoc (i := did) (by rw [dropCgkaMembers_group]; exact h.docs hd) rfl rfl rfl rfl

theorem stocked_propagateRemoves {L : Local} {gid : Id} {ids : List Id} : ∀ {dids : List Id} {k : Keyhive} {acc : List SOp},
    Stocked E k → Stocked E (Keyhive.propagateRemoves E L gid ids k dids acc).1 := by
  intro dids
  induction dids with
  | nil => intro k acc h; exact h
  | cons did dids ih =>
    intro k acc h
    have h1 := stocked_propagateRemove h L gid ids did
    unfold Keyhive.propagateRemoves
    split
    · rename_i heq; rw [heq] at h1; exact h1
    · rename_i heq; rw [heq] at h1; exact ih h1

theorem stocked_revokeFromGroup {k : Keyhive} (h : Stocked E k) (hk : Kept E k) (L : Local) (gid member : Id) (retain : Bool)
    (content : Content) : Stocked E (k.revokeFromGroup E L gid member retain content).1 := by
  unfold Keyhive.revokeFromGroup
  split
  · exact h
  · rename_i g hg0
    split
    · exact h
    · split
      · rename_i g' e heq
        obtain ⟨l, hl⟩ := revokeMember_run (H := E.opDigest) (N := membersOf k.world [gid]) (S := L.sign) g member retain k.reg.me content
        rw [heq] at hl
        obtain ⟨q1, q2⟩ := stocked_new h (h.groups hg0) (hk.groups hg0) hl
        exact q1.insertGroup q2 rfl rfl (by rw [(storeNew_same (E := E) g g' k).1]) rfl
      · rename_i g' revs dlgs heq
        obtain ⟨q1, q2⟩ := stocked_revoked h (h.groups hg0) (hk.groups hg0) heq
        have h3 : Stocked E { k.storeAll E revs dlgs with groups := AMap.insert k.groups gid g' } :=
          q1.insertGroup q2 rfl rfl (by rw [(storeAll_same (E := E) revs dlgs k).1]) rfl
        simp only
        split
        · exact h3
        · exact stocked_propagateRemoves h3

theorem stocked_encryptContent {k : Keyhive} (h : Stocked E k) (L : Local) (did : Id) (r ps x : Nat) :
    Stocked E (k.encryptContent E L did r ps x).1 := by
  unfold Keyhive.encryptContent
  split
  · exact h
  · rename_i hd
    exact h.setDoc (i := did) (by rw [encryptContent_group]; exact h.docs hd) rfl rfl rfl rfl

theorem stocked_decryptContent {k : Keyhive} (h : Stocked E k) (did : Id) (e : EncContent) : Stocked E (k.decryptContent E did e).1 := by
  unfold Keyhive.decryptContent
  split
  · exact h
  · rename_i hd
    exact h.setDoc (i := did) (by rw [decryptContent_group]; exact h.docs hd) rfl rfl rfl rfl

theorem stocked_forcePcsUpdate {k : Keyhive} (h : Stocked E k) (L : Local) (did : Id) : Stocked E (k.forcePcsUpdate E L did).1 := by
  unfold Keyhive.forcePcsUpdate
  split
  · exact h
  · rename_i hd
    exact h.setDoc (i := did) (by rw [pcsUpdate_group]; exact h.docs hd) rfl rfl rfl rfl

theorem reach_stocked {k : Keyhive} (h : Reach E k) : Stocked E k := by
  induction h with
  | start reg pairs =>
    refine ⟨AMap.wf_nil, AMap.wf_nil, AMap.wf_nil, AMap.wf_nil, ?_, (by intro i g h; cases h), (by intro i g h; cases h)⟩
    intro o ho
    cases o <;> obtain ⟨_, h⟩ := ho <;> cases h
  | call c h hc ih =>
    have hk := reach_kept h
    cases c with
    | receive e => exact stocked_receive ih hk e
    | ingest ord events =>
      exact (ingest_keeps (P := fun k => Stocked E k ∧ Kept E k) (fun k e h => ⟨stocked_receive h.1 h.2 e, kept_receive h.2 e⟩)
        (fun k p h => ⟨h.1.same rfl rfl rfl rfl, h.2.same rfl rfl⟩) ord events ⟨ih, hk⟩).1
    | contactCard op => exact ih.same rfl rfl rfl rfl
    | newGroup S gid co => exact stocked_newGroup ih S gid co
    | newDoc L S did co heads => exact stocked_newDoc ih L S did co heads
    | addToGroup L gid who can content => exact stocked_addToGroup ih hk L gid who can content
    | addToDoc L did who can content => exact stocked_addToDoc ih hk L did who can content
    | revokeFromGroup L gid member retain content => exact stocked_revokeFromGroup ih hk L gid member retain content
    | revokeFromDoc L did member retain content => exact stocked_revokeFromDoc ih hk L did member retain content
    | ingestArchive ord a =>
      exact (ingestArchive_keeps (P := fun k => Stocked E k ∧ Kept E k) (fun k e h => ⟨stocked_receive h.1 h.2 e, kept_receive h.2 e⟩)
        (fun k p h => ⟨h.1.same rfl rfl rfl rfl, h.2.same rfl rfl⟩)
        (fun hs h => ⟨h.1.same hs.dlgs hs.revs hs.groups hs.docs, h.2.same hs.groups hs.docs⟩) ord a ⟨ih, hk⟩).1
    | encrypt L did r ps x => exact stocked_encryptContent ih L did r ps x
    | decrypt did e => exact stocked_decryptContent ih did e
    | pcsUpdate L did => exact stocked_forcePcsUpdate ih L did

end Verif.Keyhive
