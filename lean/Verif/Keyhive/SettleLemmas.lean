import Verif.Keyhive.AgreeLemmas

/-! # Settled devices stay settled while receiving events -/

namespace Verif.Keyhive

open Verif.Group Verif.Cgka Verif.BeeKem Relation

variable {E : Env}

/-! ## What receiving an event does to the stores -/

theorem receiveDelegation_stores {k : Keyhive} (hs : StoreOk E k) (s : SDlg) :
    (k.receiveDelegation E s).1.revs = k.revs ∧
    ((k.receiveDelegation E s).1.dlgs = k.dlgs ∨
      (AMap.get k.dlgs (E.hashDlg s) = none ∧ ∃ d, k.toDlg s = .ok d ∧ (k.receiveDelegation E s).1.dlgs = AMap.insert k.dlgs (E.hashDlg s) d)) := by
  have hrem : ∀ i, (k.removeIndividual i).dlgs = k.dlgs ∧ (k.removeIndividual i).revs = k.revs := by
    intro i; unfold Keyhive.removeIndividual; split <;> exact ⟨rfl, rfl⟩
  unfold Keyhive.receiveDelegation
  split
  · exact ⟨rfl, .inl rfl⟩
  · rename_i hc
    have hn : AMap.get k.dlgs (E.hashDlg s) = none := by
      rw [contains_eq_isSome] at hc
      simpa using hc
    split
    · exact ⟨rfl, .inl rfl⟩
    · split
      · exact ⟨rfl, .inl rfl⟩
      · rename_i d hd
        have hdig : E.dlgDigest d = E.hashDlg s := by rw [dlgDigest_eq, toDlg_static hs hd]
        unfold Keyhive.applyDlg
        split
        · split
          · exact ⟨rfl, .inl rfl⟩
          · exact ⟨rfl, .inr ⟨hn, d, hd, by rw [← hdig]; rfl⟩⟩
        · split
          · split
            · exact ⟨rfl, .inl rfl⟩
            · exact ⟨rfl, .inr ⟨hn, d, hd, by rw [← hdig]; rfl⟩⟩
          · split
            · have h1 := promote_fst (E := E) (k.removeIndividual d.subject) d
              split
              · rename_i heq
                rw [heq] at h1
                simp only at h1 ⊢
                rw [h1]
                exact ⟨(hrem _).2, .inr ⟨hn, d, hd, by rw [← hdig]; simp only [Keyhive.storeDlg, CaMap.insert, (hrem d.subject).1]⟩⟩
              · rename_i heq
                rw [heq] at h1
                simp only at h1 ⊢
                rw [h1]
                exact ⟨(hrem _).2, .inr ⟨hn, d, hd, by rw [← hdig]; simp only [Keyhive.storeDlg, CaMap.insert, (hrem d.subject).1]⟩⟩
            · unfold Keyhive.adopt
              dsimp only
              split
              · exact ⟨rfl, .inr ⟨hn, d, hd, by rw [← hdig]; rfl⟩⟩
              · exact ⟨rfl, .inr ⟨hn, d, hd, by rw [← hdig]; rfl⟩⟩

theorem get_insert_present {α β : Type} [DecidableEq α] {m : AMap α β} {a : α} {b : β} (h : AMap.get m a = some b) (c : α) :
    AMap.get (AMap.insert m a b) c = AMap.get m c := by
  rw [AMap.get_insert]
  split
  · rename_i e; rw [e, h]
  · rfl

theorem receiveRevocation_stores {k : Keyhive} (hs : StoreOk E k) (s : SRev) :
    (∀ h, AMap.get (k.receiveRevocation E s).1.dlgs h = AMap.get k.dlgs h) ∧
    ((k.receiveRevocation E s).1.revs = k.revs ∨
      (AMap.get k.revs (E.hashRev s) = none ∧ ∃ r, k.toRev s = .ok r ∧ (k.receiveRevocation E s).1.revs = AMap.insert k.revs (E.hashRev s) r)) := by
  have hrem : ∀ i, (k.removeIndividual i).dlgs = k.dlgs ∧ (k.removeIndividual i).revs = k.revs := by
    intro i; unfold Keyhive.removeIndividual; split <;> exact ⟨rfl, rfl⟩
  unfold Keyhive.receiveRevocation
  split
  · exact ⟨fun _ => rfl, .inl rfl⟩
  · rename_i hc
    have hn : AMap.get k.revs (E.hashRev s) = none := by
      rw [contains_eq_isSome] at hc
      simpa using hc
    split
    · exact ⟨fun _ => rfl, .inl rfl⟩
    · split
      · exact ⟨fun _ => rfl, .inl rfl⟩
      · rename_i r hd
        have hdig : E.revDigest r = E.hashRev s := by rw [revDigest_eq, toRev_static hs hd]
        have hrv := toRev_revoke hd
        have hkey := (hs.dlg _ _ hrv).1
        have hsame : ∀ h, AMap.get ((k.removeIndividual r.subject).storeDlg E r.revoke).dlgs h = AMap.get k.dlgs h := by
          intro h
          simp only [Keyhive.storeDlg, CaMap.insert, (hrem r.subject).1, hkey]
          exact get_insert_present hrv h
        unfold Keyhive.applyRev
        split
        · split
          · exact ⟨fun _ => rfl, .inl rfl⟩
          · exact ⟨fun _ => rfl, .inr ⟨hn, r, hd, by rw [← hdig]; rfl⟩⟩
        · split
          · split
            · exact ⟨fun _ => rfl, .inl rfl⟩
            · exact ⟨fun _ => rfl, .inr ⟨hn, r, hd, by rw [← hdig]; rfl⟩⟩
          · split
            · have h1 := promote_fst (E := E) (k.removeIndividual r.subject) r.revoke
              split
              · rename_i heq
                rw [heq] at h1
                simp only at h1 ⊢
                rw [h1]
                exact ⟨hsame, .inl (hrem _).2⟩
              · rename_i heq
                rw [heq] at h1
                simp only at h1 ⊢
                rw [h1]
                split
                · exact ⟨hsame, .inl (hrem _).2⟩
                · refine ⟨hsame, .inr ⟨hn, r, hd, ?_⟩⟩
                  rw [← hdig]
                  simp only [Keyhive.storeRev, Keyhive.storeDlg, CaMap.insert, (hrem r.subject).2]
            · exact ⟨fun _ => rfl, .inl rfl⟩

/-- Operations in the stores stay there. -/
theorem receive_inStore {k : Keyhive} (hs : StoreOk E k) (e : Event) {o : Op} (ho : k.InStore o) : (k.receive E e).1.InStore o := by
  have same : ∀ k' : Keyhive, k'.dlgs = k.dlgs → k'.revs = k.revs → k'.InStore o := by
    intro k' h1 h2
    cases o <;> simp only [Keyhive.InStore, h1, h2] at ho ⊢ <;> exact ho
  cases e with
  | prekey op => exact same _ rfl rfl
  | cgka doc op => exact same _ (receiveCgkaOp_stores k doc op).1 (receiveCgkaOp_stores k doc op).2
  | dlg s =>
    obtain ⟨h1, h2⟩ := receiveDelegation_stores hs s
    show (k.receiveDelegation E s).1.InStore o
    rcases h2 with h2 | ⟨hn, d, _, h2⟩
    · exact same _ h2 h1
    · cases o with
      | rev r => simp only [Keyhive.InStore, h1]; exact ho
      | dlg x =>
        obtain ⟨h, hx⟩ := ho
        refine ⟨h, ?_⟩
        rw [h2, AMap.get_insert, if_neg (by rintro rfl; rw [hn] at hx; cases hx)]
        exact hx
  | rev s =>
    obtain ⟨h1, h2⟩ := receiveRevocation_stores hs s
    show (k.receiveRevocation E s).1.InStore o
    cases o with
    | dlg x =>
      obtain ⟨h, hx⟩ := ho
      exact ⟨h, by rw [h1]; exact hx⟩
    | rev x =>
      rcases h2 with h2 | ⟨hn, d, _, h2⟩
      · simp only [Keyhive.InStore, h2]; exact ho
      · obtain ⟨h, hx⟩ := ho
        refine ⟨h, ?_⟩
        rw [h2, AMap.get_insert, if_neg (by rintro rfl; rw [hn] at hx; cases hx)]
        exact hx

/-- A membership operation that is in the stores after receiving an event was there before or is the event. -/
theorem receive_has_back (hE : E.NoClash) {k : Keyhive} (hs : StoreOk E k) (e : Event) {m : SMem} (hm : (k.receive E e).1.HasOp E m) :
    k.HasOp E m ∨ m.event = e := by
  have same : ∀ k' : Keyhive, k'.dlgs = k.dlgs → k'.revs = k.revs → k'.HasOp E m → k.HasOp E m := by
    intro k' h1 h2 h
    cases m <;> simp only [Keyhive.HasOp, h1, h2] at h ⊢ <;> exact h
  cases e with
  | prekey op => exact .inl (same _ rfl rfl hm)
  | cgka doc op => exact .inl (same _ (receiveCgkaOp_stores k doc op).1 (receiveCgkaOp_stores k doc op).2 hm)
  | dlg s =>
    obtain ⟨h1, h2⟩ := receiveDelegation_stores hs s
    change (k.receiveDelegation E s).1.HasOp E m at hm
    rcases h2 with h2 | ⟨hn, d, _, h2⟩
    · exact .inl (same _ h2 h1 hm)
    · cases m with
      | rev r => simp only [Keyhive.HasOp, h1] at hm; exact .inl hm
      | dlg x =>
        simp only [Keyhive.HasOp, h2, AMap.get_insert] at hm
        split at hm
        · rename_i he; rw [hE.dlg he]; exact .inr rfl
        · exact .inl hm
  | rev s =>
    obtain ⟨h1, h2⟩ := receiveRevocation_stores hs s
    change (k.receiveRevocation E s).1.HasOp E m at hm
    cases m with
    | dlg x => simp only [Keyhive.HasOp, h1] at hm; exact .inl hm
    | rev x =>
      rcases h2 with h2 | ⟨hn, d, _, h2⟩
      · simp only [Keyhive.HasOp, h2] at hm; exact .inl hm
      · simp only [Keyhive.HasOp, h2, AMap.get_insert] at hm
        split at hm
        · rename_i he; rw [hE.rev he]; exact .inr rfl
        · exact .inl hm

/-! ## The groups of a device by id -/

theorem get_append {α β : Type} [DecidableEq α] (l m : AMap α β) (a : α) : AMap.get (l ++ m) a = (AMap.get l a).or (AMap.get m a) := by
  induction l with
  | nil => rfl
  | cons p l ih =>
    rw [List.cons_append, AMap.get_cons, AMap.get_cons]
    split
    · rfl
    · exact ih

theorem get_world (k : Keyhive) (i : Id) : AMap.get k.world i = (AMap.get k.groups i).or ((AMap.get k.docs i).map Doc.group) := by
  unfold Keyhive.world
  rw [get_append, show k.docs.map (fun p => (p.1, p.2.group)) = mapVals Doc.group k.docs from rfl, get_mapVals]

theorem world_insertGroup {k k' : Keyhive} {i : Id} {g : Group} (hg : k'.groups = AMap.insert k.groups i g) (hd : k'.docs = k.docs) (j : Id) :
    AMap.get k'.world j = if j = i then some g else AMap.get k.world j := by
  rw [get_world, get_world, hg, hd, AMap.get_insert]
  by_cases h : j = i
  · rw [if_pos h, if_pos h]; rfl
  · rw [if_neg h, if_neg h]

theorem world_insertDoc {k k' : Keyhive} {i : Id} {d : Doc} (hn : AMap.get k.groups i = none) (hg : k'.groups = k.groups)
    (hd : k'.docs = AMap.insert k.docs i d) (j : Id) :
    AMap.get k'.world j = if j = i then some d.group else AMap.get k.world j := by
  rw [get_world, get_world, hg, hd, AMap.get_insert]
  by_cases h : j = i
  · rw [if_pos h, if_pos h, h, hn]; rfl
  · rw [if_neg h, if_neg h]

/-! ## One step -/

/-- Requirements on the operations of a device, on any set of operations. -/
structure PlainOn (E : Env) (S : Op → Prop) : Prop where
  digests : ∀ a b, S a → S b → E.opDigest a = E.opDigest b → a = b
  sigs : ∀ a b, S a → S b → Op.sig a = Op.sig b → a = b
  payloads : ∀ a b, S (.dlg a) → S (.dlg b) → EqualPayload a b → a = b

theorem PlainOn.mono {S T : Op → Prop} (h : PlainOn E S) (hst : ∀ o, T o → S o) : PlainOn E T :=
  ⟨fun a b ha hb => h.digests a b (hst a ha) (hst b hb), fun a b ha hb => h.sigs a b (hst a ha) (hst b hb),
    fun a b ha hb => h.payloads a b (hst _ ha) (hst _ hb)⟩

theorem inStore_heads {k : Keyhive} {o : Op} (h : k.InStore o) : Below k.heads o := by
  refine ⟨o, ?_, .refl⟩
  unfold Keyhive.heads
  cases o with
  | dlg d =>
    obtain ⟨x, hx⟩ := h
    exact List.mem_append_left _ (List.mem_append_left _ (List.mem_map_of_mem (List.mem_map.2 ⟨_, AMap.mem_of_get hx, rfl⟩)))
  | rev r =>
    obtain ⟨x, hx⟩ := h
    exact List.mem_append_left _ (List.mem_append_right _ (List.mem_map_of_mem (List.mem_map.2 ⟨_, AMap.mem_of_get hx, rfl⟩)))

theorem Settled.past {k : Keyhive} (h : Settled k) {o b : Op} (ho : k.InStore o) (hb : ReflTransGen Dep o b) : k.InStore b := by
  obtain ⟨g, hg, x, hx, hxo⟩ := h.held o ho
  exact h.stored _ g b hg ⟨x, hx, hxo.trans hb⟩

/-- A device that has accepted one more operation, in the group it is about. -/
theorem Settled.step {k k' : Keyhive} (h : Settled k) {x : Op} {g' : Group}
    (hw : ∀ j, AMap.get k'.world j = if j = x.subject then some g' else AMap.get k.world j)
    (hs : ∀ o, k'.InStore o ↔ k.InStore o ∨ o = x)
    (hx : ∀ o, Dep x o → k.InStore o)
    (hg : ∀ o, g'.Holds o ↔ (∃ g, AMap.get k.world x.subject = some g ∧ g.Holds o) ∨ ReflTransGen Dep x o)
    (hne : g'.dlgHeads ≠ []) (ha : ∀ o ∈ g'.heads, o.subject = x.subject) : Settled k' := by
  have hxp : ∀ o, ReflTransGen Dep x o → k.InStore o ∨ o = x := by
    intro o ho
    rcases ho.cases_head with e | ⟨y, h1, h2⟩
    · exact .inr e.symm
    · exact .inl (h.past (hx y h1) h2)
  refine ⟨?_, ?_, ?_⟩
  · intro o ho
    rw [hw]
    by_cases he : o.subject = x.subject
    · rw [if_pos he]
      refine ⟨g', rfl, (hg o).2 ?_⟩
      rcases (hs o).1 ho with h1 | rfl
      · obtain ⟨g, h2, h3⟩ := h.held o h1
        exact .inl ⟨g, by rw [← he]; exact h2, h3⟩
      · exact .inr .refl
    · rw [if_neg he]
      rcases (hs o).1 ho with h1 | rfl
      · exact h.held o h1
      · exact absurd rfl he
  · intro i g o hi ho
    rw [hs]
    rw [hw] at hi
    split at hi
    · cases hi
      rcases (hg o).1 ho with ⟨g0, h1, h2⟩ | h1
      · exact .inl (h.stored _ g0 o h1 h2)
      · exact hxp o h1
    · exact .inl (h.stored i g o hi ho)
  · intro i g hi
    rw [hw] at hi
    split at hi
    · rename_i e; cases hi; rw [e]; exact ⟨hne, ha⟩
    · exact h.about i g hi

/-- The state of a group after accepting an operation, as `Settled.step` needs it. -/
theorem accepted_facts {k : Keyhive} (h : Settled k) {g g' : Group} {x : Op} (hg : AMap.get k.world x.subject = some g)
    (hok : HeadsOk E.opDigest g) (ha : Accepts E.opDigest g x g') (hx : ∀ o, Dep x o → k.InStore o)
    (hp : PlainOn E (fun o => k.InStore o ∨ o = x)) :
    (∀ o, g'.Holds o ↔ (∃ g, AMap.get k.world x.subject = some g ∧ g.Holds o) ∨ ReflTransGen Dep x o) ∧ g'.dlgHeads ≠ [] ∧
      ∀ o ∈ g'.heads, o.subject = x.subject := by
  have hsub : ∀ o, Below (g.heads ++ [x]) o → k.InStore o ∨ o = x := by
    rintro o ⟨y, hy, hyo⟩
    rcases List.mem_append.1 hy with hy | hy
    · exact .inl (h.stored _ g o hg ⟨y, hy, hyo⟩)
    · rw [List.mem_singleton] at hy
      subst hy
      rcases hyo.cases_head with e | ⟨z, h1, h2⟩
      · exact .inr e.symm
      · exact .inl (h.past (hx z h1) h2)
  obtain ⟨_, h2, h3⟩ := holds_run (H := E.opDigest) hok (h.about _ g hg).1
    (fun a b ha hb => hp.digests a b (hsub a ha) (hsub b hb)) (fun a b ha hb => hp.sigs a b (hsub a ha) (hsub b hb))
    (fun a b ha hb => hp.payloads a b (hsub _ ha) (hsub _ hb)) (l := [x]) (Run.snoc (l := []) .nil ha)
  refine ⟨fun o => ?_, h2, ?_⟩
  · show Below g'.heads o ↔ _
    rw [h3]
    constructor
    · rintro ⟨y, hy, hyo⟩
      rcases List.mem_append.1 hy with hy | hy
      · exact .inl ⟨g, hg, y, hy, hyo⟩
      · rw [List.mem_singleton] at hy; subst hy; exact .inr hyo
    · rintro (⟨g0, h4, y, hy, hyo⟩ | h4)
      · rw [hg] at h4; cases h4
        exact ⟨y, List.mem_append_left _ hy, hyo⟩
      · exact ⟨x, by simp, h4⟩
  · intro o ho
    rcases heads_sub hok ha ho with h4 | rfl
    · exact (h.about _ g hg).2 o h4
    · rfl

theorem new_heads (d : Dlg) : (Group.new E.opDigest d).heads = [.dlg d] ∧ ((Group.new E.opDigest d).rebuild E.opDigest).heads = [.dlg d]
    ∧ (Group.new E.opDigest d).dlgHeads ≠ [] := by
  refine ⟨?_, ?_, ?_⟩ <;> simp [Group.new, Group.rebuild, Group.heads, CaMap.insert, AMap.insert, AMap.erase, AMap.values]

theorem toDlg_inStore {k : Keyhive} {s : SDlg} {d : Dlg} (hd : k.toDlg s = .ok d) : ∀ o, Dep (.dlg d) o → k.InStore o := by
  have hrevs : ∀ {hs : List Nat} {rs : List Rev}, k.findRevs hs = .ok rs → ∀ r ∈ rs, ∃ h, AMap.get k.revs h = some r := by
    intro hs
    induction hs with
    | nil => intro rs h r hr; cases h; cases hr
    | cons h hs ih =>
      intro rs hh r hr
      unfold Keyhive.findRevs at hh
      split at hh
      · cases hh
      · rename_i r0 hr0
        split at hh
        · cases hh
        · rename_i rs' hrs
          cases hh
          rcases List.mem_cons.1 hr with rfl | hr
          · exact ⟨_, hr0⟩
          · exact ih hrs r hr
  unfold Keyhive.toDlg at hd
  split at hd
  · cases hd
  · rename_i p hp
    split at hd
    · cases hd
    · split at hd
      · cases hd
      · rename_i rs hrs
        cases hd
        intro o ho
        change o ∈ List.map Op.dlg (Dlg.mk _ _ _ _ _ _ _).proof.toList ++ List.map Op.rev (Dlg.mk _ _ _ _ _ _ _).after at ho
        have e1 : ∀ i s a c (p : Option Dlg) rs x, (Dlg.mk i s a c p rs x).proof = p := by
          intro i s a c p rs x; cases p <;> rfl
        have e2 : ∀ i s a c (p : Option Dlg) rs x, (Dlg.mk i s a c p rs x).after = rs := by
          have : ∀ rs : List Rev, (Revs.ofList rs).toList = rs := by
            intro rs; induction rs with | nil => rfl | cons r rs ih => simp [Revs.ofList, Revs.toList, ih]
          intro i s a c p rs x; cases p <;> simp [Dlg.mk, Dlg.after, this]
        rw [e1, e2] at ho
        rcases List.mem_append.1 ho with ho | ho
        · obtain ⟨q, hq, rfl⟩ := List.mem_map.1 ho
          rw [Option.mem_toList] at hq
          cases hq
          unfold Keyhive.findProof at hp
          split at hp
          · cases hp
          · split at hp
            · cases hp
            · rename_i hg
              cases hp
              exact ⟨_, hg⟩
        · obtain ⟨r, hr, rfl⟩ := List.mem_map.1 ho
          exact hrevs hrs r hr

theorem toRev_inStore {k : Keyhive} {s : SRev} {r : Rev} (hd : k.toRev s = .ok r) : ∀ o, Dep (.rev r) o → k.InStore o := by
  unfold Keyhive.toRev at hd
  split at hd
  · cases hd
  · rename_i d hg
    split at hd
    · cases hd
    · rename_i p hp
      cases hd
      intro o ho
      change o ∈ Op.dlg (Rev.mk _ _ _ _ _).revoke :: List.map Op.dlg (Rev.mk _ _ _ _ _).proof.toList at ho
      have e1 : ∀ i s d (p : Option Dlg) x, (Rev.mk i s d p x).proof = p := by intro i s d p x; cases p <;> rfl
      have e2 : ∀ i s d (p : Option Dlg) x, (Rev.mk i s d p x).revoke = d := by intro i s d p x; cases p <;> rfl
      rw [e1, e2] at ho
      rcases List.mem_cons.1 ho with rfl | ho
      · exact ⟨_, hg⟩
      · obtain ⟨q, hq, rfl⟩ := List.mem_map.1 ho
        rw [Option.mem_toList] at hq
        cases hq
        unfold Keyhive.findProof at hp
        split at hp
        · cases hp
        · split at hp
          · cases hp
          · rename_i hg
            cases hp
            exact ⟨_, hg⟩

theorem inStore_dlg {k k' : Keyhive} {s : SDlg} {d : Dlg} (hn : AMap.get k.dlgs (E.hashDlg s) = none)
    (hd : k'.dlgs = AMap.insert k.dlgs (E.hashDlg s) d) (hr : k'.revs = k.revs) (o : Op) : k'.InStore o ↔ k.InStore o ∨ o = .dlg d := by
  cases o with
  | rev r => simp [Keyhive.InStore, hr]
  | dlg x =>
    simp only [Keyhive.InStore, hd, AMap.get_insert, Op.dlg.injEq]
    constructor
    · rintro ⟨h, hh⟩
      split at hh
      · cases hh; exact .inr rfl
      · exact .inl ⟨h, hh⟩
    · rintro (⟨h, hh⟩ | rfl)
      · exact ⟨h, by rw [if_neg (by rintro rfl; rw [hn] at hh; cases hh)]; exact hh⟩
      · exact ⟨_, by rw [if_pos rfl]⟩

theorem inStore_rev {k k' : Keyhive} {s : SRev} {r : Rev} (hn : AMap.get k.revs (E.hashRev s) = none)
    (hd : k'.revs = AMap.insert k.revs (E.hashRev s) r) (hr : k'.dlgs = k.dlgs) (o : Op) : k'.InStore o ↔ k.InStore o ∨ o = .rev r := by
  cases o with
  | dlg r => simp [Keyhive.InStore, hr]
  | rev x =>
    simp only [Keyhive.InStore, hd, AMap.get_insert, Op.rev.injEq]
    constructor
    · rintro ⟨h, hh⟩
      split at hh
      · cases hh; exact .inr rfl
      · exact .inl ⟨h, hh⟩
    · rintro (⟨h, hh⟩ | rfl)
      · exact ⟨h, by rw [if_neg (by rintro rfl; rw [hn] at hh; cases hh)]; exact hh⟩
      · exact ⟨_, by rw [if_pos rfl]⟩

theorem Settled.same {k k' : Keyhive} (h : Settled k) (hd : k'.dlgs = k.dlgs) (hr : k'.revs = k.revs) (hw : ∀ i, AMap.get k'.world i = AMap.get k.world i) :
    Settled k' := by
  have hs : ∀ o, k'.InStore o ↔ k.InStore o := by intro o; cases o <;> simp [Keyhive.InStore, hd, hr]
  exact ⟨fun o ho => by rw [hw]; exact h.held o ((hs o).1 ho), fun i g o hi ho => (hs o).2 (h.stored i g o (by rw [← hw]; exact hi) ho),
    fun i g hi => h.about i g (by rw [← hw]; exact hi)⟩

/-- The event does not make a known individual a group. -/
def Fair (k : Keyhive) : Event → Prop
  | .dlg s => s.proof = none → k.individual s.issuer = none
  | _ => True

theorem settled_receiveDelegation {k : Keyhive} (hs : StoreOk E k) (hk : Kept E k) (h : Settled k) (s : SDlg)
    (hf : s.proof = none → k.individual s.issuer = none) (hp : PlainOn E (k.receiveDelegation E s).1.InStore) :
    Settled (k.receiveDelegation E s).1 := by
  unfold Keyhive.receiveDelegation at hp ⊢
  split
  · exact h
  · rename_i hc
    have hn : AMap.get k.dlgs (E.hashDlg s) = none := by
      rw [contains_eq_isSome] at hc
      simpa using hc
    rw [if_neg hc] at hp
    split
    · exact h
    · rename_i hv
      rw [if_neg hv] at hp
      split
      · exact h
      · rename_i d hd
        rw [hd] at hp
        dsimp only at hp
        have hdig : E.dlgDigest d = E.hashDlg s := by rw [dlgDigest_eq, toDlg_static hs hd]
        have hdeps := toDlg_inStore hd
        unfold Keyhive.applyDlg at hp ⊢
        split
        · rename_i g hg
          rw [hg] at hp
          dsimp only at hp
          have hw : AMap.get k.world (Op.dlg d).subject = some g := by
            rw [get_world, show (Op.dlg d).subject = d.subject from rfl, hg]; rfl
          split
          · exact h
          · rename_i g' hg'
            rw [hg'] at hp
            have hst := inStore_dlg (k := k) (k' := { k.storeDlg E d with groups := AMap.insert k.groups d.subject g' }) hn
              (by rw [← hdig]; rfl) rfl
            obtain ⟨f1, f2, f3⟩ := accepted_facts h hw (hk.groups hg).2.1 (.dlg _ hg') hdeps (hp.mono (fun o ho => (hst o).2 ho))
            exact h.step (world_insertGroup rfl rfl) hst hdeps f1 f2 f3
        · rename_i hng
          rw [hng] at hp
          dsimp only at hp
          split
          · rename_i doc hg
            rw [hg] at hp
            dsimp only at hp
            have hw : AMap.get k.world (Op.dlg d).subject = some doc.group := by
              rw [get_world, show (Op.dlg d).subject = d.subject from rfl, hng, hg]; rfl
            split
            · exact h
            · rename_i g' hg'
              rw [hg'] at hp
              have hst := inStore_dlg (k := k) (k' := { k.storeDlg E d with docs := AMap.insert k.docs d.subject { doc with group := g' } }) hn
                (by rw [← hdig]; rfl) rfl
              obtain ⟨f1, f2, f3⟩ := accepted_facts h hw (hk.docs hg).2.1 (.dlg _ hg') hdeps (hp.mono (fun o ho => (hst o).2 ho))
              exact h.step (x := .dlg d) (world_insertDoc (k := k) (i := d.subject) (k' := { k.storeDlg E d with docs := AMap.insert k.docs d.subject { doc with group := g' } })
                (d := { doc with group := g' }) hng rfl rfl) hst hdeps f1 f2 f3
          · rename_i hnd
            have hnw : AMap.get k.world (Op.dlg d).subject = none := by
              rw [get_world, show (Op.dlg d).subject = d.subject from rfl, hng, hnd]; rfl
            have hroot : d.proof = none := by
              cases hpr : d.proof with
              | none => rfl
              | some p =>
                obtain ⟨g, hg, _⟩ := h.held (.dlg p) (hdeps (.dlg p) (by simp [Dep, Op.after, hpr]))
                have : (Op.dlg p).subject = (Op.dlg d).subject := by
                  cases d with
                  | root => cases hpr
                  | link => cases hpr; rfl
                rw [this, hnw] at hg
                cases hg
            have hsub : d.subject = d.issuer := by
              cases d with
              | root => rfl
              | link => cases hroot
            have hst' := toDlg_static hs hd
            have hsi : s.issuer = d.issuer := by rw [← hst']; rfl
            have hsp : s.proof = none := by rw [← hst']; simp [Env.sdlg, hroot]
            have hind : k.individual d.subject = none := by rw [hsub, ← hsi]; exact hf hsp
            rw [hind]
            dsimp only
            have hnone : ∀ o, ¬ ∃ g, AMap.get k.world (Op.dlg d).subject = some g ∧ g.Holds o := by
              rintro o ⟨g, hg, _⟩
              rw [hnw] at hg; cases hg
            have hg0 : ∀ g' : Group, g'.heads = [.dlg d] → ∀ o, g'.Holds o ↔
                (∃ g, AMap.get k.world (Op.dlg d).subject = some g ∧ g.Holds o) ∨ ReflTransGen Dep (.dlg d) o := by
              intro g' hh o
              unfold Group.Holds Below
              rw [hh]
              constructor
              · rintro ⟨y, hy, hyo⟩
                rw [List.mem_singleton] at hy; subst hy; exact .inr hyo
              · rintro (hc | hyo)
                · exact absurd hc (hnone o)
                · exact ⟨_, by simp, hyo⟩
            have ha : ∀ g' : Group, g'.heads = [.dlg d] → ∀ o ∈ g'.heads, o.subject = (Op.dlg d).subject := by
              intro g' hh o ho
              rw [hh, List.mem_singleton] at ho
              rw [ho]
            obtain ⟨n1, n2, n3⟩ := new_heads (E := E) d
            have hid : d.subject = (Group.new E.opDigest d).id := hsub
            unfold Keyhive.adopt
            dsimp only
            split
            · refine h.step (x := .dlg d) (g' := (Group.new E.opDigest d).rebuild E.opDigest) ?_
                (inStore_dlg (s := s) hn (by rw [← hdig]; rfl) rfl) hdeps (hg0 _ n2) n3 (ha _ n2)
              rename_i h0 hs0 _
              exact world_insertDoc (k := k) (i := d.subject) (d := { group := (Group.new E.opDigest d).rebuild E.opDigest, heads := h0 :: hs0, cgka := none })
                (k' := (k.storeDlg E d).insertDoc { group := (Group.new E.opDigest d).rebuild E.opDigest, heads := h0 :: hs0, cgka := none }) hng rfl
                (by rw [hid]; rfl)
            · refine h.step (x := .dlg d) (g' := Group.new E.opDigest d) ?_
                (inStore_dlg (s := s) hn (by rw [← hdig]; rfl) rfl) hdeps (hg0 _ n1) n3 (ha _ n1)
              exact world_insertGroup (k := k) (i := d.subject) (by rw [hid]; rfl) rfl

theorem settled_receiveRevocation {k : Keyhive} (hs : StoreOk E k) (hk : Kept E k) (h : Settled k) (s : SRev)
    (hp : PlainOn E (k.receiveRevocation E s).1.InStore) : Settled (k.receiveRevocation E s).1 := by
  unfold Keyhive.receiveRevocation at hp ⊢
  split
  · exact h
  · rename_i hc
    have hn : AMap.get k.revs (E.hashRev s) = none := by
      rw [contains_eq_isSome] at hc
      simpa using hc
    rw [if_neg hc] at hp
    split
    · exact h
    · rename_i hv
      rw [if_neg hv] at hp
      split
      · exact h
      · rename_i d hd
        rw [hd] at hp
        dsimp only at hp
        have hdig : E.revDigest d = E.hashRev s := by rw [revDigest_eq, toRev_static hs hd]
        have hdeps := toRev_inStore hd
        unfold Keyhive.applyRev at hp ⊢
        split
        · rename_i g hg
          rw [hg] at hp
          dsimp only at hp
          have hw : AMap.get k.world (Op.rev d).subject = some g := by
            rw [get_world, show (Op.rev d).subject = d.subject from rfl, hg]; rfl
          split
          · exact h
          · rename_i g' hg'
            rw [hg'] at hp
            have hst := inStore_rev (k := k) (k' := { k.storeRev E d with groups := AMap.insert k.groups d.subject g' }) hn
              (by rw [← hdig]; rfl) rfl
            obtain ⟨f1, f2, f3⟩ := accepted_facts h hw (hk.groups hg).2.1 (.rev _ hg') hdeps (hp.mono (fun o ho => (hst o).2 ho))
            exact h.step (world_insertGroup rfl rfl) hst hdeps f1 f2 f3
        · rename_i hng
          rw [hng] at hp
          dsimp only at hp
          split
          · rename_i doc hg
            rw [hg] at hp
            dsimp only at hp
            have hw : AMap.get k.world (Op.rev d).subject = some doc.group := by
              rw [get_world, show (Op.rev d).subject = d.subject from rfl, hng, hg]; rfl
            split
            · exact h
            · rename_i g' hg'
              rw [hg'] at hp
              have hst := inStore_rev (k := k) (k' := { k.storeRev E d with docs := AMap.insert k.docs d.subject { doc with group := g' } }) hn
                (by rw [← hdig]; rfl) rfl
              obtain ⟨f1, f2, f3⟩ := accepted_facts h hw (hk.docs hg).2.1 (.rev _ hg') hdeps (hp.mono (fun o ho => (hst o).2 ho))
              exact h.step (x := .rev d) (world_insertDoc (k := k) (i := d.subject) (k' := { k.storeRev E d with docs := AMap.insert k.docs d.subject { doc with group := g' } })
                (d := { doc with group := g' }) hng rfl rfl) hst hdeps f1 f2 f3
          · rename_i hnd
            exfalso
            obtain ⟨g, hg, _⟩ := h.held (.dlg d.revoke) (hdeps (.dlg d.revoke) (by simp [Dep, Op.after]))
            rw [get_world, show (Op.dlg d.revoke).subject = d.subject from rfl, hng, hnd] at hg
            cases hg

theorem settled_receive {k : Keyhive} (hs : StoreOk E k) (hk : Kept E k) (h : Settled k) (e : Event) (hf : Fair k e)
    (hp : PlainOn E (k.receive E e).1.InStore) : Settled (k.receive E e).1 := by
  cases e with
  | prekey op => exact h.same rfl rfl (fun _ => rfl)
  | cgka id op =>
    have hw := (cgka_fade (E := E) k id op).world
    exact h.same (receiveCgkaOp_stores k id op).1 (receiveCgkaOp_stores k id op).2 (fun i => by
      show AMap.get (k.receiveCgkaOp E id op).1.world i = _
      rw [hw])
  | dlg s => exact settled_receiveDelegation hs hk h s hf hp
  | rev s => exact settled_receiveRevocation hs hk h s hp

/-! ## A whole batch -/

/-- The device after receiving events one after the other. -/
def feedAll (E : Env) (k : Keyhive) (es : List Event) : Keyhive := es.foldl (fun k e => (k.receive E e).1) k

theorem pass_trace : ∀ {es : List Event} {k k' : Keyhive} {next out : List Event}, Keyhive.pass E k es next = (k', .ok out) →
    k' = feedAll E k es := by
  intro es
  induction es with
  | nil => intro k k' next out h; cases h; rfl
  | cons e es ih =>
    intro k k' next out h
    unfold Keyhive.pass at h
    generalize hg : k.receive E e = r at h
    obtain ⟨k1, out1⟩ := r
    have hk1 : (k.receive E e).1 = k1 := by rw [hg]
    show k' = feedAll E (k.receive E e).1 es
    rw [hk1]
    cases out1 with
    | ok u => exact ih h
    | error err =>
      dsimp only at h
      split at h
      · cases h
      · split at h
        · exact ih h
        · exact ih h

theorem rounds_trace {replayed : List Nat} : ∀ {n : Nat} {k k' : Keyhive} {epoch left : List Event},
    Keyhive.rounds E replayed n k epoch = (k', some (.ok left)) →
    ∃ t p, (∀ e ∈ t, e ∈ epoch) ∧ k' = { feedAll E k t with pending := p } := by
  intro n
  induction n with
  | zero => intro k k' epoch left h; cases h
  | succ n ih =>
    intro k k' epoch left h
    unfold Keyhive.rounds at h
    generalize hg : Keyhive.pass E k epoch [] = r at h
    obtain ⟨k1, out1⟩ := r
    cases out1 with
    | error err => cases h
    | ok next =>
      have h1 := pass_trace hg
      obtain ⟨_, failed, hf1, hf2, _⟩ := pass_spec hg
      rw [List.nil_append] at hf1
      subst hf1
      cases next with
      | nil =>
        cases h
        exact ⟨epoch, _, fun e he => he, by rw [h1]⟩
      | cons e es =>
        dsimp only at h
        split at h
        · cases h
          exact ⟨epoch, _, fun e he => he, by rw [h1]⟩
        · obtain ⟨t, p, ht, hk'⟩ := ih h
          refine ⟨epoch ++ t, p, ?_, ?_⟩
          · intro x hx
            rcases List.mem_append.1 hx with hx | hx
            · exact hx
            · exact hf2.subset (ht x hx)
          · rw [hk', h1]
            simp [feedAll, List.foldl_append]

theorem feedAll_ok : ∀ (es : List Event) {k : Keyhive}, StoreOk E k → StoreOk E (feedAll E k es)
  | [], _, h => h
  | e :: es, _, h => feedAll_ok es (storeOk_receive h e)

theorem feedAll_inStore : ∀ (es : List Event) {k : Keyhive}, StoreOk E k → ∀ {o : Op}, k.InStore o → (feedAll E k es).InStore o
  | [], _, _, _, h => h
  | e :: es, _, hs, _, h => feedAll_inStore es (storeOk_receive hs e) (receive_inStore hs e h)

theorem feedAll_has_back (hE : E.NoClash) : ∀ (es : List Event) {k : Keyhive}, StoreOk E k → ∀ {m : SMem}, (feedAll E k es).HasOp E m →
    k.HasOp E m ∨ m.event ∈ es
  | [], _, _, _, h => .inl h
  | e :: es, k, hs, m, h => by
    rcases feedAll_has_back hE es (storeOk_receive hs e) h with h1 | h1
    · rcases receive_has_back hE hs e h1 with h2 | h2
      · exact .inl h2
      · exact .inr (by rw [h2]; simp)
    · exact .inr (List.mem_cons_of_mem _ h1)

/-! ## Individuals -/

theorem indie_receive_id {H : Prekey.KeyOp → Nat} {valid : Prekey.KeyOp → Bool} {x y : Prekey.Indie} {op : Prekey.KeyOp}
    (h : x.receive H valid op = .ok y) : y.id = x.id := by
  unfold Prekey.Indie.receive at h
  split at h
  · cases h
  · simp only [bind, Except.bind, pure, Except.pure] at h
    split at h
    · cases h
    · cases h; rfl

/-- What a prekey operation does to the list of individuals. -/
theorem prekey_indies (k : Keyhive) (h : OwnIds k) (op : Prekey.KeyOp) :
    (k.receivePrekeyOp E op).1.reg.me = k.reg.me ∧ OwnIds (k.receivePrekeyOp E op).1 ∧
      ∀ i, op.issuer ≠ i → AMap.get (k.receivePrekeyOp E op).1.reg.indies i = AMap.get k.reg.indies i := by
  have put : ∀ (r : Prekey.Registry) (x : Prekey.Indie), x.id = op.issuer → (∀ i y, AMap.get r.indies i = some y → y.id = i) →
      (r.receiveIndie E.hashKey E.validKey x op).1.me = r.me ∧
      (∀ i y, AMap.get (r.receiveIndie E.hashKey E.validKey x op).1.indies i = some y → y.id = i) ∧
      ∀ i, op.issuer ≠ i → AMap.get (r.receiveIndie E.hashKey E.validKey x op).1.indies i = AMap.get r.indies i := by
    intro r x hx hr
    unfold Prekey.Registry.receiveIndie
    split
    · exact ⟨rfl, hr, fun _ _ => rfl⟩
    · rename_i y hy
      refine ⟨rfl, ?_, ?_⟩
      · intro i z hz
        rw [AMap.get_insert] at hz
        split at hz
        · rename_i e; cases hz; rw [indie_receive_id hy, e]
        · exact hr i z hz
      · intro i hi
        rw [AMap.get_insert, if_neg (by rw [hx]; exact fun e => hi e.symm)]
  unfold Keyhive.receivePrekeyOp OwnIds
  dsimp only
  unfold Prekey.Registry.receivePrekeyOp
  split
  · exact ⟨rfl, h, fun _ _ => rfl⟩
  · split
    · unfold Prekey.Registry.receiveMembered
      split
      · exact ⟨rfl, h, fun _ _ => rfl⟩
      · split
        · exact ⟨rfl, h, fun _ _ => rfl⟩
        · exact ⟨rfl, h, fun _ _ => rfl⟩
    · split
      · rename_i x hx
        exact put k.reg x (h _ _ hx) h
      · rename_i hx
        have hr : ∀ i y, AMap.get (k.reg.registerIndividual (Prekey.Indie.new E.hashKey op)).indies i = some y → y.id = i := by
          unfold Prekey.Registry.registerIndividual
          split
          · exact h
          · intro i y hy
            rw [AMap.get_insert] at hy
            split at hy
            · rename_i e; cases hy; exact e.symm
            · exact h i y hy
        have hg : ∀ i, op.issuer ≠ i → AMap.get (k.reg.registerIndividual (Prekey.Indie.new E.hashKey op)).indies i = AMap.get k.reg.indies i := by
          unfold Prekey.Registry.registerIndividual
          split
          · exact fun _ _ => rfl
          · intro i hi
            rw [AMap.get_insert, if_neg (fun e => hi e.symm)]
        have hm : (k.reg.registerIndividual (Prekey.Indie.new E.hashKey op)).me = k.reg.me := by
          unfold Prekey.Registry.registerIndividual
          split <;> rfl
        obtain ⟨p1, p2, p3⟩ := put (k.reg.registerIndividual (Prekey.Indie.new E.hashKey op)) (Prekey.Indie.new E.hashKey op) rfl hr
        exact ⟨p1.trans hm, p2, fun i hi => (p3 i hi).trans (hg i hi)⟩

theorem removeIndividual_individual (k : Keyhive) (j : Id) {i : Id} (h : k.individual i = none) : (k.removeIndividual j).individual i = none := by
  unfold Keyhive.removeIndividual Keyhive.individual at *
  split
  · split
    · rfl
    · rename_i h1
      by_cases hc : i = k.reg.me
      · exact absurd ⟨hc, rfl⟩ h1
      · rw [if_neg (fun hx => hc hx.1)] at h
        exact h
  · dsimp only
    split
    · rfl
    · rename_i h1
      rw [if_neg h1] at h
      rw [AMap.get_erase]
      split
      · rfl
      · exact h

/-- Whoever is not known as an individual is not known as one after an operation, unless it is about their prekeys. -/
structure Fewer (k k' : Keyhive) : Prop where
  ids : OwnIds k → OwnIds k'
  gone : ∀ i, k.individual i = none → k'.individual i = none

theorem Fewer.same {k k' : Keyhive} (hm : k'.reg.me = k.reg.me) (hi : k'.reg.indies = k.reg.indies) (hu : k'.unlisted = k.unlisted) : Fewer k k' :=
  ⟨fun h => by unfold OwnIds; rw [hi]; exact h, fun i h => by unfold Keyhive.individual at *; rw [hm, hi, hu]; exact h⟩

theorem Fewer.trans {k k1 k2 : Keyhive} (h : Fewer k k1) (h' : Fewer k1 k2) : Fewer k k2 :=
  ⟨fun x => h'.ids (h.ids x), fun i x => h'.gone i (h.gone i x)⟩

theorem fewer_remove (k : Keyhive) (i : Id) : Fewer k (k.removeIndividual i) := by
  refine ⟨?_, fun j h => removeIndividual_individual k i h⟩
  intro h
  unfold Keyhive.removeIndividual
  split
  · exact h
  · intro j x hx
    dsimp only at hx
    rw [AMap.get_erase] at hx
    split at hx
    · cases hx
    · exact h j x hx

theorem fewer_receiveDelegation (k : Keyhive) (s : SDlg) : Fewer k (k.receiveDelegation E s).1 := by
  have r : Fewer k k := .same rfl rfl rfl
  unfold Keyhive.receiveDelegation
  split
  · exact r
  · split
    · exact r
    · split
      · exact r
      · rename_i d hd
        unfold Keyhive.applyDlg
        split
        · split
          · exact r
          · exact .same rfl rfl rfl
        · split
          · split
            · exact r
            · exact .same rfl rfl rfl
          · split
            · have h1 := promote_fst (E := E) (k.removeIndividual d.subject) d
              have h2 : Fewer k ((k.removeIndividual d.subject).storeDlg E d) := (fewer_remove k _).trans (.same rfl rfl rfl)
              split
              · rename_i heq
                rw [heq] at h1
                simp only at h1 ⊢
                rw [h1]; exact h2
              · rename_i heq
                rw [heq] at h1
                simp only at h1 ⊢
                rw [h1]; exact h2
            · unfold Keyhive.adopt
              dsimp only
              split <;> exact .same rfl rfl rfl

theorem fewer_receiveRevocation (k : Keyhive) (s : SRev) : Fewer k (k.receiveRevocation E s).1 := by
  have r : Fewer k k := .same rfl rfl rfl
  unfold Keyhive.receiveRevocation
  split
  · exact r
  · split
    · exact r
    · split
      · exact r
      · rename_i d hd
        unfold Keyhive.applyRev
        split
        · split
          · exact r
          · exact .same rfl rfl rfl
        · split
          · split
            · exact r
            · exact .same rfl rfl rfl
          · split
            · have h1 := promote_fst (E := E) (k.removeIndividual d.subject) d.revoke
              have h2 : Fewer k ((k.removeIndividual d.subject).storeDlg E d.revoke) := (fewer_remove k _).trans (.same rfl rfl rfl)
              split
              · rename_i heq
                rw [heq] at h1
                simp only at h1 ⊢
                rw [h1]; exact h2
              · rename_i heq
                rw [heq] at h1
                simp only at h1 ⊢
                rw [h1]
                split
                · exact h2
                · exact h2.trans (.same rfl rfl rfl)
            · exact r

theorem receiveCgkaOp_reg (k : Keyhive) (id : Id) (op : SOp) : (k.receiveCgkaOp E id op).1.reg = k.reg ∧ (k.receiveCgkaOp E id op).1.unlisted = k.unlisted := by
  unfold Keyhive.receiveCgkaOp Keyhive.mergePublicInvite
  repeat' split
  all_goals exact ⟨rfl, rfl⟩

theorem receive_individual {k : Keyhive} (hid : OwnIds k) (e : Event) : OwnIds (k.receive E e).1 ∧
    ∀ i, k.individual i = none → (∀ op, e = .prekey op → op.issuer ≠ i) → (k.receive E e).1.individual i = none := by
  cases e with
  | prekey op =>
    obtain ⟨h1, h2, h3⟩ := prekey_indies (E := E) k hid op
    refine ⟨h2, fun i hi hne => ?_⟩
    show (k.receivePrekeyOp E op).1.individual i = none
    unfold Keyhive.individual at hi ⊢
    rw [h1, h3 i (hne op rfl)]
    exact hi
  | cgka id op =>
    obtain ⟨h1, h2⟩ := receiveCgkaOp_reg (E := E) k id op
    have f : Fewer k (k.receive E (.cgka id op)).1 := .same (congrArg _ h1) (congrArg _ h1) h2
    exact ⟨f.ids hid, fun i hi _ => f.gone i hi⟩
  | dlg s => exact ⟨(fewer_receiveDelegation k s).ids hid, fun i hi _ => (fewer_receiveDelegation k s).gone i hi⟩
  | rev s => exact ⟨(fewer_receiveRevocation k s).ids hid, fun i hi _ => (fewer_receiveRevocation k s).gone i hi⟩

theorem settled_feedAll {L : List Event} : ∀ (es : List Event) {k : Keyhive}, (∀ e ∈ es, e ∈ L) → StoreOk E k → Kept E k → OwnIds k → Separate k L → Settled k →
    PlainOn E (feedAll E k es).InStore → Settled (feedAll E k es)
  | [], _, _, _, _, _, _, h, _ => h
  | e :: es, k, hL, hs, hk, hid, hf, h, hp => by
    have hs' := storeOk_receive hs e
    obtain ⟨i1, i2⟩ := receive_individual (E := E) hid e
    refine settled_feedAll es (k := (k.receive E e).1) (fun x hx => hL x (List.mem_cons_of_mem _ hx)) hs' (kept_receive hk e) i1 ?_ ?_ hp
    · intro s hsm hsp
      obtain ⟨h1, h2⟩ := hf s hsm hsp
      refine ⟨i2 _ h1 ?_, h2⟩
      rintro op rfl
      exact h2 op (hL _ (by simp))
    · refine settled_receive hs hk h e ?_ (hp.mono (fun o ho => feedAll_inStore es hs' ho))
      cases e with
      | dlg s => exact fun hsp => (hf s (hL _ (by simp)) hsp).1
      | _ => trivial

/-! ## Operations that can be told apart -/

theorem smem_digest (E : Env) (hE : E.NoClash) (hx : ∀ s r, E.hashDlg s ≠ E.hashRev r) {a b : Op} : E.opDigest a = E.opDigest b ↔ E.smem a = E.smem b := by
  cases a <;> cases b <;> simp only [Env.opDigest, Env.smem, dlgDigest_eq, revDigest_eq, SMem.dlg.injEq, SMem.rev.injEq, reduceCtorEq, iff_false]
  · exact hE.dlg.eq_iff
  · exact hx _ _
  · exact fun h => hx _ _ h.symm
  · exact hE.rev.eq_iff

theorem inStore_inj (hE : E.NoClash) (hx : ∀ s r, E.hashDlg s ≠ E.hashRev r) {k : Keyhive} (hs : StoreOk E k) {a b : Op} (ha : k.InStore a)
    (hb : k.InStore b) (h : E.smem a = E.smem b) : a = b := by
  cases a with
  | dlg a =>
    cases b with
    | rev b => cases h
    | dlg b =>
      obtain ⟨x, hx1⟩ := ha
      obtain ⟨y, hy1⟩ := hb
      have e1 := (hs.dlg _ _ hx1).1
      have e2 := (hs.dlg _ _ hy1).1
      have : E.opDigest (.dlg a) = E.opDigest (.dlg b) := (smem_digest E hE hx).2 h
      change E.dlgDigest a = E.dlgDigest b at this
      rw [← e1, this] at hx1
      rw [← e2, hx1] at hy1
      cases hy1; rfl
  | rev a =>
    cases b with
    | dlg b => cases h
    | rev b =>
      obtain ⟨x, hx1⟩ := ha
      obtain ⟨y, hy1⟩ := hb
      have e1 := (hs.rev _ _ hx1).1
      have e2 := (hs.rev _ _ hy1).1
      have : E.opDigest (.rev a) = E.opDigest (.rev b) := (smem_digest E hE hx).2 h
      change E.revDigest a = E.revDigest b at this
      rw [← e1, this] at hx1
      rw [← e2, hx1] at hy1
      cases hy1; rfl

theorem smem_sig (o : Op) : (E.smem o).sig = o.sig := by cases o <;> rfl

theorem has_past {k : Keyhive} (hst : Stocked E k) {o b : Op} (ho : k.InStore o) (hb : ReflTransGen Dep o b) : k.HasOp E (E.smem b) := by
  have := hst.down o (by cases o <;> exact ho) b hb
  cases b with
  | dlg d => simpa only [Has, Env.smem, Keyhive.HasOp, dlgDigest_eq] using this
  | rev r => simpa only [Has, Env.smem, Keyhive.HasOp, revDigest_eq] using this

theorem plainOn_of_clear (hE : E.NoClash) (hx : ∀ s r, E.hashDlg s ≠ E.hashRev r) {k : Keyhive} (hs : StoreOk E k) (hst : Stocked E k)
    (hc : Clear (k.HasOp E)) : PlainOn E k.InStore := by
  refine ⟨fun a b ha hb h => inStore_inj hE hx hs ha hb ((smem_digest E hE hx).1 h), ?_, ?_⟩
  · intro a b ha hb h
    refine inStore_inj hE hx hs ha hb (hc.sigs _ _ (has_of_store hs ha) (has_of_store hs hb) ?_)
    rw [smem_sig, smem_sig]; exact h
  · rintro a b ha hb ⟨h1, h2, h3, h4, h5⟩
    have key : ∀ {x y : Op}, ReflTransGen Dep (.dlg a) x → ReflTransGen Dep (.dlg b) y → x.sig = y.sig → E.opDigest x = E.opDigest y := by
      intro x y hx' hy' e
      refine (smem_digest E hE hx).2 (hc.sigs _ _ (has_past hst ha hx') (has_past hst hb hy') ?_)
      rw [smem_sig, smem_sig]; exact e
    have hab : E.sdlg a = E.sdlg b := by
      refine hc.payloads _ _ (has_of_store hs ha) (has_of_store hs hb) (congrArg Agent.id h1) h2 ?_ ?_ h5
      · show a.proof.map E.dlgDigest = b.proof.map E.dlgDigest
        cases hp : a.proof with
        | none => rw [hp] at h3; cases hq : b.proof with
          | none => rfl
          | some q => rw [hq] at h3; cases h3
        | some p =>
          rw [hp] at h3
          cases hq : b.proof with
          | none => rw [hq] at h3; cases h3
          | some q =>
            rw [hq] at h3
            simp only [Option.map_some, Option.some.injEq, Prod.mk.injEq] at h3 ⊢
            refine key (x := .dlg p) (y := .dlg q) (.single ?_) (.single ?_) h3.2
            · show _ ∈ List.map Op.dlg a.proof.toList ++ List.map Op.rev a.after
              simp [hp]
            · show _ ∈ List.map Op.dlg b.proof.toList ++ List.map Op.rev b.after
              simp [hq]
      · show a.after.map E.revDigest = b.after.map E.revDigest
        have ha' : ∀ r ∈ a.after, Dep (.dlg a) (.rev r) := by
          intro r hr
          show _ ∈ List.map Op.dlg a.proof.toList ++ List.map Op.rev a.after
          simp [hr]
        have hb' : ∀ r ∈ b.after, Dep (.dlg b) (.rev r) := by
          intro r hr
          show _ ∈ List.map Op.dlg b.proof.toList ++ List.map Op.rev b.after
          simp [hr]
        have : ∀ (l m : List Rev), (∀ r ∈ l, Dep (.dlg a) (.rev r)) → (∀ r ∈ m, Dep (.dlg b) (.rev r)) →
            l.map (fun r => (r.issuer, r.sig)) = m.map (fun r => (r.issuer, r.sig)) → l.map E.revDigest = m.map E.revDigest := by
          intro l
          induction l with
          | nil => intro m _ _ e; cases m with
            | nil => rfl
            | cons y m => cases e
          | cons x l ih =>
            intro m hl hm e
            cases m with
            | nil => cases e
            | cons y m =>
              simp only [List.map_cons, List.cons.injEq, Prod.mk.injEq] at e ⊢
              exact ⟨key (x := .rev x) (y := .rev y) (.single (hl x (by simp))) (.single (hm y (by simp))) e.1.2,
                ih m (fun r hr => hl r (by simp [hr])) (fun r hr => hm r (by simp [hr])) e.2⟩
        exact this _ _ ha' hb' h4
    have := inStore_inj hE hx hs ha hb (congrArg SMem.dlg hab)
    cases this; rfl

theorem sole_of_clear (hE : E.NoClash) (hx : ∀ s r, E.hashDlg s ≠ E.hashRev r) {k : Keyhive} (hs : StoreOk E k) (hst : Stocked E k)
    (hc : Clear (k.HasOp E)) (h : Settled k) {i : Id} {g : Group} (hg : AMap.get k.world i = some g) : Sole g.heads := by
  intro r r' hr hr' e
  have h1 := h.stored i g _ hg hr
  have h2 := h.stored i g _ hg hr'
  have d1 : Dep (.rev r) (.dlg r.revoke) := by show _ ∈ Op.after _; cases r <;> simp [Op.after, Rev.revoke]
  have d2 : Dep (.rev r') (.dlg r'.revoke) := by show _ ∈ Op.after _; cases r' <;> simp [Op.after, Rev.revoke]
  have hd : E.opDigest (.dlg r.revoke) = E.opDigest (.dlg r'.revoke) := by
    refine (smem_digest E hE hx).2 (hc.sigs _ _ (has_past hst h1 (.single d1)) (has_past hst h2 (.single d2)) ?_)
    rw [smem_sig, smem_sig]; exact e
  have := hc.once (E.srev r) (E.srev r') (has_of_store hs h1) (has_of_store hs h2) hd
  have := inStore_inj hE hx hs h1 h2 (congrArg SMem.rev this)
  cases this; rfl

/-! ## Batches -/

theorem reach_feedAll : ∀ (es : List Event) {k : Keyhive}, Reach E k → Reach E (feedAll E k es)
  | [], _, h => h
  | e :: es, _, h => reach_feedAll es (.call (.receive e) h trivial)

/-- The device after a batch: it received some of the events of the batch, one after the other. -/
theorem ingest_trace (hH : Function.Injective E.hashEvent) {ord : List Event → List Event} (hord : ∀ l, (ord l).Perm l) {k k' : Keyhive}
    {events left : List Event} (h : k.ingest E ord events = (k', some (.ok left))) :
    ∃ t p, (∀ e ∈ t, e ∈ events ++ k.pending) ∧ k' = { feedAll E k t with pending := p } := by
  obtain ⟨t, p, h1, h2⟩ := rounds_trace h
  exact ⟨t, p, fun e he => (dedup_mem hH _ _).1 ((hord _).mem_iff.1 (h1 e he)), h2⟩

/-- What the device has after a batch of which nothing is left. -/
theorem ingest_has (hE : E.NoClash) (hH : Function.Injective E.hashEvent) {ord : List Event → List Event} (hord : ∀ l, (ord l).Perm l)
    {k k' : Keyhive} (hs : StoreOk E k) {events : List Event} (h : k.ingest E ord events = (k', some (.ok []))) (m : SMem) :
    k'.HasOp E m ↔ k.HasOp E m ∨ m.event ∈ events ++ k.pending := by
  constructor
  · obtain ⟨t, p, h1, rfl⟩ := ingest_trace hH hord h
    intro hm
    rcases feedAll_has_back hE t hs (m := m) (by cases m <;> exact hm) with h2 | h2
    · exact .inl h2
    · exact .inr (h1 _ h2)
  · obtain ⟨k1, h1, _, h3, h4, _⟩ := rounds_spec h
    have hk' : ∀ m, k1.HasOp E m → k'.HasOp E m := by
      intro m hm
      rw [h3]
      cases m <;> exact hm
    rintro (hm | hm)
    · exact hk' m ((h1.grown hs).hasOp hm)
    · rcases h4 m.event ((hord _).mem_iff.2 ((dedup_mem hH _ _).2 hm)) with h5 | ⟨err, k0, _, h5, _⟩ | h5
      · exact hk' m (handled_has hs h5)
      · cases m with
        | dlg s => exact absurd h5 (dlg_not_prekey k0 s err)
        | rev s => exact absurd h5 (rev_not_prekey k0 s err)
      · cases h5

theorem Settled.pending {k : Keyhive} (h : Settled k) (p : List Event) : Settled { k with pending := p } := h.same rfl rfl (fun _ => rfl)

theorem settled_ingest (hE : E.NoClash) (hx : ∀ s r, E.hashDlg s ≠ E.hashRev r) (hH : Function.Injective E.hashEvent)
    {ord : List Event → List Event} (hord : ∀ l, (ord l).Perm l) {k k' : Keyhive} (hk : Reach E k) {events left : List Event}
    (h : k.ingest E ord events = (k', some (.ok left))) (hset : Settled k) (hid : OwnIds k) (hsep : Separate k (events ++ k.pending))
    (hc : Clear (k'.HasOp E)) : Settled k' := by
  obtain ⟨t, p, h1, rfl⟩ := ingest_trace hH hord h
  have hr := reach_feedAll (E := E) t hk
  refine Settled.pending (settled_feedAll (L := events ++ k.pending) t h1 (reach_storeOk hk) (reach_kept hk) hid hsep hset ?_) p
  refine plainOn_of_clear hE hx (reach_storeOk hr) (reach_stocked hr) ?_
  exact ⟨fun a b ha hb => hc.sigs a b (by cases a <;> exact ha) (by cases b <;> exact hb), fun a b => hc.payloads a b, fun a b => hc.once a b⟩

theorem agree_clear (hE : E.NoClash) (hx : ∀ s r, E.hashDlg s ≠ E.hashRev r) {k1 k2 : Keyhive} (r1 : Reach E k1) (r2 : Reach E k2)
    (hsame : ∀ m, k1.HasOp E m ↔ k2.HasOp E m) (hc : Clear (k1.HasOp E)) (h1 : Settled k1) (h2 : Settled k2) (i : Id) :
    k1.membership E i = k2.membership E i ∧ k1.accessIn i = k2.accessIn i :=
  agree hE hx (reach_storeOk r1) (reach_storeOk r2) (reach_kept r1) (reach_kept r2) hsame h1 h2
    (fun _ _ hg => sole_of_clear hE hx (reach_storeOk r1) (reach_stocked r1) hc h1 hg) i

end Verif.Keyhive
