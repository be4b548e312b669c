import Verif.Keyhive.Archive
import Verif.Keyhive.Query
import Verif.Keyhive.StockLemmas

/-! # Saving and loading -/

namespace Verif.Keyhive

open Verif.Group Verif.Cgka Verif.BeeKem Relation

variable {E : Env}

/-- The operations in the stores. -/
def Keyhive.storeOps (k : Keyhive) : List Op := (AMap.values k.dlgs).map Op.dlg ++ (AMap.values k.revs).map Op.rev

theorem mem_storeOps {k : Keyhive} (h : Stocked E k) {o : Op} : o ∈ k.storeOps ↔ Stored k o := by
  unfold Keyhive.storeOps
  cases o with
  | dlg d => simp [Stored, Group.mem_values h.wfd]
  | rev r => simp [Stored, Group.mem_values h.wfr]

theorem below_heads {k : Keyhive} {o : Op} (h : Below k.storeOps o) : Below k.heads o := by
  obtain ⟨x, hx, hr⟩ := h
  exact ⟨x, List.mem_append_left _ hx, hr⟩

theorem held_heads {k : Keyhive} {i : Id} {g : Group} (hg : (i, g) ∈ k.world) {o : Op} (h : g.Holds o) : Below k.heads o := by
  obtain ⟨x, hx, hr⟩ := h
  exact ⟨x, List.mem_append_right _ (List.mem_flatMap.2 ⟨_, hg, hx⟩), hr⟩

theorem world_group {k : Keyhive} {i : Id} {g : Group} (hg : (i, g) ∈ k.groups) : (i, g) ∈ k.world := List.mem_append_left _ hg

theorem world_doc {k : Keyhive} {i : Id} {d : Doc} (hg : (i, d) ∈ k.docs) : (i, d.group) ∈ k.world :=
  List.mem_append_right _ (List.mem_map.2 ⟨_, hg, rfl⟩)

/-- The operation is stored under its digest. -/
def Under (E : Env) (k : Keyhive) : Op → Prop
  | .dlg d => AMap.get k.dlgs (E.dlgDigest d) = some d
  | .rev r => AMap.get k.revs (E.revDigest r) = some r

/-- An operation known to the device is the one stored under its digest. -/
theorem has_get {k : Keyhive} (hs : StoreOk E k) (hc : NoClash E.opDigest k.heads) {o : Op} (hb : Below k.heads o) (ho : Has E k o) :
    Under E k o := by
  cases o with
  | dlg d =>
    simp only [Has] at ho
    obtain ⟨x, hx⟩ := Option.ne_none_iff_exists'.1 ho
    have hx' : Below k.heads (.dlg x) := by
      refine ⟨.dlg x, List.mem_append_left _ (List.mem_append_left _ (List.mem_map.2 ⟨x, ?_, rfl⟩)), .refl⟩
      exact List.mem_map.2 ⟨_, AMap.mem_of_get hx, rfl⟩
    have := hc _ _ hx' hb (hs.dlg _ _ hx).1
    cases this
    exact hx
  | rev r =>
    simp only [Has] at ho
    obtain ⟨x, hx⟩ := Option.ne_none_iff_exists'.1 ho
    have hx' : Below k.heads (.rev x) := by
      refine ⟨.rev x, List.mem_append_left _ (List.mem_append_right _ (List.mem_map.2 ⟨x, ?_, rfl⟩)), .refl⟩
      exact List.mem_map.2 ⟨_, AMap.mem_of_get hx, rfl⟩
    have := hc _ _ hx' hb (hs.rev _ _ hx).1
    cases this
    exact hx

/-! ## Loading the operations -/

/-- The state after some operations have been loaded. -/
structure Loaded (E : Env) (k0 k : Keyhive) (done : List Op) : Prop where
  eq : k = { k0 with dlgs := k.dlgs, revs := k.revs }
  dlg : ∀ h d, AMap.get k.dlgs h = some d ↔ .dlg d ∈ done ∧ E.dlgDigest d = h
  rev : ∀ h r, AMap.get k.revs h = some r ↔ .rev r ∈ done ∧ E.revDigest r = h

theorem ofList_toList : ∀ rs : Revs, Revs.ofList rs.toList = rs
  | .nil => rfl
  | .cons r rs => by simp only [Revs.toList, Revs.ofList, ofList_toList rs]

theorem erase_absent {α β : Type} [DecidableEq α] {m : AMap α β} {a : α} (h : a ∉ AMap.keys m) : AMap.erase m a = m := by
  unfold AMap.erase
  rw [List.filter_eq_self]
  intro p hp
  have : p.1 ≠ a := fun e => h (e ▸ List.mem_map.2 ⟨p, hp, rfl⟩)
  simpa using this

theorem dlg_mk_self (d : Dlg) : Dlg.mk d.issuer d.sig d.delegate d.can d.proof d.after d.content = d := by
  cases d <;> simp [Dlg.mk, Dlg.issuer, Dlg.sig, Dlg.delegate, Dlg.can, Dlg.proof, Dlg.after, Dlg.content, ofList_toList]

theorem rev_mk_self (r : Rev) : Rev.mk r.issuer r.sig r.revoke r.proof r.content = r := by
  cases r <;> rfl

theorem Loaded.findProof {k0 k : Keyhive} {done : List Op} (h : Loaded E k0 k done) {p : Option Dlg}
    (hp : ∀ d, p = some d → .dlg d ∈ done) : k.findProof (p.map E.dlgDigest) = .ok p := by
  cases p with
  | none => rfl
  | some d =>
    simp only [Option.map_some, Keyhive.findProof]
    rw [(h.dlg _ d).2 ⟨hp d rfl, rfl⟩]

theorem Loaded.findRevs {k0 k : Keyhive} {done : List Op} (h : Loaded E k0 k done) : ∀ {rs : List Rev},
    (∀ r ∈ rs, .rev r ∈ done) → k.findRevs (rs.map E.revDigest) = .ok rs
  | [], _ => rfl
  | r :: rs, hr => by
    simp only [List.map_cons, Keyhive.findRevs]
    rw [(h.rev _ r).2 ⟨hr r (by simp), rfl⟩]
    simp only
    rw [h.findRevs (fun x hx => hr x (by simp [hx]))]

theorem archiveAgent_same {k0 k : Keyhive} {done : List Op} (h : Loaded E k0 k done) (i : Id) : k.archiveAgent i = k0.archiveAgent i := by
  rw [h.eq]
  rfl

theorem load_step {k0 k : Keyhive} {done : List Op} (h : Loaded E k0 k done) {o : Op} (hdep : ∀ b, Dep o b → b ∈ done)
    (hc : ∀ x ∈ done, E.opDigest x = E.opDigest o → x = o) (ha : ∀ d, o = .dlg d → k0.archiveAgent d.delegate.id = some d.delegate) :
    ∃ k', k.loadOp E (E.smem o) = .ok k' ∧ Loaded E k0 k' (done ++ [o]) := by
  cases o with
  | dlg d =>
    refine ⟨k.storeDlg E d, ?_, ?_, ?_, ?_⟩
    · have h1 : k.loadDlg (E.sdlg d) = .ok d := by
        unfold Keyhive.loadDlg
        simp only [Env.sdlg]
        rw [h.findProof (fun p hp => hdep _ (mem_after_dlg.2 (.inl ⟨p, hp, rfl⟩))),
          h.findRevs (fun r hr => hdep _ (mem_after_dlg.2 (.inr ⟨r, hr, rfl⟩))), archiveAgent_same h, ha d rfl]
        simp only [dlg_mk_self]
      simp only [Env.smem, Keyhive.loadOp, h1]
    · rw [h.eq]; rfl
    · intro x e
      simp only [Keyhive.storeDlg, CaMap.insert, AMap.get_insert]
      by_cases hx : x = E.dlgDigest d
      · subst hx
        simp only [if_true, Option.some.injEq, List.mem_append, List.mem_singleton, Op.dlg.injEq]
        constructor
        · rintro rfl; exact ⟨.inr rfl, rfl⟩
        · rintro ⟨h1 | h1, h2⟩
          · have := hc _ h1 h2; cases this; rfl
          · exact h1.symm
      · simp only [hx, if_false, h.dlg, List.mem_append, List.mem_singleton, Op.dlg.injEq]
        constructor
        · rintro ⟨h1, h2⟩; exact ⟨.inl h1, h2⟩
        · rintro ⟨h1 | h1, h2⟩
          · exact ⟨h1, h2⟩
          · subst h1; exact absurd h2.symm hx
    · intro x e
      simp [Keyhive.storeDlg, h.rev]
  | rev r =>
    refine ⟨k.storeRev E r, ?_, ?_, ?_, ?_⟩
    · have h1 : k.toRev (E.srev r) = .ok r := by
        unfold Keyhive.toRev
        simp only [Env.srev]
        rw [(h.dlg _ r.revoke).2 ⟨hdep _ (mem_after_rev.2 (.inl rfl)), rfl⟩]
        simp only
        rw [h.findProof (fun p hp => hdep _ (mem_after_rev.2 (.inr ⟨p, hp, rfl⟩)))]
        simp only [rev_mk_self]
      simp only [Env.smem, Keyhive.loadOp, h1]
    · rw [h.eq]; rfl
    · intro x e
      simp [Keyhive.storeRev, h.dlg]
    · intro x e
      simp only [Keyhive.storeRev, CaMap.insert, AMap.get_insert]
      by_cases hx : x = E.revDigest r
      · subst hx
        simp only [if_true, Option.some.injEq, List.mem_append, List.mem_singleton, Op.rev.injEq]
        constructor
        · rintro rfl; exact ⟨.inr rfl, rfl⟩
        · rintro ⟨h1 | h1, h2⟩
          · have := hc _ h1 h2; cases this; rfl
          · exact h1.symm
      · simp only [hx, if_false, h.rev, List.mem_append, List.mem_singleton, Op.rev.injEq]
        constructor
        · rintro ⟨h1, h2⟩; exact ⟨.inl h1, h2⟩
        · rintro ⟨h1 | h1, h2⟩
          · exact ⟨h1, h2⟩
          · subst h1; exact absurd h2.symm hx

theorem load_all {k0 : Keyhive} {all : List Op} (hdep : ∀ l a r, all = l ++ a :: r → ∀ b, Dep a b → b ∈ l)
    (hc : ∀ a ∈ all, ∀ b ∈ all, E.opDigest a = E.opDigest b → a = b)
    (ha : ∀ d, .dlg d ∈ all → k0.archiveAgent d.delegate.id = some d.delegate) :
    ∀ (rest done : List Op) {k : Keyhive}, all = done ++ rest → Loaded E k0 k done →
      ∃ k', k.loadOps E (rest.map E.smem) = .ok k' ∧ Loaded E k0 k' all
  | [], done, k, he, h => ⟨k, rfl, by rw [he, List.append_nil]; exact h⟩
  | o :: rest, done, k, he, h => by
    obtain ⟨k1, h1, h2⟩ := load_step h (hdep done o rest he)
      (fun x hx => hc x (by rw [he]; simp [hx]) o (by rw [he]; simp)) (fun d hd => ha d (by rw [he, hd]; simp))
    obtain ⟨k2, h3, h4⟩ := load_all hdep hc ha rest (done ++ [o]) (by rw [he]; simp) h2
    refine ⟨k2, ?_, h4⟩
    simp only [List.map_cons, Keyhive.loadOps, h1]
    exact h3

/-! ## Filling the groups -/

theorem reifyDlgs_ok {store : CaMap Nat Dlg} {id : Id} : ∀ {heads : CaMap Nat Dlg}, AMap.WF heads →
    (∀ h d, (h, d) ∈ heads → h = E.dlgDigest d ∧ AMap.get store h = some d ∧ (d.proof = none → d.issuer = id)) →
    reifyDlgs E store id (AMap.keys heads) = .ok heads
  | [], _, _ => rfl
  | (h, d) :: m, hw, hm => by
    obtain ⟨h1, h2, h3⟩ := hm h d (by simp)
    obtain ⟨w1, w2⟩ := List.nodup_cons.1 hw
    have ih := reifyDlgs_ok (heads := m) w2 (fun x e hx => hm x e (by simp [hx]))
    have hb : (d.proof.isNone && decide (d.issuer ≠ id)) = false := by
      cases hp : d.proof with
      | none => simp [h3 hp]
      | some p => rfl
    have hi : (CaMap.insert E.dlgDigest m d).1 = (h, d) :: m := by
      simp only [CaMap.insert, AMap.insert, ← h1]
      rw [erase_absent w1]
    show reifyDlgs E store id (h :: AMap.keys m) = _
    simp only [reifyDlgs, h2, ih, hb, hi]
    rfl

theorem reifyRevs_ok {store : CaMap Nat Rev} : ∀ {heads : CaMap Nat Rev}, AMap.WF heads →
    (∀ h d, (h, d) ∈ heads → h = E.revDigest d ∧ AMap.get store h = some d) →
    reifyRevs E store (AMap.keys heads) = .ok heads
  | [], _, _ => rfl
  | (h, d) :: m, hw, hm => by
    obtain ⟨h1, h2⟩ := hm h d (by simp)
    obtain ⟨w1, w2⟩ := List.nodup_cons.1 hw
    have ih := reifyRevs_ok (heads := m) w2 (fun x e hx => hm x e (by simp [hx]))
    have hi : (CaMap.insert E.revDigest m d).1 = (h, d) :: m := by
      simp only [CaMap.insert, AMap.insert, ← h1]
      rw [erase_absent w1]
    show reifyRevs E store (h :: AMap.keys m) = _
    simp only [reifyRevs, h2, ih, hi]

theorem reifyProofs_ok {store : CaMap Nat Dlg} : ∀ {ds : List Dlg}, (∀ d ∈ ds, AMap.get store (E.dlgDigest d) = some d) →
    reifyProofs store (ds.map E.dlgDigest) = .ok ds
  | [], _ => rfl
  | d :: ds, h => by
    simp only [List.map_cons, reifyProofs, h d (by simp), reifyProofs_ok (ds := ds) (fun x hx => h x (by simp [hx]))]

theorem reifyMembers_ok {store : CaMap Nat Dlg} : ∀ {ms : AMap Id (List Dlg)}, AMap.WF ms →
    (∀ i ds, (i, ds) ∈ ms → ds ≠ [] ∧ ∀ d ∈ ds, AMap.get store (E.dlgDigest d) = some d) →
    reifyMembers store ((ms.filter (fun p => !p.2.isEmpty)).map (fun p => (p.1, p.2.map E.dlgDigest))) = .ok ms
  | [], _, _ => rfl
  | (i, ds) :: ms, hw, hm => by
    obtain ⟨h1, h2⟩ := hm i ds (by simp)
    obtain ⟨w1, w2⟩ := List.nodup_cons.1 hw
    have ih := reifyMembers_ok (ms := ms) w2 (fun x e hx => hm x e (by simp [hx]))
    have hb : (!ds.isEmpty) = true := by cases ds <;> simp at h1 ⊢
    have hi : AMap.insert ms i ds = (i, ds) :: ms := by
      simp only [AMap.insert]
      rw [erase_absent w1]
    simp only [List.filter_cons, hb, if_true, List.map_cons, reifyMembers, reifyProofs_ok h2, ih, hi]

/-- The device loaded from the archive, before its groups are filled. -/
theorem load_archive {k : Keyhive} (h : Reach E k) (hc : NoClash E.opDigest k.heads) (ha : Acyclic k.storeOps)
    (hr : ∀ d, Stored k (.dlg d) → KnownAs k d.delegate) :
    ∃ k1, (k.intoArchive E).dummy.loadOps E (k.intoArchive E).ops = .ok k1 ∧
      k1 = { (k.intoArchive E).dummy with dlgs := k1.dlgs, revs := k1.revs } ∧
      (∀ x, AMap.get k1.dlgs x = AMap.get k.dlgs x) ∧ ∀ x, AMap.get k1.revs x = AMap.get k.revs x := by
  have hs := reach_storeOk h
  have hk := reach_stocked h
  have hc' : NoClash E.opDigest k.storeOps := fun a b h1 h2 => hc a b (below_heads h1) (below_heads h2)
  have hmem : ∀ {o}, o ∈ (reverseTopsort E.opDigest (AMap.values k.dlgs) (AMap.values k.revs)).reverse ↔ Below k.storeOps o := by
    intro o
    rw [List.mem_reverse]
    exact complete_of_acyclic hc' ha
  have hhas : ∀ {o}, Below k.storeOps o → Has E k o := by
    rintro o ⟨x, hx, hr⟩
    exact hk.down x ((mem_storeOps hk).1 hx) o hr
  have hagent : ∀ d, Below k.storeOps (.dlg d) → (k.intoArchive E).dummy.archiveAgent d.delegate.id = some d.delegate := by
    intro d hd
    have h1 := has_get hs hc (below_heads hd) (hhas hd)
    have hget : ∀ i, (AMap.contains (k.intoArchive E).dummy.groups i = true ↔ AMap.get k.groups i ≠ none) ∧
        (AMap.contains (k.intoArchive E).dummy.docs i = true ↔ AMap.get k.docs i ≠ none) := by
      intro i
      rw [AMap.contains_iff, AMap.contains_iff, ← AMap.mem_keys_iff, ← AMap.mem_keys_iff]
      simp [Keyhive.intoArchive, Archive.dummy, AMap.keys]
    have hi : ∀ i, (k.intoArchive E).dummy.individual i = AMap.get k.reg.indies i := by
      intro i
      simp [Keyhive.individual, Archive.dummy, Keyhive.intoArchive]
    have hm : (k.intoArchive E).dummy.reg.me = k.reg.me := rfl
    have h2 := hr d ⟨_, h1⟩
    unfold Keyhive.archiveAgent
    rw [hi, hm]
    generalize d.delegate = a at h2
    cases h2 with
    | active => simp
    | individual h3 h4 => simp [h3, Option.isSome_iff_ne_none, h4]
    | group h3 h4 h5 => simp [h3, h4, (hget _).1.2 h5]
    | document h3 h4 h5 h6 =>
      have : AMap.contains (k.intoArchive E).dummy.groups _ = false := Bool.eq_false_iff.2 (fun h => (hget _).1.1 h h5)
      simp [h3, h4, this, (hget _).2.2 h6]
  obtain ⟨k1, h1, h2⟩ := load_all (E := E) (k0 := (k.intoArchive E).dummy)
    (all := (reverseTopsort E.opDigest (AMap.values k.dlgs) (AMap.values k.revs)).reverse)
    (fun l a r he b hb => causal_of_acyclic hc' ha he hb)
    (fun a h1 b h2 => hc' a b (hmem.1 h1) (hmem.1 h2)) (fun d hd => hagent d (hmem.1 hd)) _ [] rfl
    (k := (k.intoArchive E).dummy) ⟨rfl, by simp [Archive.dummy], by simp [Archive.dummy]⟩
  refine ⟨k1, h1, h2.eq, fun x => ?_, fun x => ?_⟩
  · apply Option.ext
    intro d
    rw [h2.dlg, hmem]
    constructor
    · rintro ⟨h3, rfl⟩; exact has_get hs hc (below_heads h3) (hhas h3)
    · intro h3
      exact ⟨⟨_, (mem_storeOps (o := .dlg d) hk).2 ⟨_, h3⟩, .refl⟩, (hs.dlg _ _ h3).1⟩
  · apply Option.ext
    intro d
    rw [h2.rev, hmem]
    constructor
    · rintro ⟨h3, rfl⟩; exact has_get hs hc (below_heads h3) (hhas h3)
    · intro h3
      exact ⟨⟨_, (mem_storeOps (o := .rev d) hk).2 ⟨_, h3⟩, .refl⟩, (hs.rev _ _ h3).1⟩

theorem reify_group {k k1 : Keyhive} (hs : StoreOk E k) (hc : NoClash E.opDigest k.heads) {i : Id} {g : Group} (hg : (i, g) ∈ k.world)
    (hgood : Good E i g) (hfit : Fit E k g) (hd : ∀ x, AMap.get k1.dlgs x = AMap.get k.dlgs x)
    (hr : ∀ x, AMap.get k1.revs x = AMap.get k.revs x) : reifyGroup E k1 (toGroupArchive E g) = .ok (unmark g) := by
  have hget : ∀ {o}, g.Holds o → Under E k o := fun {o} ho => has_get hs hc (held_heads hg ho) (hfit.1 o ho)
  have h1 : reifyDlgs E k1.dlgs g.id (AMap.keys g.dlgHeads) = .ok g.dlgHeads := by
    refine reifyDlgs_ok hgood.2.1.dwf ?_
    intro x d hx
    have hx' := AMap.get_of_mem hgood.2.1.dwf hx
    have hk := hgood.2.1.dkey hx'
    have hin : Op.dlg d ∈ g.heads := List.mem_append_left _ (List.mem_map.2 ⟨d, List.mem_map.2 ⟨_, hx, rfl⟩, rfl⟩)
    refine ⟨hk, ?_, hfit.2 d hin⟩
    rw [hd, hk]
    exact hget (o := .dlg d) ⟨_, hin, .refl⟩
  have h2 : reifyRevs E k1.revs (AMap.keys g.revHeads) = .ok g.revHeads := by
    refine reifyRevs_ok hgood.2.1.rwf ?_
    intro x d hx
    have hx' := AMap.get_of_mem hgood.2.1.rwf hx
    have hk := hgood.2.1.rkey hx'
    have hin : Op.rev d ∈ g.heads := List.mem_append_right _ (List.mem_map.2 ⟨d, List.mem_map.2 ⟨_, hx, rfl⟩, rfl⟩)
    refine ⟨hk, ?_⟩
    rw [hr, hk]
    exact hget (o := .rev d) ⟨_, hin, .refl⟩
  have ht := hgood.2.2.tidy
  have h3 : reifyMembers k1.dlgs ((g.members.filter (fun p => !p.2.isEmpty)).map (fun p => (p.1, p.2.map E.dlgDigest))) = .ok g.members := by
    refine reifyMembers_ok ht.1 ?_
    intro m ds hm
    have hm' := AMap.get_of_mem ht.1 hm
    refine ⟨ht.2.1 m ds hm', ?_⟩
    intro d hdm
    rw [hd]
    exact hget (o := .dlg d) (hgood.2.2.held ⟨ds, hm', hdm⟩)
  simp only [reifyGroup, toGroupArchive, h1, h2, h3]
  rfl

theorem reify_groups {k k1 : Keyhive} : ∀ {m : AMap Id Group}, (∀ i g, (i, g) ∈ m → reifyGroup E k1 (toGroupArchive E g) = .ok (unmark g)) →
    reifyGroups E k1 (m.map (fun p => (p.1, toGroupArchive E p.2))) = .ok (m.map (fun p => (p.1, unmark p.2)))
  | [], _ => rfl
  | (i, g) :: m, h => by
    simp only [List.map_cons, reifyGroups, h i g (by simp), reify_groups (k := k) (m := m) (fun j x hx => h j x (by simp [hx]))]

theorem reify_docs {k k1 : Keyhive} : ∀ {m : AMap Id Doc}, (∀ i d, (i, d) ∈ m → reifyGroup E k1 (toGroupArchive E d.group) = .ok (unmark d.group)) →
    reifyDocs E k1 (m.map (fun p => (p.1, toDocArchive E p.2))) = .ok (m.map (fun p => (p.1, { p.2 with group := unmark p.2.group })))
  | [], _ => rfl
  | (i, d) :: m, h => by
    have h1 := h i d (by simp)
    simp only [List.map_cons, reifyDocs, toDocArchive, h1] at *
    have h2 := reify_docs (k := k) (m := m) (fun j x hx => h j x (by simp [hx]))
    simp only [toDocArchive] at h2
    rw [h2]
    rfl

theorem round_trip {k : Keyhive} (h : Reach E k) (hc : NoClash E.opDigest k.heads) (ha : Acyclic k.heads)
    (hr : ∀ d ∈ AMap.values k.dlgs, KnownAs k d.delegate) :
    ∃ k', tryFromArchive E (k.intoArchive E) = .ok k' ∧ (∀ x, AMap.get k'.dlgs x = AMap.get k.dlgs x) ∧
      (∀ x, AMap.get k'.revs x = AMap.get k.revs x) ∧ k'.groups = k.groups.map (fun p => (p.1, unmark p.2)) ∧
      k'.docs = k.docs.map (fun p => (p.1, { p.2 with group := unmark p.2.group })) ∧ k'.reg = k.reg ∧ k'.unlisted = false ∧
      k'.pairs = k.pairs ∧ k'.pending = k.pending := by
  have hk := reach_stocked h
  have hg := reach_kept h
  have hs := reach_storeOk h
  have ha' : Acyclic k.storeOps := by
    intro o ho
    refine ha o (TransGen.mono ?_ o o ho)
    intro a b hn
    cases hn with
    | dep h1 h2 => exact .dep (below_heads h1) h2
    | revoked h1 h2 h3 h4 => exact .revoked (below_heads h1) (below_heads h2) h3 h4
  obtain ⟨k1, h1, h2, h3, h4⟩ := load_archive h hc ha' (fun d ⟨x, hx⟩ => hr d (List.mem_map.2 ⟨_, AMap.mem_of_get hx, rfl⟩))
  have h5 := reify_groups (E := E) (k := k) (k1 := k1) (m := k.groups) (fun i g hi =>
    have hi' := AMap.get_of_mem hk.wfgs hi
    reify_group hs hc (world_group hi) (hg.groups hi') (hk.groups hi') h3 h4)
  have h6 := reify_docs (E := E) (k := k) (k1 := k1) (m := k.docs) (fun i g hi =>
    have hi' := AMap.get_of_mem hk.wfds hi
    reify_group hs hc (world_doc hi) (hg.docs hi') (hk.docs hi') h3 h4)
  refine ⟨{ k1 with groups := k.groups.map (fun p => (p.1, unmark p.2)),
                    docs := k.docs.map (fun p => (p.1, { p.2 with group := unmark p.2.group })) }, ?_, h3, h4, rfl, rfl, ?_, ?_, ?_, ?_⟩
  · unfold tryFromArchive
    rw [h1]
    simp only
    rw [show (k.intoArchive E).groups = k.groups.map (fun p => (p.1, toGroupArchive E p.2)) from rfl, h5]
    simp only
    rw [show (k.intoArchive E).docs = k.docs.map (fun p => (p.1, toDocArchive E p.2)) from rfl, h6]
  all_goals (show _ = _; rw [h2]; rfl)

end Verif.Keyhive
