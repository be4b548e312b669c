import Verif.Group.GroupFacts

/-!
# Replay does not look at what kind of agent a delegate is

Two devices hold the same operations with different `Agent` variants in them: a device's own user is `Active` on that device and
`Individual` elsewhere. The order of replay and the member view are the same.
-/

namespace Verif.Group

open Relation

mutual
/-- The delegation with all agents in it changed. -/
def Dlg.recast (f : Agent → Agent) : Dlg → Dlg
  | .root i s a c rs x => .root i s (f a) c (rs.recast f) x
  | .link i s a c p rs x => .link i s (f a) c (p.recast f) (rs.recast f) x
/-- See `Dlg.recast`. -/
def Rev.recast (f : Agent → Agent) : Rev → Rev
  | .root i s d x => .root i s (d.recast f) x
  | .via i s d p x => .via i s (d.recast f) (p.recast f) x
/-- See `Dlg.recast`. -/
def Revs.recast (f : Agent → Agent) : Revs → Revs
  | .nil => .nil
  | .cons r rs => .cons (r.recast f) (rs.recast f)
end

/-- See `Dlg.recast`. -/
def Op.recast (f : Agent → Agent) : Op → Op
  | .dlg d => .dlg (d.recast f)
  | .rev r => .rev (r.recast f)

variable {f : Agent → Agent}

theorem Revs.toList_recast : ∀ rs : Revs, (rs.recast f).toList = rs.toList.map (Rev.recast f)
  | .nil => rfl
  | .cons r rs => by simp [Revs.recast, Revs.toList, Revs.toList_recast rs]

@[simp] theorem Dlg.recast_sig (d : Dlg) : (d.recast f).sig = d.sig := by cases d <;> rfl
@[simp] theorem Dlg.recast_issuer (d : Dlg) : (d.recast f).issuer = d.issuer := by cases d <;> rfl
@[simp] theorem Dlg.recast_can (d : Dlg) : (d.recast f).can = d.can := by cases d <;> rfl
@[simp] theorem Dlg.recast_content (d : Dlg) : (d.recast f).content = d.content := by cases d <;> rfl
@[simp] theorem Dlg.recast_delegate (d : Dlg) : (d.recast f).delegate = f d.delegate := by cases d <;> rfl
@[simp] theorem Dlg.recast_proof (d : Dlg) : (d.recast f).proof = d.proof.map (Dlg.recast f) := by cases d <;> rfl
@[simp] theorem Dlg.recast_after (d : Dlg) : (d.recast f).after = d.after.map (Rev.recast f) := by
  cases d <;> simp [Dlg.recast, Dlg.after, Revs.toList_recast]
@[simp] theorem Rev.recast_sig (r : Rev) : (r.recast f).sig = r.sig := by cases r <;> rfl
@[simp] theorem Rev.recast_issuer (r : Rev) : (r.recast f).issuer = r.issuer := by cases r <;> rfl
@[simp] theorem Rev.recast_content (r : Rev) : (r.recast f).content = r.content := by cases r <;> rfl
@[simp] theorem Rev.recast_revoke (r : Rev) : (r.recast f).revoke = r.revoke.recast f := by cases r <;> rfl
@[simp] theorem Rev.recast_proof (r : Rev) : (r.recast f).proof = r.proof.map (Dlg.recast f) := by cases r <;> rfl

theorem Dlg.recast_subject : ∀ d : Dlg, (d.recast f).subject = d.subject
  | .root .. => rfl
  | .link _ _ _ _ p _ _ => by simp [Dlg.recast, Dlg.subject, Dlg.recast_subject p]

theorem Op.recast_subject (o : Op) : (o.recast f).subject = o.subject := by
  cases o with
  | dlg d => exact d.recast_subject
  | rev r => simp [Op.recast, Op.subject, Rev.subject, Dlg.recast_subject]

mutual
theorem Dlg.recast_weight : ∀ d : Dlg, (d.recast f).weight = d.weight
  | .root _ _ _ _ rs _ => by simp [Dlg.recast, Dlg.weight, Revs.recast_weight rs]
  | .link _ _ _ _ p rs _ => by simp [Dlg.recast, Dlg.weight, Dlg.recast_weight p, Revs.recast_weight rs]
theorem Rev.recast_weight : ∀ r : Rev, (r.recast f).weight = r.weight
  | .root _ _ d _ => by simp [Rev.recast, Rev.weight, Dlg.recast_weight d]
  | .via _ _ d p _ => by simp [Rev.recast, Rev.weight, Dlg.recast_weight d, Dlg.recast_weight p]
theorem Revs.recast_weight : ∀ rs : Revs, (rs.recast f).weight = rs.weight
  | .nil => rfl
  | .cons r rs => by simp [Revs.recast, Revs.weight, Rev.recast_weight r, Revs.recast_weight rs]
end

mutual
theorem Dlg.recast_distance : ∀ d : Dlg, (d.recast f).distance = d.distance
  | .root _ _ _ _ rs _ => by simp [Dlg.recast, Dlg.distance, Revs.recast_distance rs]
  | .link _ _ _ _ p rs _ => by simp [Dlg.recast, Dlg.distance, Dlg.recast_distance p, Revs.recast_distance rs]
theorem Rev.recast_distance : ∀ r : Rev, (r.recast f).distance = r.distance
  | .root _ _ d _ => by simp [Rev.recast, Rev.distance, Dlg.recast_distance d]
  | .via _ _ d p _ => by simp [Rev.recast, Rev.distance, Dlg.recast_distance d, Dlg.recast_distance p]
theorem Revs.recast_distance : ∀ rs : Revs, (rs.recast f).distance = rs.distance
  | .nil => rfl
  | .cons r rs => by simp [Revs.recast, Revs.distance, Rev.recast_distance r, Revs.recast_distance rs]
end

theorem Op.recast_after (o : Op) : (o.recast f).after = o.after.map (Op.recast f) := by
  cases o with
  | dlg d =>
    cases h : d.proof <;> simp [Op.recast, Op.after, h, List.map_map, Function.comp_def]
  | rev r =>
    cases h : r.proof <;> simp [Op.recast, Op.after, h]

theorem Op.recast_weight (o : Op) : (o.recast f).weight = o.weight := by
  cases o with
  | dlg d => exact d.recast_weight
  | rev r => exact r.recast_weight

theorem Op.recast_distance (o : Op) : (o.recast f).distance = o.distance := by
  cases o with
  | dlg d => exact d.recast_distance
  | rev r => exact r.recast_distance

theorem Op.recast_isRevocation (o : Op) : (o.recast f).isRevocation = o.isRevocation := by cases o <;> rfl

/-! ## Maps -/

/-- A map with all values changed. -/
def mapVals {α β γ : Type} (g : β → γ) (m : AMap α β) : AMap α γ := m.map (fun p => (p.1, g p.2))

section
variable {α β γ : Type} [DecidableEq α] (g : β → γ)

theorem get_mapVals (m : AMap α β) (a : α) : AMap.get (mapVals g m) a = (AMap.get m a).map g := by
  induction m with
  | nil => rfl
  | cons p m ih =>
    rw [AMap.get_cons]
    simp only [mapVals, List.map_cons, AMap.get_cons] at ih ⊢
    split
    · rfl
    · exact ih

theorem contains_mapVals (m : AMap α β) (a : α) : AMap.contains (mapVals g m) a = AMap.contains m a := by
  unfold AMap.contains
  rw [get_mapVals]
  cases AMap.get m a <;> rfl

theorem erase_mapVals (m : AMap α β) (a : α) : AMap.erase (mapVals g m) a = mapVals g (AMap.erase m a) := by
  simp only [AMap.erase, mapVals, List.filter_map]
  rfl

theorem insert_mapVals (m : AMap α β) (a : α) (b : β) :
    AMap.insert (mapVals g m) a (g b) = mapVals g (AMap.insert m a b) := by
  simp only [AMap.insert, erase_mapVals]
  rfl

omit [DecidableEq α] in
theorem length_mapVals (m : AMap α β) : (mapVals g m).length = m.length := by simp [mapVals]
end

theorem isort_map {α β : Type} {le : α → α → Bool} {le' : β → β → Bool} (g : α → β) (h : ∀ a b, le' (g a) (g b) = le a b)
    (l : List α) : isort le' (l.map g) = (isort le l).map g := by
  have hi : ∀ (x : α) (l : List α), insertBy le' (g x) (l.map g) = (insertBy le x l).map g := by
    intro x l
    induction l with
    | nil => rfl
    | cons y ys ih =>
      simp only [List.map_cons, insertBy, h]
      split
      · rfl
      · rw [List.map_cons, ih]
  induction l with
  | nil => rfl
  | cons x l ih =>
    show insertBy le' (g x) (isort le' (l.map g)) = _
    rw [ih, hi]
    rfl

/-! ## The order of replay -/

variable {H : Op → Nat}

/-- The table with all agents changed. -/
def Table.recast (f : Agent → Agent) (t : Table) : Table := ⟨mapVals (Op.recast f) t.ops, t.revokedBy⟩

theorem Table.record_recast (hH : ∀ o, H (o.recast f) = H o) (t : Table) (op : Op) :
    (t.recast f).record H (op.recast f) = (t.record H op).recast f := by
  unfold Table.record Table.recast
  simp only [hH, insert_mapVals]
  cases op with
  | dlg d => rfl
  | rev r => simp [Op.recast]

theorem explore_recast (hH : ∀ o, H (o.recast f) = H o) : ∀ (n : Nat) (stack : List Op) (t : Table),
    explore H n (stack.map (Op.recast f)) (t.recast f) = (explore H n stack t).recast f
  | 0, _, _ => rfl
  | n + 1, [], _ => rfl
  | n + 1, op :: stack, t => by
    simp only [List.map_cons, explore, hH]
    have hc : AMap.contains (t.recast f).ops (H op) = AMap.contains t.ops (H op) := contains_mapVals _ _ _
    rw [hc]
    split
    · exact explore_recast hH n stack t
    · rw [Op.recast_after, ← List.map_reverse, ← List.map_append, Table.record_recast hH]
      exact explore_recast hH n _ _

theorem collect_recast (hH : ∀ o, H (o.recast f) = H o) (ds : List Dlg) (rs : List Rev) :
    collect H (ds.map (Dlg.recast f)) (rs.map (Rev.recast f)) = (collect H ds rs).recast f := by
  unfold collect
  have h1 : ((ds.map (Dlg.recast f)).map Op.dlg ++ (rs.map (Rev.recast f)).map Op.rev).reverse
      = ((ds.map Op.dlg ++ rs.map Op.rev).reverse).map (Op.recast f) := by
    simp [List.map_reverse, List.map_map, Function.comp_def, Op.recast]
  simp only [h1]
  have h2 : ∀ l : List Op, stackWeight (l.map (Op.recast f)) = stackWeight l := by
    intro l
    simp only [stackWeight, List.map_map, Function.comp_def, Op.recast_weight]
  rw [h2]
  exact explore_recast hH _ _ ⟨[], []⟩

theorem succs_recast (hH : ∀ o, H (o.recast f) = H o) (t : Table) (op : Op) :
    (t.recast f).succs H (op.recast f) = t.succs H op := by
  unfold Table.succs
  have hc : ∀ a, AMap.contains (t.recast f).ops a = AMap.contains t.ops a := contains_mapVals _ _
  have h1 : (op.recast f).after.map H = op.after.map H := by
    rw [Op.recast_after, List.map_map]
    exact List.map_congr_left (fun o _ => hH o)
  rw [h1]
  congr 1
  · exact List.filter_congr (fun a _ => hc a)
  · cases op with
    | rev r => rfl
    | dlg d =>
      simp only [Op.recast, Dlg.recast_proof]
      cases d.proof with
      | none => rfl
      | some p =>
        simp only [Option.map_some, Dlg.recast_sig, hc]
        rfl

theorem succsOf_recast (hH : ∀ o, H (o.recast f) = H o) (t : Table) (d : Nat) : (t.recast f).succsOf H d = t.succsOf H d := by
  unfold Table.succsOf
  rw [show AMap.get (t.recast f).ops d = (AMap.get t.ops d).map (Op.recast f) from get_mapVals _ _ _]
  cases AMap.get t.ops d with
  | none => rfl
  | some op => exact succs_recast hH t op

theorem isRev_recast (t : Table) : (t.recast f).isRev = t.isRev := by
  funext d
  unfold Table.isRev
  rw [show AMap.get (t.recast f).ops d = (AMap.get t.ops d).map (Op.recast f) from get_mapVals _ _ _]
  cases AMap.get t.ops d with
  | none => rfl
  | some op => exact op.recast_isRevocation

theorem revLe_recast (t : Table) : (t.recast f).revLe = t.revLe := by
  have : (t.recast f).distance = t.distance := by
    funext d
    unfold Table.distance
    rw [show AMap.get (t.recast f).ops d = (AMap.get t.ops d).map (Op.recast f) from get_mapVals _ _ _]
    cases AMap.get t.ops d with
    | none => rfl
    | some op => exact op.recast_distance
  funext a b
  unfold Table.revLe
  rw [this]

theorem adjacencies_recast (hH : ∀ o, H (o.recast f) = H o) (t : Table) : adjacencies H (t.recast f) = adjacencies H t := by
  unfold adjacencies Table.sorted
  have : isort (fun a b : Nat × Op => decide (a.1 ≤ b.1)) (t.recast f).ops
      = (isort (fun a b : Nat × Op => decide (a.1 ≤ b.1)) t.ops).map (fun p => (p.1, p.2.recast f)) :=
    isort_map _ (fun _ _ => rfl) _
  rw [this, List.foldl_map]
  congr 1
  funext ts p
  rw [succs_recast hH]

theorem drain_recast (hH : ∀ o, H (o.recast f) = H o) (t : Table) : ∀ (n : Nat) (ts : Topsort) (out : List Nat),
    drain H (t.recast f) n ts out = drain H t n ts out
  | 0, _, _ => rfl
  | n + 1, ts, out => by
    have hq : ∀ ts l, requeue H (t.recast f) ts l = requeue H t ts l := by
      intro ts l
      unfold requeue
      simp only [succsOf_recast hH]
    simp only [drain, isRev_recast, revLe_recast, hq, drain_recast hH t n]

theorem reverseTopsort_recast (hH : ∀ o, H (o.recast f) = H o) (ds : List Dlg) (rs : List Rev) :
    reverseTopsort H (ds.map (Dlg.recast f)) (rs.map (Rev.recast f)) = (reverseTopsort H ds rs).map (Op.recast f) := by
  unfold reverseTopsort order
  simp only [collect_recast hH, adjacencies_recast hH, drain_recast hH]
  rw [show (collect H ds rs |>.recast f).ops.length = (collect H ds rs).ops.length from length_mapVals _ _, List.map_filterMap]
  congr 1
  funext d
  exact get_mapVals _ _ _

/-! ## The member view -/

/-- The view with all agents changed. -/
def View.recast (f : Agent → Agent) (v : View) : View :=
  { members := mapVals (List.map (Dlg.recast f)) v.members
    active := mapVals (Rev.recast f) v.active
    inPlay := mapVals (Dlg.recast f) v.inPlay
    revoked := v.revoked
    rdeps := v.rdeps }

theorem Dlg.same_recast (a b : Dlg) : (a.recast f).same (b.recast f) = a.same b := by simp [Dlg.same]

theorem lost_recast (v : View) (p : Dlg) : (v.recast f).lost (p.recast f) = v.lost p := by
  simp only [View.lost, View.recast, Dlg.recast_sig, contains_mapVals]

theorem admits_recast (gid : Id) (v : View) (d : Dlg) : (v.recast f).admits gid (d.recast f) = v.admits gid d := by
  unfold View.admits
  rw [Dlg.recast_proof]
  cases d.proof with
  | none => simp
  | some p =>
    simp only [Option.map_some, lost_recast, Dlg.recast_issuer, Dlg.recast_can]
    rw [show AMap.get (v.recast f).members p.issuer = (AMap.get v.members p.issuer).map (List.map (Dlg.recast f)) from get_mapVals _ _ _]
    cases AMap.get v.members p.issuer with
    | none => rfl
    | some alts =>
      simp only [Option.map_some, List.filter_map, List.all_map, Function.comp_def, Dlg.same_recast, Dlg.recast_can]

theorem noteProof_recast (v : View) (d : Dlg) : (v.recast f).noteProof (d.recast f) = (v.noteProof d).recast f := by
  unfold View.noteProof
  rw [Dlg.recast_proof]
  cases d.proof with
  | none => rfl
  | some p => simp [View.recast]

theorem play_recast (hf : ∀ a, (f a).id = a.id) (v : View) (d : Dlg) : (v.recast f).play (d.recast f) = (v.play d).recast f := by
  unfold View.play View.recast
  simp only [Dlg.recast_sig, Dlg.recast_delegate, hf, insert_mapVals, get_mapVals]
  congr 1
  rw [← insert_mapVals]
  congr 1
  cases AMap.get v.members d.delegate.id <;> simp

theorem delegation_recast (hf : ∀ a, (f a).id = a.id) (gid : Id) (v : View) (d : Dlg) :
    (v.recast f).delegation gid (d.recast f) = (v.delegation gid d).recast f := by
  unfold View.delegation
  simp only [noteProof_recast, admits_recast, play_recast hf, Dlg.recast_sig]
  rw [show ((v.noteProof d).recast f).revoked = (v.noteProof d).revoked from rfl]
  split
  · rfl
  · split <;> rfl

theorem honours_recast (gid : Id) (v : View) (r : Rev) : (v.recast f).honours gid (r.recast f) = v.honours gid r := by
  unfold View.honours
  rw [Rev.recast_proof]
  cases r.proof with
  | none => simp
  | some p =>
    simp only [Option.map_some, lost_recast, Dlg.recast_issuer, Dlg.recast_can]
    rw [show AMap.get (v.recast f).members p.issuer = (AMap.get v.members p.issuer).map (List.map (Dlg.recast f)) from get_mapVals _ _ _]
    cases AMap.get v.members p.issuer with
    | none => rfl
    | some alts => simp only [Option.map_some, List.any_map, Function.comp_def, Dlg.recast_can]

/-- The loop state with all agents changed. -/
def View.Casc.recast (f : Agent → Agent) (c : View.Casc) : View.Casc := { c with inPlay := mapVals (Dlg.recast f) c.inPlay }

theorem cascDep_recast (c : View.Casc) (dep : Nat) : View.cascDep (c.recast f) dep = (View.cascDep c dep).recast f := by
  unfold View.cascDep
  rw [show AMap.get (c.recast f).inPlay dep = (AMap.get c.inPlay dep).map (Dlg.recast f) from get_mapVals _ _ _]
  cases AMap.get c.inPlay dep with
  | none => rfl
  | some d => simp [View.Casc.recast, erase_mapVals]

theorem cascStep_recast (hf : ∀ a, (f a).id = a.id) (rdeps : AMap Nat (List Nat)) (c : View.Casc) (s : Nat) :
    View.cascStep rdeps (c.recast f) s = (View.cascStep rdeps c s).recast f := by
  have hfold : ∀ (l : List Nat) (c : View.Casc), l.foldl View.cascDep (c.recast f) = (l.foldl View.cascDep c).recast f := by
    intro l
    induction l with
    | nil => intro c; rfl
    | cons x l ih => intro c; rw [List.foldl_cons, List.foldl_cons, cascDep_recast, ih]
  unfold View.cascStep
  simp only
  rw [← hfold]
  congr 1
  simp only [View.Casc.recast, get_mapVals]
  cases AMap.get c.inPlay s with
  | none => rfl
  | some d => simp [erase_mapVals, hf]

theorem casc_recast (hf : ∀ a, (f a).id = a.id) (rdeps : AMap Nat (List Nat)) : ∀ (n : Nat) (c : View.Casc),
    View.casc rdeps n (c.recast f) = (View.casc rdeps n c).recast f
  | 0, _ => rfl
  | n + 1, c => by
    unfold View.casc
    rw [show (c.recast f).next = c.next from rfl]
    split
    · rfl
    · rename_i s rest _
      rw [show ({ c.recast f with next := rest } : View.Casc) = View.Casc.recast f { c with next := rest } from rfl,
        cascStep_recast hf, casc_recast hf rdeps n]

theorem dropMember_recast (m : AMap Id (List Dlg)) (p : Id × Nat) :
    View.dropMember (mapVals (List.map (Dlg.recast f)) m) p = mapVals (List.map (Dlg.recast f)) (View.dropMember m p) := by
  unfold View.dropMember
  rw [get_mapVals]
  have : ((((AMap.get m p.1).map (List.map (Dlg.recast f))).getD []).filter (fun d => decide (d.sig ≠ p.2)))
      = (((AMap.get m p.1).getD []).filter (fun d => decide (d.sig ≠ p.2))).map (Dlg.recast f) := by
    cases AMap.get m p.1 with
    | none => rfl
    | some l => simp only [Option.map_some, Option.getD_some, List.filter_map, Function.comp_def, Dlg.recast_sig]
  rw [this]
  cases (((AMap.get m p.1).getD []).filter (fun d => decide (d.sig ≠ p.2))) with
  | nil => simp [erase_mapVals]
  | cons d l =>
    simp only [List.map_cons]
    rw [← insert_mapVals]
    rfl

theorem revocation_recast (hf : ∀ a, (f a).id = a.id) (gid : Id) (v : View) (r : Rev) :
    (v.recast f).revocation gid (r.recast f) = (v.revocation gid r).recast f := by
  have hfold : ∀ (l : List (Id × Nat)) (m : AMap Id (List Dlg)),
      l.foldl View.dropMember (mapVals (List.map (Dlg.recast f)) m) = mapVals (List.map (Dlg.recast f)) (l.foldl View.dropMember m) := by
    intro l
    induction l with
    | nil => intro m; rfl
    | cons x l ih => intro m; rw [List.foldl_cons, List.foldl_cons, dropMember_recast, ih]
  unfold View.revocation
  rw [honours_recast]
  split
  · rfl
  · have h := casc_recast hf v.rdeps (v.inPlay.length + 1) ⟨v.inPlay, v.revoked, [], [r.revoke.sig]⟩
    have h' : View.casc (v.recast f).rdeps ((v.recast f).inPlay.length + 1)
        ⟨(v.recast f).inPlay, (v.recast f).revoked, [], [(r.recast f).revoke.sig]⟩
        = (View.casc v.rdeps (v.inPlay.length + 1) ⟨v.inPlay, v.revoked, [], [r.revoke.sig]⟩).recast f := by
      rw [← h]
      simp only [View.recast, View.Casc.recast, length_mapVals, Rev.recast_revoke, Dlg.recast_sig]
    simp only [h']
    generalize View.casc v.rdeps (v.inPlay.length + 1) ⟨v.inPlay, v.revoked, [], [r.revoke.sig]⟩ = c
    simp only [View.recast, View.Casc.recast, Rev.recast_sig, insert_mapVals, hfold]

theorem replay_recast (hf : ∀ a, (f a).id = a.id) (gid : Id) (ops : List Op) :
    View.replay gid (ops.map (Op.recast f)) = (View.replay gid ops).recast f := by
  have h : ∀ (ops : List Op) (v : View), (ops.map (Op.recast f)).foldl (View.apply gid) (v.recast f)
      = (ops.foldl (View.apply gid) v).recast f := by
    intro ops
    induction ops with
    | nil => intro v; rfl
    | cons o ops ih =>
      intro v
      rw [List.map_cons, List.foldl_cons, List.foldl_cons, ← ih]
      congr 1
      cases o with
      | dlg d => exact delegation_recast hf gid v d
      | rev r => exact revocation_recast hf gid v r
  exact h ops View.empty

/-! ## Two groups that hold the same operations -/

/-- The past of an operation with all agents changed. -/
theorem recast_past {a b : Op} (h : ReflTransGen Dep a b) : ReflTransGen Dep (a.recast f) (b.recast f) := by
  induction h with
  | refl => exact .refl
  | tail _ h ih =>
    refine ih.tail ?_
    unfold Dep at h ⊢
    rw [Op.recast_after]
    exact List.mem_map_of_mem h

theorem past_of_recast {a : Op} {b' : Op} (h : ReflTransGen Dep (a.recast f) b') : ∃ b, b.recast f = b' ∧ ReflTransGen Dep a b := by
  induction h with
  | refl => exact ⟨a, rfl, .refl⟩
  | tail _ h ih =>
    obtain ⟨b, rfl, hb⟩ := ih
    unfold Dep at h
    rw [Op.recast_after, List.mem_map] at h
    obtain ⟨c, hc, rfl⟩ := h
    exact ⟨c, rfl, hb.tail hc⟩

theorem below_recast {heads : List Op} {o' : Op} : Below (heads.map (Op.recast f)) o' ↔ ∃ o, o.recast f = o' ∧ Below heads o := by
  constructor
  · rintro ⟨x, hx, h⟩
    obtain ⟨y, hy, rfl⟩ := List.mem_map.1 hx
    obtain ⟨o, rfl, ho⟩ := past_of_recast h
    exact ⟨o, rfl, y, hy, ho⟩
  · rintro ⟨o, rfl, y, hy, ho⟩
    exact ⟨_, List.mem_map_of_mem hy, recast_past ho⟩

/-- Groups that hold the same operations, up to the kinds of the agents in them, have the same members, up to kinds. -/
theorem same_view_recast {g g' : Group} (hH : ∀ o, H (o.recast f) = H o) (hf : ∀ a, (f a).id = a.id)
    (h : Rebuilt H g) (h' : Rebuilt H g') (hid : g.id = g'.id)
    (hc : ∀ a b, g.Holds a → g.Holds b → H a = H b → a.recast f = b.recast f) (hsole : Sole g.heads)
    (hb : ∀ op, (∃ o, g.Holds o ∧ o.recast f = op) ↔ ∃ o, g'.Holds o ∧ o.recast f = op) :
    mapVals (List.map (Dlg.recast f)) g.members = mapVals (List.map (Dlg.recast f)) g'.members := by
  have e : ∀ g : Group, g.heads.map (Op.recast f)
      = ((AMap.values g.dlgHeads).map (Dlg.recast f)).map Op.dlg ++ ((AMap.values g.revHeads).map (Rev.recast f)).map Op.rev := by
    intro g
    simp [Group.heads, List.map_map, Function.comp_def, Op.recast]
  have e1 : reverseTopsort H ((AMap.values g.dlgHeads).map (Dlg.recast f)) ((AMap.values g.revHeads).map (Rev.recast f))
      = reverseTopsort H ((AMap.values g'.dlgHeads).map (Dlg.recast f)) ((AMap.values g'.revHeads).map (Rev.recast f)) := by
    refine reverseTopsort_congr ?_ ?_ ?_
    · rw [← e]
      intro a b ha hb' hab
      obtain ⟨x, rfl, hx⟩ := below_recast.1 ha
      obtain ⟨y, rfl, hy⟩ := below_recast.1 hb'
      rw [hH, hH] at hab
      exact hc x y hx hy hab
    · rw [← e]
      intro r r' hr hr' hs
      obtain ⟨x, hx1, hx⟩ := below_recast.1 hr
      obtain ⟨y, hy1, hy⟩ := below_recast.1 hr'
      cases x with
      | dlg _ => cases hx1
      | rev x =>
        cases y with
        | dlg _ => cases hy1
        | rev y =>
          cases hx1
          cases hy1
          simp only [Rev.recast_revoke, Dlg.recast_sig] at hs
          rw [hsole x y hx hy hs]
    · intro op
      rw [← e, ← e, below_recast, below_recast]
      constructor
      · rintro ⟨o, h1, h2⟩
        obtain ⟨o', h3, h4⟩ := (hb op).1 ⟨o, h2, h1⟩
        exact ⟨o', h4, h3⟩
      · rintro ⟨o, h1, h2⟩
        obtain ⟨o', h3, h4⟩ := (hb op).2 ⟨o, h2, h1⟩
        exact ⟨o', h4, h3⟩
  rw [reverseTopsort_recast hH, reverseTopsort_recast hH] at e1
  have e2 : (View.replay g.id (g.history H)).recast f = (View.replay g'.id (g'.history H)).recast f := by
    rw [← replay_recast hf, ← replay_recast hf, hid]
    congr 1
    unfold Group.history
    rw [List.map_reverse, List.map_reverse, e1]
  rw [h.1, h'.1]
  exact congrArg View.members e2

end Verif.Group
