import Verif.Group.ReachLemmas
import Verif.Group.ReplayFacts
import Verif.Group.Determined

/-! # Helper lemmas: from replay to group states -/

namespace Verif.Group

variable {H : Op → Nat}

/-- Member lists without any assumption on the operations replayed. -/
structure View.Neat (v : View) : Prop where
  wf : AMap.WF v.members
  ne : ∀ j ds, AMap.get v.members j = some ds → ds ≠ []
  key : ∀ {m d}, v.Mem m d → d.delegate.id = m

namespace View

theorem dropMember_wf {m : AMap Id (List Dlg)} (h : AMap.WF m) (p : Id × Nat) : AMap.WF (dropMember m p) := by
  unfold dropMember
  split
  · exact AMap.wf_erase h _
  · exact AMap.wf_insert h _ _

theorem drops_neat (l : List (Id × Nat)) {m : AMap Id (List Dlg)} (hw : AMap.WF m)
    (hn : ∀ j ds, AMap.get m j = some ds → ds ≠ []) (hk : ∀ j ds d, AMap.get m j = some ds → d ∈ ds → d.delegate.id = j) :
    AMap.WF (l.foldl dropMember m) ∧ (∀ j ds, AMap.get (l.foldl dropMember m) j = some ds → ds ≠ []) ∧
      ∀ j ds d, AMap.get (l.foldl dropMember m) j = some ds → d ∈ ds → d.delegate.id = j := by
  induction l generalizing m with
  | nil => exact ⟨hw, hn, hk⟩
  | cons p l ih =>
    refine ih (dropMember_wf hw p) (dropMember_nonempty hn p) ?_
    intro j ds d hj hd
    obtain ⟨⟨ds', h1, h2⟩, -⟩ := (dropMember_mem (m := m) (i := p.1) (s := p.2)).1 ⟨ds, hj, hd⟩
    exact hk j ds' d h1 h2

theorem apply_neat {v : View} (h : v.Neat) (gid : Id) (o : Op) : (v.apply gid o).Neat := by
  cases o with
  | dlg d =>
    show (v.delegation gid d).Neat
    have h1 : (v.noteProof d).Neat := by
      obtain ⟨e, -⟩ := noteProof_same v d
      exact ⟨by rw [e]; exact h.wf, by rw [e]; exact h.ne, fun hm => h.key (by unfold Mem at hm ⊢; rwa [e] at hm)⟩
    unfold delegation
    simp only
    split
    · exact h1
    · split
      · exact h1
      · refine ⟨AMap.wf_insert h1.wf _ _, play_nonempty h1.ne d, ?_⟩
        intro m x hm
        rcases play_mem.1 hm with hm | ⟨rfl, rfl⟩
        · exact h1.key hm
        · rfl
  | rev r =>
    show (v.revocation gid r).Neat
    rw [revocation_eq]
    split
    · obtain ⟨h1, h2, h3⟩ := drops_neat
        (casc v.rdeps (v.inPlay.length + 1) ⟨v.inPlay, v.revoked, [], [r.revoke.sig]⟩).drop h.wf h.ne
        (fun j ds d hj hd => h.key ⟨ds, hj, hd⟩)
      exact ⟨h1, h2, fun ⟨ds, hj, hd⟩ => h3 _ ds _ hj hd⟩
    · exact h

theorem replay_neat (gid : Id) (l : List Op) : (replay gid l).Neat := by
  induction l using List.reverseRecOn with
  | nil => exact ⟨AMap.wf_nil, by simp [replay, empty], by rintro m d ⟨ds, h, _⟩; simp [replay, empty] at h⟩
  | append_singleton l o ih => rw [replay_append]; exact apply_neat ih gid o

end View

theorem Rebuilt.tidy {g : Group} (h : Rebuilt H g) : g.Tidy := by
  have hn := View.replay_neat g.id (g.history H)
  refine ⟨by rw [h.1]; exact hn.wf, by rw [h.1]; exact hn.ne, ?_⟩
  rintro m d ⟨ds, h1, h2⟩
  exact hn.key ⟨ds, by rw [← h.1]; exact h1, h2⟩

theorem Reach.tidy {g : Group} (h : Reach H g) : g.Tidy := (reach_good h).2.tidy

theorem ctx_of {heads : List Op} (hs : NoClash Op.sig heads) : View.Ctx (Below heads) :=
  ⟨fun ha hb he => hs _ _ ha hb he, fun ha hb => ha.dep hb⟩

theorem mem_view {g : Group} (h : Rebuilt H g) {m : Id} {d : Dlg} :
    g.MemberBy m d ↔ (View.replay g.id (g.history H)).Mem m d := by
  unfold Group.MemberBy View.Mem
  rw [h.1]

theorem effect_view {g : Group} (h : Rebuilt H g) {r : Rev} :
    g.InEffect r ↔ AMap.get (View.replay g.id (g.history H)).active r.sig = some r := by
  unfold Group.InEffect
  rw [h.2]

theorem history_below {g : Group} (hc : NoClash H g.heads) {o : Op} (h : o ∈ g.history H) : g.Holds o :=
  ((history_mem hc).1 (List.mem_reverse.1 h)).1

theorem history_view {g : Group} (hc : NoClash H g.heads) (hs : NoClash Op.sig g.heads) :
    View.RInv g.id g.Holds (g.history H) (View.replay g.id (g.history H)) :=
  View.replay_inv (ctx_of hs) _ (fun _ ho => history_below hc ho)

theorem history_nodup' {g : Group} (hc : NoClash H g.heads) : (g.history H).Nodup := List.nodup_reverse.2 (history_nodup hc)

theorem history_complete {g : Group} (hc : NoClash H g.heads) (ha : Acyclic g.heads) {o : Op} :
    o ∈ g.history H ↔ g.Holds o := by
  unfold Group.history
  rw [List.mem_reverse]
  exact complete_of_acyclic hc ha

theorem history_causal {g : Group} (hc : NoClash H g.heads) (ha : Acyclic g.heads) {a : Op} {l r : List Op}
    (hl : g.history H = l ++ a :: r) {b : Op} (hb : Dep a b) : b ∈ l := causal_of_acyclic hc ha hl hb

theorem proof_first {g : Group} (hc : NoClash H g.heads) (ha : Acyclic g.heads) : View.ProofFirst (g.history H) := by
  intro l1 d l2 he p hp
  exact history_causal hc ha he (mem_after_dlg.2 (Or.inl ⟨p, hp, rfl⟩))

theorem rev_first {g : Group} (hc : NoClash H g.heads) (hsole : Sole g.heads) : View.RevFirst (g.history H) := by
  intro l1 r l2 he d p hd hp hsig
  have hrin : Op.rev r ∈ g.history H := by rw [he]; simp
  have hdin : Op.dlg d ∈ g.history H := by rw [he]; simp [hd]
  have hbr := history_below hc hrin
  have hbd := history_below hc hdin
  obtain ⟨s, t, hst⟩ := List.append_of_mem hd
  have he2 : g.history H = s ++ .dlg d :: (t ++ .rev r :: l2) := by rw [he, hst]; simp
  have hsucc : H (.rev r) ∈ (collect H (AMap.values g.dlgHeads) (AMap.values g.revHeads)).succsOf H (H (.dlg d)) := by
    obtain ⟨r', h1, h2, h3⟩ := (collect_found H hc).succ_revoked hbd hp hbr hsig.symm
    rwa [hsole r' r h1 hbr (h2.trans hsig)] at h3
  have h1 := edge_earlier hc he2 hrin hsucc
  have hnd := history_nodup' hc
  rw [he2] at hnd
  have := List.nodup_append.1 hnd
  exact this.2.2 _ h1 _ (by simp) rfl

/-- The same operations, at most one revocation of each delegation: the same view. -/
theorem same_view {g g' : Group} (h : Rebuilt H g) (h' : Rebuilt H g') (hid : g.id = g'.id) (hc : NoClash H g.heads)
    (hsole : Sole g.heads) (hb : ∀ op, g.Holds op ↔ g'.Holds op) :
    g.members = g'.members ∧ g.active = g'.active ∧ g.history H = g'.history H := by
  have : g.history H = g'.history H := by
    unfold Group.history
    rw [reverseTopsort_congr hc hsole hb]
  exact ⟨by rw [h.1, h'.1, this, hid], by rw [h.2, h'.2, this, hid], this⟩

/-- The heads after accepting an operation were heads before, or are the operation. -/
theorem heads_sub {g g' : Group} {o : Op} (h : HeadsOk H g) (ha : Accepts H g o g') {x : Op} (hx : x ∈ g'.heads) :
    x ∈ g.heads ∨ x = o := by
  have key : ∀ (d : Dlg) (l : List (Nat × Dlg)) (acc : CaMap Nat Dlg) (k : Nat) (y : Dlg),
      AMap.get (l.foldl (headStep H d) acc) k = some y → AMap.get acc k = some y ∨ y = d := by
    intro d l
    induction l with
    | nil => intro acc k y hy; exact Or.inl hy
    | cons p l ih =>
      intro acc k y hy
      rcases ih _ _ _ hy with h1 | h1
      · rw [headStep_get] at h1
        split at h1
        · cases h1
        · split at h1
          · right; exact (Option.some.inj h1).symm
          · exact Or.inl h1
      · exact Or.inr h1
  have hstep := accepts_step ha h
  cases ha with
  | dlg N hok =>
    rename_i d
    obtain ⟨_, _, _, hg⟩ := receiveDelegation_ok hok
    cases x with
    | dlg y =>
      have h1 := (hstep.1.mem_dlg).1 hx
      rw [hg] at h1
      have h2 : AMap.get (g.dlgHeads.foldl (headStep H d) g.dlgHeads) (H (.dlg y)) = some y := h1
      rcases key _ _ _ _ _ h2 with h3 | h3
      · exact Or.inl (h.mem_dlg.2 h3)
      · exact Or.inr (by rw [h3])
    | rev y =>
      have h1 := (hstep.1.mem_rev).1 hx
      rw [hg] at h1
      have h2 : AMap.get (g.revHeadsAfter d) (H (.rev y)) = some y := h1
      unfold Group.revHeadsAfter at h2
      rw [revHeadsFold_get] at h2
      split at h2
      · cases h2
      · exact Or.inl (h.mem_rev.2 h2)
  | rev N hok =>
    rename_i r
    obtain ⟨_, _, hg⟩ := receiveRevocation_ok hok
    cases x with
    | dlg y =>
      have h1 := (hstep.1.mem_dlg).1 hx
      rw [hg] at h1
      exact Or.inl (h.mem_dlg.2 h1)
    | rev y =>
      have h1 := (hstep.1.mem_rev).1 hx
      rw [hg] at h1
      have h2 : AMap.get (AMap.insert g.revHeads (H (.rev r)) r) (H (.rev y)) = some y := h1
      rw [AMap.get_insert] at h2
      split at h2
      · exact Or.inr (by rw [Option.some.inj h2])
      · exact Or.inl (h.mem_rev.2 h2)

/-- Nothing is held after accepting an operation but what was held before, the operation and its past. -/
theorem holds_sub {g g' : Group} {o : Op} (h : HeadsOk H g) (ha : Accepts H g o g') {x : Op} (hx : g'.Holds x) :
    g.Holds x ∨ x = o ∨ ∃ b, Dep o b ∧ Below [b] x := by
  obtain ⟨y, hy, hr⟩ := hx
  rcases heads_sub h ha hy with hy | rfl
  · exact Or.inl ⟨y, hy, hr⟩
  · rcases Relation.ReflTransGen.cases_head hr with rfl | ⟨b, h1, h2⟩
    · exact Or.inr (Or.inl rfl)
    · exact Or.inr (Or.inr ⟨b, h1, b, by simp, h2⟩)

end Verif.Group
