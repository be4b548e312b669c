import Verif.Cgka.SecrecySpec
import Verif.Cgka.LinearLemmas
import Verif.BeeKem.Keyed

/-! # Helper lemmas: an operation only uses keys that it brings or that operations in its past brought -/

namespace Verif.Cgka

open Verif.BeeKem Relation

/-- Some operation of the record brings or makes the secret. -/
def Drawn (ops : AMap Nat SOp) (s : Sk) : Prop :=
  ∃ x op, AMap.get ops x = some op ∧ (s ∈ op.payload.brought ∨ s ∈ op.payload.made)

/-- Some operation of the record makes the secret. -/
def Made (ops : AMap Nat SOp) (s : Sk) : Prop := ∃ x op, AMap.get ops x = some op ∧ s ∈ op.payload.made

/-- The keys of a tree stem from operations of the record. -/
def Sourced (ops : AMap Nat SOp) (t : BeeKem) : Prop := t.LeafKeys (Drawn ops) ∧ t.NodeKeys (Made ops)

theorem Sourced.mono {ops ops' : AMap Nat SOp} {t : BeeKem} (h : Sourced ops t)
    (hs : ∀ x op, AMap.get ops x = some op → AMap.get ops' x = some op) : Sourced ops' t :=
  ⟨h.1.mono (fun _ ⟨x, op, h1, h2⟩ => ⟨x, op, hs x op h1, h2⟩), h.2.mono (fun _ ⟨x, op, h1, h2⟩ => ⟨x, op, hs x op h1, h2⟩)⟩

theorem treeOp_sourced {ops : AMap Nat SOp} {t t' : BeeKem} {op : SOp} {x : Nat} (hx : AMap.get ops x = some op)
    (ht : Sourced ops t) (h : treeOp t op = .ok t') : Sourced ops t' := by
  unfold treeOp at h
  split at h
  · rename_i id pk n ps qs hpay
    simp only [bind, Except.bind] at h
    split at h
    · simp at h
    · rename_i p hp
      obtain ⟨t1, i⟩ := p
      cases h
      refine ⟨BeeKem.pushLeaf_keys ht.1 ?_ hp, ht.2.fewer (BeeKem.pushLeaf_fewer hp)⟩
      intro k hk
      simp only [NodeKey.keys, List.mem_singleton] at hk
      refine ⟨x, op, hx, .inl ?_⟩
      rw [hpay, hk]; simp [Payload.brought]
  · simp only [bind, Except.bind] at h
    split at h
    · simp at h
    · rename_i p hp
      obtain ⟨t1, i⟩ := p
      cases h
      exact ⟨ht.1.fewer (BeeKem.removeId_leaves hp), ht.2.fewer (BeeKem.removeId_fewer hp)⟩
  · rename_i id pc ps hpay
    refine BeeKem.applyPath_keys ht.1 ht.2 ?_ ?_ h
    · intro k hk
      refine ⟨x, op, hx, .inl ?_⟩
      rw [hpay]
      exact List.mem_append_left _ (List.mem_map.2 ⟨k, hk, rfl⟩)
    · intro q hq v hv
      refine ⟨x, op, hx, ?_⟩
      rw [hpay]
      exact List.mem_flatMap.2 ⟨q, hq, List.mem_map.2 ⟨v, hv, rfl⟩⟩

theorem apply_sourced {H : SOp → Nat} {ops : AMap Nat SOp} {c c' : Cgka} {op : SOp} {x : Nat}
    (hx : AMap.get ops x = some op) (ht : Sourced ops c.tree) (h : c.applyOperation H op = .ok c') : Sourced ops c'.tree := by
  cases hf : AMap.get c.graph.ops (H op) with
  | some o =>
    unfold Cgka.applyOperation at h
    rw [if_pos (by rw [containsOpHash_iff]; simp [hf])] at h
    cases h; exact ht
  | none => exact treeOp_sourced hx ht (applyOperation_tree hf h).1

theorem applyOps_sourced {H : SOp → Nat} {ops : AMap Nat SOp} (l : List SOp) {c c' : Cgka}
    (hl : ∀ o ∈ l, AMap.get ops (H o) = some o) (ht : Sourced ops c.tree) (h : c.applyOps H l = .ok c') :
    Sourced ops c'.tree := by
  induction l generalizing c with
  | nil => cases h; exact ht
  | cons o l ih =>
    unfold Cgka.applyOps at h
    simp only [bind, Except.bind] at h
    split at h
    · simp at h
    · rename_i c1 h1
      exact ih (fun q hq => hl q (List.mem_cons_of_mem _ hq)) (apply_sourced (hl o List.mem_cons_self) ht h1) h

theorem applyEpoch_sourced {H : SOp → Nat} {ops : AMap Nat SOp} {l : List SOp} {c c' : Cgka}
    (hl : ∀ o ∈ l, AMap.get ops (H o) = some o) (ht : Sourced ops c.tree) (h : c.applyEpoch H l = .ok c') :
    Sourced ops c'.tree := by
  unfold Cgka.applyEpoch at h
  split at h
  · exact applyOps_sourced l hl ht h
  · simp only [bind, Except.bind] at h
    split at h
    · simp at h
    · rename_i c1 h1
      split at h
      · simp at h
      · rename_i t hs
        cases h
        have := applyOps_sourced l hl ht h1
        exact ⟨BeeKem.sortLeaves_keys this.1 hs, this.2.fewer (BeeKem.sortLeaves_fewer hs)⟩

theorem applyEpochs_sourced {H : SOp → Nat} {ops : AMap Nat SOp} (es : List (List SOp)) {c c' : Cgka}
    (hl : ∀ o ∈ es.flatten, AMap.get ops (H o) = some o) (ht : Sourced ops c.tree) (h : c.applyEpochs H es = .ok c') :
    Sourced ops c'.tree := by
  induction es generalizing c with
  | nil => cases h; exact ht
  | cons e es ih =>
    unfold Cgka.applyEpochs at h
    simp only [bind, Except.bind] at h
    split at h
    · simp at h
    · rename_i c1 h1
      refine ih (fun o hq => hl o ?_) (applyEpoch_sourced (fun o hq => hl o ?_) ht h1) h
      · rw [List.flatten_cons]; exact List.mem_append_right _ hq
      · rw [List.flatten_cons]; exact List.mem_append_left _ hq

theorem first_sourced {H : SOp → Nat} {id : MemberId} {pk : Pk} {op : SOp} {c : Cgka} {ops : AMap Nat SOp} {x : Nat}
    (hx : AMap.get ops x = some op) (hp : First op.payload id pk)
    (hn : Cgka.newFromInitAdd H id pk op = .ok c) : Sourced ops c.tree := by
  unfold Cgka.newFromInitAdd at hn
  simp only [bind, Except.bind] at hn
  split at hn
  · simp at hn
  · rename_i t ht
    cases hn
    obtain ⟨n, ps, hp⟩ := hp
    refine ⟨BeeKem.new_keys ⟨x, op, hx, .inl ?_⟩ ht, fun s hs => absurd hs (BeeKem.new_fewer ht s)⟩
    rw [hp]; simp [Payload.brought]

theorem replay_sourced {H : SOp → Nat} {c c' : Cgka} (hs : SInv H c) (ht : Sourced c.graph.ops c.tree)
    (h : c.replayIfNeeded H = .ok c') : Sourced c.graph.ops c'.tree := by
  unfold Cgka.replayIfNeeded at h
  split at h
  · unfold Cgka.replayOpsGraph at h
    simp only [bind, Except.bind] at h
    split at h
    · simp at h
    · rename_i es hes
      split at h
      · simp at h
      · rename_i r hr
        cases h
        obtain ⟨_, _, _, _, hk⟩ := topsort_known hs.graph hes
        unfold Cgka.rebuildCgka at hr
        simp only [bind, Except.bind] at hr
        split at hr
        · simp at hr
        · rename_i r0 h0
          have s0 : Sourced c.graph.ops r0.tree := by
            unfold Cgka.rebuildStart at h0
            simp only [bind, Except.bind] at h0
            split at h0
            · simp at h0
            · rename_i r1 h1
              cases h0
              have := first_sourced hs.root.1 hs.root.2 h1
              exact this
          split at hr
          · simp at hr
          · rename_i r1 h1
            have s1 := applyEpochs_sourced es hk s0 h1
            split at hr
            · simp at hr
            · split at hr
              · split at hr
                · simp at hr
                · rename_i p hp
                  obtain ⟨r', k⟩ := p
                  split at hr
                  · simp at hr
                  · cases hr
                    have ht' := (treeRoot_tg hp).1
                    simp only [tg, Prod.mk.injEq] at ht'
                    show Sourced _ r'.tree
                    rw [ht'.1]; exact s1
              · cases hr; exact s1
  · cases h; exact ht

/-- What the operations a replica's own call may add look like. -/
def Honest (ops : AMap Nat SOp) (op : SOp) : Prop :=
  ∀ s ∈ op.payload.uses, s ∈ op.payload.brought ∨ s ∈ op.payload.made ∨ Drawn ops s

theorem add_honest (ops : AMap Nat SOp) {op : SOp} {id : MemberId} {pk : Pk} {n : Nat} {ps qs : List Nat}
    (h : op.payload = .add id pk n ps qs) : Honest ops op := by
  intro s hs
  rw [h] at hs ⊢
  exact .inl hs

theorem remove_honest (ops : AMap Nat SOp) {op : SOp} {id : MemberId} {n : Nat} {ks : List Pk} {ps : List Nat}
    (h : op.payload = .remove id n ks ps) : Honest ops op := by
  intro s hs
  rw [h] at hs
  simp [Payload.uses] at hs

theorem update_honest {ops : AMap Nat SOp} {t t' : BeeKem} (ht : Sourced ops t) {g : BeeKem.Gen} {c n : Nat}
    {id uid : MemberId} {sk : Sk} {sks sks' : ShareKeyMap} {k : Sk} {pc : PathChange} (hk : Pure sks)
    (h : t.encryptPath g c id ⟨sk⟩ sks = .ok (t', sks', n, k, pc)) {op : SOp} {ps : List Nat}
    (hp : op.payload = .update uid pc ps) : Honest ops op := by
  have hnode : t.NodeKeys (Drawn ops) := ht.2.mono (fun s ⟨x, o, h1, h2⟩ => ⟨x, o, h1, .inr h2⟩)
  obtain ⟨h1, h2⟩ := BeeKem.encryptPath_sealed ht.1 hnode hk h
  have hleaf : sk ∈ op.payload.brought := by
    rw [hp]
    exact List.mem_append_left _ (by rw [h1]; simp [NodeKey.keys])
  have hmade : ∀ x, x ∈ BeeKem.pathSks pc.path → x ∈ op.payload.made := by
    intro x hx
    rw [hp]; exact hx
  intro s hs
  rw [hp] at hs
  rcases List.mem_append.1 hs with hs | hs
  · rcases List.mem_append.1 hs with hs | hs
    · left
      rw [hp]
      exact List.mem_append_left _ hs
    · exact .inr (.inl (hmade s hs))
  · obtain ⟨e, he, hse⟩ := List.mem_flatMap.1 hs
    unfold Spec.PathChange.ciphers at he
    obtain ⟨q, hq, he⟩ := List.mem_flatMap.1 he
    obtain ⟨v, hv, he⟩ := List.mem_flatMap.1 he
    obtain ⟨p, hpv, rfl⟩ := List.mem_map.1 he
    obtain ⟨a, b, k1, k2, k3⟩ := h2 q hq v hv p hpv
    have hA : s = a → s ∈ op.payload.brought ∨ s ∈ op.payload.made ∨ Drawn ops s := by
      rintro rfl
      rcases k2 with rfl | k2
      · exact .inl hleaf
      · exact .inr (.inl (hmade _ k2))
    have hB : s = b → s ∈ op.payload.brought ∨ s ∈ op.payload.made ∨ Drawn ops s := by
      rintro rfl
      rcases k3 with (k3 | rfl | k3) | ⟨k3, k4⟩
      · exact .inr (.inr k3)
      · exact .inl hleaf
      · exact .inr (.inl (hmade _ k3))
      · left
        rw [hp]
        refine List.mem_append_right _ (List.mem_flatMap.2 ⟨q, hq, List.mem_flatMap.2 ⟨v, hv, ?_⟩⟩)
        rw [k3]
        simp [k4]
    rw [k1] at hse
    simp only [deriveSymmetricKey, List.mem_cons, List.not_mem_nil, or_false] at hse
    rcases hse with hse | hse
    · rcases Nat.le_total a b with hab | hab
      · exact hA (by rw [hse]; exact Nat.min_eq_left hab)
      · exact hB (by rw [hse]; exact Nat.min_eq_right hab)
    · rcases Nat.le_total a b with hab | hab
      · exact hB (by rw [hse]; exact Nat.max_eq_right hab)
      · exact hA (by rw [hse]; exact Nat.max_eq_left hab)

/-- After a call: the tree's keys stem from the record, and the record has at most one new operation, which uses nothing else. -/
def Sound (H : SOp → Nat) (c c' : Cgka) : Prop :=
  Sourced c'.graph.ops c'.tree ∧
    (c'.graph = c.graph ∨ ∃ op, Honest c.graph.ops op ∧ c'.graph = c.graph.addLocalOp H op)

theorem Sound.same {H : SOp → Nat} {c c' : Cgka} (ht : Sourced c.graph.ops c'.tree) (hg : c'.graph = c.graph) : Sound H c c' :=
  ⟨by rw [hg]; exact ht, .inl hg⟩

theorem Sound.local {H : SOp → Nat} {c c' : Cgka} {op : SOp} {t : BeeKem} (hs : SInv H c') (ht : Sourced c.graph.ops t)
    (ho : Honest c.graph.ops op) (ha : treeOp t op = .ok c'.tree) (hg : c'.graph = c.graph.addLocalOp H op)
    (hk : ∀ x o, AMap.get c.graph.ops x = some o → AMap.get c'.graph.ops x = some o) : Sound H c c' := by
  refine ⟨?_, .inr ⟨op, ho, hg⟩⟩
  have hx : AMap.get c'.graph.ops (H op) = some op := by
    rw [hg]
    show AMap.get (AMap.insert c.graph.ops (H op) op) (H op) = some op
    rw [AMap.get_insert_self]
  exact treeOp_sourced hx (ht.mono hk) ha

theorem addLocal_keeps {H : SOp → Nat} (hH : Function.Injective H) {g : Graph} (h : GInv H g) (op : SOp) {x : Nat} {o : SOp}
    (hx : AMap.get g.ops x = some o) : AMap.get (g.addLocalOp H op).ops x = some o := by
  show AMap.get (AMap.insert g.ops (H op) op) x = some o
  rw [AMap.get_insert]
  split
  · rename_i he
    have := h.hash _ _ hx
    rw [he] at this
    rw [hH this]
  · exact hx

theorem Sound.update {H : SOp → Nat} (hH : Function.Injective H) {sign : Payload → Res SOp} (hg : GoodSigner sign) {c : Cgka}
    (hc : Clean c) (hs : SInv H c) (ht : Sourced c.graph.ops c.tree) (g : BeeKem.Gen) (n : Nat) (newSk : Sk) :
    Sound H c (c.update H sign g n newSk).1 := by
  unfold Cgka.update
  split
  · exact .same ht rfl
  · rename_i c1 hr
    have hx := (Ext.replayIfNeeded hr).graph
    have h1 := (hc.replay hs hr).1
    have s1 := replay_sourced hs ht hr
    split
    · exact .same s1 hx
    · rename_i uid upk usk hu
      have := updateTarget_pure h1 hu
      subst this
      dsimp only
      split
      · exact .same s1 hx
      · rename_i t sks n' k pc henc
        obtain ⟨o, ho, hpay⟩ := hg (.update uid pc c1.graph.heads)
        rw [ho]
        dsimp only
        have hh : Honest c.graph.ops o := update_honest s1 (h1.keys.insert usk) henc hpay
        have hkk : ∀ x o', AMap.get c.graph.ops x = some o' → AMap.get (c1.graph.addLocalOp H o).ops x = some o' := by
          intro x o' hx'
          rw [hx]
          exact addLocal_keeps hH hs.graph o hx'
        refine ⟨?_, .inr ⟨o, hh, ?_⟩⟩
        · refine treeOp_sourced (op := o) (x := H o) ?_ (s1.mono hkk) ?_
          · show AMap.get (AMap.insert c1.graph.ops (H o) o) (H o) = some o
            rw [AMap.get_insert_self]
          · unfold treeOp
            rw [hpay]
            exact BeeKem.encryptPath_applies henc
        · show c1.graph.addLocalOp H o = _
          rw [hx]

theorem own_sound {H : SOp → Nat} (hH : Function.Injective H) {c : Cgka} (hc : Clean c) (hs : SInv H c)
    (ht : Sourced c.graph.ops c.tree) {cmd : Cmd} (ho : cmd.Own) (hg : cmd.Signs) : Sound H c (step H c cmd) := by
  cases cmd with
  | add sign id pk =>
    show Sound H c (c.add H sign id pk).1
    unfold Cgka.add
    split
    · exact .same ht rfl
    · split
      · exact .same ht rfl
      · rename_i c1 hr
        have hx := (Ext.replayIfNeeded hr).graph
        have s1 := replay_sourced hs ht hr
        split
        · exact .same s1 hx
        · rename_i t i hp
          dsimp only
          obtain ⟨o, ho, hpay⟩ := hg (.add id pk i c1.graph.heads c1.graph.addHeads)
          rw [ho]
          dsimp only
          refine ⟨?_, .inr ⟨o, add_honest _ hpay, ?_⟩⟩
          · refine treeOp_sourced (op := o) (x := H o) ?_ (s1.mono ?_) (t' := t) ?_
            · show AMap.get (AMap.insert c1.graph.ops (H o) o) (H o) = some o
              rw [AMap.get_insert_self]
            · intro x o' hx'
              show AMap.get (c1.graph.addLocalOp H o).ops x = some o'
              rw [hx]
              exact addLocal_keeps hH hs.graph o hx'
            · unfold treeOp
              rw [hpay]
              simp [hp, bind, Except.bind, pure, Except.pure]
          · show c1.graph.addLocalOp H o = _
            rw [hx]
  | remove sign id =>
    show Sound H c (c.remove H sign id).1
    unfold Cgka.remove
    split
    · exact .same ht rfl
    · split
      · exact .same ht rfl
      · rename_i c1 hr
        have hx := (Ext.replayIfNeeded hr).graph
        have s1 := replay_sourced hs ht hr
        split
        · exact .same s1 hx
        · split
          · exact .same s1 hx
          · rename_i t i rk hp
            dsimp only
            obtain ⟨o, ho, hpay⟩ := hg (.remove id i rk c1.graph.heads)
            rw [ho]
            dsimp only
            refine ⟨?_, .inr ⟨o, remove_honest _ hpay, ?_⟩⟩
            · refine treeOp_sourced (op := o) (x := H o) ?_ (s1.mono ?_) (t' := t) ?_
              · show AMap.get (AMap.insert c1.graph.ops (H o) o) (H o) = some o
                rw [AMap.get_insert_self]
              · intro x o' hx'
                show AMap.get (c1.graph.addLocalOp H o).ops x = some o'
                rw [hx]
                exact addLocal_keeps hH hs.graph o hx'
              · unfold treeOp
                rw [hpay]
                simp [hp, bind, Except.bind, pure, Except.pure]
            · show c1.graph.addLocalOp H o = _
              rw [hx]
  | update sign g n sk => exact Sound.update hH hg hc hs ht g n sk
  | encrypt sign g n r ps =>
    show Sound H c (c.newAppSecretFor H sign g n r ps).1
    unfold Cgka.newAppSecretFor
    split
    · exact .same ht rfl
    · have hu := Sound.update hH hg hc hs ht g (n + 1) (g n)
      split
      · rename_i c1 e he; rw [he] at hu; exact hu
      · rename_i c1 k op he
        rw [he] at hu
        rw [finish_fst]
        exact hu
    · split
      · exact .same ht rfl
      · rename_i c1 k hr
        have htg := (treeRoot_tg hr).1
        simp only [tg, Prod.mk.injEq] at htg
        have : Sound H c c1 := .same (by rw [htg.1]; exact ht) htg.2
        split
        · rw [finish_fst]; exact this
        · split
          · rw [finish_fst]; exact this
          · rw [finish_fst]; exact this
  | decrypt e =>
    have := (decrypt_tg H c e).1
    simp only [tg, Prod.mk.injEq] at this
    refine .same ?_ this.2
    show Sourced _ (c.decryptionKeyFor H e).1.tree
    rw [this.1]; exact ht
  | receive op => exact ho.elim

/-- Where everything in a replica's state comes from. -/
structure Traced (c : Cgka) : Prop where
  tree : Sourced c.graph.ops c.tree
  ops : ∀ x op, AMap.get c.graph.ops x = some op → ∀ s ∈ op.payload.uses, s ∈ op.payload.brought ∨ s ∈ op.payload.made ∨
    ∃ y o, TransGen c.graph.Pred y x ∧ AMap.get c.graph.ops y = some o ∧ (s ∈ o.payload.brought ∨ s ∈ o.payload.made)

theorem receive_sourced {H : SOp → Nat} {c : Cgka} (hs : SInv H c) (ht : Sourced c.graph.ops c.tree) (op : SOp) :
    Sourced (c.mergeConcurrentOperation H op).1.graph.ops (c.mergeConcurrentOperation H op).1.tree := by
  have grow : ∀ {g : Graph}, g = c.graph → AMap.get c.graph.ops (H op) = none →
      ∀ x o, AMap.get c.graph.ops x = some o → AMap.get (g.addOp H op op.payload.preds).ops x = some o := by
    intro g hg hf x o hx
    rw [hg]
    show AMap.get (AMap.insert c.graph.ops (H op) op) x = some o
    rw [AMap.get_insert]
    split
    · rename_i he
      rw [he, hf] at hx; simp at hx
    · exact hx
  have app : ∀ {c1 c2 : Cgka}, c1.graph = c.graph → AMap.get c.graph.ops (H op) = none → Sourced c.graph.ops c1.tree →
      c1.applyOperation H op = .ok c2 → Sourced c2.graph.ops c2.tree := by
    intro c1 c2 hg hf hs1 h2
    obtain ⟨a1, a2⟩ := applyOperation_tree (by rw [hg]; exact hf) h2
    rw [a2]
    refine treeOp_sourced (x := H op) (op := op) ?_ (hs1.mono (grow hg hf)) a1
    show AMap.get (AMap.insert c1.graph.ops (H op) op) (H op) = some op
    rw [AMap.get_insert_self]
  unfold Cgka.mergeConcurrentOperation
  split
  · exact ht
  · rename_i hc0
    have hf : AMap.get c.graph.ops (H op) = none := by
      rw [containsOpHash_iff] at hc0; simpa using hc0
    split
    · exact ht
    · split
      · split
        · exact ht.mono (grow rfl hf)
        · split
          · exact ht.mono (grow rfl hf)
          · split
            · exact ht
            · rename_i c1 h1
              exact app rfl hf ht h1
      · split
        · exact ht
        · rename_i c1 hr
          have hx := (Ext.replayIfNeeded hr).graph
          have s1 := replay_sourced hs ht hr
          split
          · show Sourced c1.graph.ops c1.tree
            rw [hx]; exact s1
          · rename_i c2 h2
            exact app hx hf s1 h2

theorem Traced.sub {H : SOp → Nat} (hH : Function.Injective H) {g g' : Graph} (h : GInv H g) (h' : GInv H g')
    {x : Nat} {op : SOp} {s : Sk} (hx' : AMap.get g'.ops x = some op)
    (ho : s ∈ op.payload.brought ∨ s ∈ op.payload.made ∨ ∃ y o, TransGen g.Pred y x ∧ AMap.get g.ops y = some o ∧
      (s ∈ o.payload.brought ∨ s ∈ o.payload.made)) :
    s ∈ op.payload.brought ∨ s ∈ op.payload.made ∨ ∃ y o, TransGen g'.Pred y x ∧ AMap.get g'.ops y = some o ∧
      (s ∈ o.payload.brought ∨ s ∈ o.payload.made) := by
  rcases ho with ho | ho | ⟨y, o, h1, h2, h3⟩
  · exact .inl ho
  · exact .inr (.inl ho)
  · obtain ⟨a, b⟩ := past_agree hH h' h (by rw [hx']; simp) h1
    refine .inr (.inr ⟨y, o, b, ?_, h3⟩)
    rw [ops_agree hH h' h a (by rw [h2]; simp), h2]

theorem trusted_traced {H : SOp → Nat} (hH : Function.Injective H) {c : Cgka} (h : Trusted H c) : Traced c := by
  induction h with
  | @new id pk op c h1 h2 =>
    have hc := Trusted.new h1 h2
    have hops : c.graph.ops = AMap.insert [] (H op) op := by
      unfold Cgka.newFromInitAdd at h2
      simp only [bind, Except.bind] at h2
      split at h2
      · simp at h2
      · cases h2; rfl
    refine ⟨first_sourced (x := H op) (by rw [hops, AMap.get_insert_self]) h1 h2, ?_⟩
    intro x o hx s hs
    rw [hops, AMap.get_insert] at hx
    split at hx
    · cases hx
      obtain ⟨n, ps, hp⟩ := h1
      rw [hp] at hs ⊢
      exact .inl hs
    · simp at hx
  | owner me sks _ _ ih => exact ⟨ih.tree, ih.ops⟩
  | @call c cmd ht ho hg ih =>
    have sc := reachOk_inv hH (trusted_ok ht)
    have sc' := reachOk_inv hH (trusted_ok (.call ht ho hg))
    have hh : cmd.Honest := by
      cases cmd <;> first | exact Sample.good_honest hg | trivial
    obtain ⟨s1, s2⟩ := own_sound hH (trusted_clean hH ht) sc ih.tree ho hg
    refine ⟨s1, ?_⟩
    intro x op hx s hs
    cases h0 : AMap.get c.graph.ops x with
    | some o =>
      have := ops_agree hH sc.graph sc'.graph (x := x) (by rw [h0]; simp) (by rw [hx]; simp)
      rw [h0, hx] at this
      cases this
      exact Traced.sub hH sc.graph sc'.graph hx (ih.ops x op h0 s hs)
    | none =>
      rcases s2 with hgr | ⟨o1, ho1, hgr⟩
      · rw [hgr, h0] at hx; simp at hx
      · have hxo : x = H o1 ∧ op = o1 := by
          rw [hgr] at hx
          have hx : AMap.get (AMap.insert c.graph.ops (H o1) o1) x = some op := hx
          rw [AMap.get_insert] at hx
          split at hx
          · rename_i he; cases hx; exact ⟨he, rfl⟩
          · rw [h0] at hx; simp at hx
        obtain ⟨rfl, rfl⟩ := hxo
        rcases ho1 s hs with h1 | h1 | ⟨y, o, hy, h2⟩
        · exact .inl h1
        · exact .inr (.inl h1)
        · refine .inr (.inr ⟨y, o, ?_, ?_, h2⟩)
          · have hy' : AMap.get (step H c cmd).graph.ops y ≠ none := by
              rw [hgr, addLocal_keeps hH sc.graph op hy]; simp
            rcases head_all sc'.graph (x := H op) (by rw [hgr]; rfl) hy' with he | he
            · rw [he, h0] at hy; simp at hy
            · exact he
          · rw [hgr]; exact addLocal_keeps hH sc.graph op hy
  | @receive c d x0 op ht hd hop ih ihd =>
    have sc := reachOk_inv hH (trusted_ok ht)
    have sd := reachOk_inv hH (trusted_ok hd)
    have sc' := reachOk_inv hH (trusted_ok (.receive ht hd hop))
    refine ⟨receive_sourced sc ih.tree op, ?_⟩
    intro x o hx s hs
    cases h0 : AMap.get c.graph.ops x with
    | some o' =>
      have := ops_agree hH sc.graph sc'.graph (x := x) (by rw [h0]; simp) (by rw [hx]; simp)
      rw [h0, hx] at this
      cases this
      exact Traced.sub hH sc.graph sc'.graph hx (ih.ops x o h0 s hs)
    | none =>
      rcases Props.receive_cases H c op with ⟨hk, _⟩ | ⟨hk, _, _⟩
      · change AMap.get (c.mergeConcurrentOperation H op).1.graph.ops x = some o at hx
        rw [hk, h0] at hx; simp at hx
      · have hx0 := hx
        change AMap.get (c.mergeConcurrentOperation H op).1.graph.ops x = some o at hx
        rw [hk] at hx
        have hx' : AMap.get (AMap.insert c.graph.ops (H op) op) x = some o := hx
        rw [AMap.get_insert] at hx'
        split at hx'
        · rename_i he
          cases hx'
          have hh := sd.graph.hash _ _ hop
          have hxd : AMap.get d.graph.ops x = some op := by rw [he, hh, hop]
          exact Traced.sub hH sd.graph sc'.graph hx0 (ihd.ops x op hxd s hs)
        · rw [h0] at hx'; simp at hx'

end Verif.Cgka
