import Verif.Keyhive.PlaceSpec
import Verif.Keyhive.FleetLemmas
import Verif.Cgka.PlaceLemmas

/-! # A device that alone signs for its agent keeps the secrets of its places -/

namespace Verif.Keyhive

open Verif.Group Verif.Cgka Verif.BeeKem

variable {E : Env} {me : Id}

/-- The secrets of the places that operations on record gave to `me` are held. -/
def KeepsPlaces (me : Id) (c : Cgka) : Prop :=
  ∀ x op, AMap.get c.graph.ops x = some op → Places me op → ∀ s ∈ op.payload.own, AMap.get c.ownerSks ⟨s⟩ ≠ none

theorem KeepsPlaces.same {c c' : Cgka} (h : KeepsPlaces me c) (hg : Grow c.ownerSks c'.ownerSks) (he : c'.graph = c.graph) : KeepsPlaces me c' := by
  intro x op hx hp s hs
  rw [he] at hx
  exact hg _ (h x op hx hp s hs)

theorem KeepsPlaces.more {c c' : Cgka} (h : KeepsPlaces me c) (hg : Grow c.ownerSks c'.ownerSks) {y : Nat} {o : SOp}
    (he : c'.graph.ops = AMap.insert c.graph.ops y o) (ho : Places me o → ∀ s ∈ o.payload.own, AMap.get c'.ownerSks ⟨s⟩ ≠ none) : KeepsPlaces me c' := by
  intro x op hx hp s hs
  rw [he, AMap.get_insert] at hx
  split at hx
  · cases hx; exact ho hp s hs
  · exact hg _ (h x op hx hp s hs)

theorem KeepsPlaces.owner {c : Cgka} (h : KeepsPlaces me c) {id : Id} {sks : ShareKeyMap} (hg : Grow c.ownerSks sks) :
    KeepsPlaces me (withPublic (c.withNewOwner id sks)) :=
  h.same (hg.trans (Grow.insert _ _ _)) rfl

/-- As `me` signs. -/
def As (me : Id) (sign : Payload → Res SOp) : Prop := GoodSigner sign ∧ ∀ p o, sign p = .ok o → o.issuer = me

theorem As.payload {sign : Payload → Res SOp} (h : As me sign) {p : Payload} {o : SOp} (ho : sign p = .ok o) : o.payload = p := by
  obtain ⟨o', h1, h2⟩ := h.1 p
  rw [ho] at h1
  cases h1; exact h2

theorem keeps_add {H : SOp → Nat} {sign : Payload → Res SOp} (hs : As me sign) {c : Cgka} (hc : Clean c) (sc : SInv H c) (hk : KeepsPlaces me c)
    (id : MemberId) (pk : Pk) : KeepsPlaces me (c.add H sign id pk).1 := by
  have hg := (hc.add hs.1 sc id pk).2
  revert hg
  unfold Cgka.add
  split
  · exact fun hg => hk.same hg rfl
  · split
    · exact fun hg => hk.same hg rfl
    · rename_i c1 hr
      have hx := (Ext.replayIfNeeded hr).graph
      split
      · exact fun hg => hk.same hg hx
      · dsimp only
        split
        · exact fun hg => hk.same hg hx
        · rename_i o ho
          intro hg
          refine hk.more hg (y := H o) (o := o) (by rw [← hx]; rfl) ?_
          intro hp
          have hi := hs.2 _ _ ho
          have hpay := hs.payload ho
          rcases hp with ⟨h1, _⟩ | ⟨_, id', pk', i', as', h2⟩ | ⟨_, id', pc, ps, h2⟩
          · exact absurd hi h1
          · rw [hpay, hx] at h2
            simp only [Payload.add.injEq] at h2
            exact absurd h2.2.2.2.1 sc.graph.ne
          · rw [hpay] at h2; cases h2

theorem keeps_remove {H : SOp → Nat} {sign : Payload → Res SOp} (hs : As me sign) {c : Cgka} (hc : Clean c) (sc : SInv H c) (hk : KeepsPlaces me c)
    (id : MemberId) : KeepsPlaces me (c.remove H sign id).1 := by
  have hg := (hc.remove hs.1 sc id).2
  revert hg
  unfold Cgka.remove
  split
  · exact fun hg => hk.same hg rfl
  · split
    · exact fun hg => hk.same hg rfl
    · rename_i c1 hr
      have hx := (Ext.replayIfNeeded hr).graph
      split
      · exact fun hg => hk.same hg hx
      · split
        · exact fun hg => hk.same hg hx
        · dsimp only
          split
          · exact fun hg => hk.same hg hx
          · rename_i o ho
            intro hg
            refine hk.more hg (y := H o) (o := o) (by rw [← hx]; rfl) ?_
            intro _ s hs'
            rw [hs.payload ho] at hs'
            cases hs'

theorem encryptPath_leaf {t t' : BeeKem} {g : BeeKem.Gen} {n n' : Nat} {id : MemberId} {pk : Pk} {sks sks' : ShareKeyMap} {k : Sk} {pc : PathChange}
    (h : t.encryptPath g n id pk sks = .ok (t', sks', n', k, pc)) : pc.leafPk = .share pk := by
  unfold BeeKem.encryptPath at h
  simp only [bind, Except.bind, pure, Except.pure] at h
  repeat' split at h
  all_goals first
    | cases h; rfl
    | cases h

theorem keeps_update {H : SOp → Nat} {sign : Payload → Res SOp} (hs : As me sign) {c : Cgka} (hc : Clean c) (sc : SInv H c) (hk : KeepsPlaces me c)
    (g : BeeKem.Gen) (n : Nat) (sk : Sk) : KeepsPlaces me (c.update H sign g n sk).1 := by
  have hg := (hc.update hs.1 sc g n sk).2
  revert hg
  unfold Cgka.update
  split
  · exact fun hg => hk.same hg rfl
  · rename_i c1 hr
    have hx := (Ext.replayIfNeeded hr).graph
    split
    · exact fun hg => hk.same hg hx
    · rename_i uid upk usk hu
      dsimp only
      split
      · exact fun hg => hk.same hg hx
      · rename_i t sks n' k pc henc
        split
        · exact fun hg => hk.same hg hx
        · rename_i o ho
          intro hg
          refine hk.more hg (y := H o) (o := o) (by rw [← hx]; rfl) ?_
          intro _ s hs'
          rw [hs.payload ho] at hs'
          simp only [Payload.own, encryptPath_leaf henc, NodeKey.keys, List.map_cons, List.map_nil, List.mem_singleton] at hs'
          rw [hs']
          show AMap.get sks ⟨upk.of⟩ ≠ none
          refine encryptPath_grow henc _ ?_
          rw [AMap.get_insert_self]; simp

theorem keeps_encrypt {H : SOp → Nat} {sign : Payload → Res SOp} (hs : As me sign) {c : Cgka} (hc : Clean c) (sc : SInv H c) (hk : KeepsPlaces me c)
    (g : BeeKem.Gen) (n r ps : Nat) : KeepsPlaces me (c.newAppSecretFor H sign g n r ps).1 := by
  have hg := (hc.encrypt hs.1 sc g n r ps).2
  revert hg
  unfold Cgka.newAppSecretFor
  split
  · exact fun hg => hk.same hg rfl
  · have hu := keeps_update hs hc sc hk g (n + 1) (g n)
    split
    · rename_i c1 e he; rw [he] at hu; exact fun _ => hu
    · rename_i c1 k op he
      rw [he] at hu
      rw [finish_fst]
      exact fun _ => hu
  · split
    · exact fun hg => hk.same hg rfl
    · rename_i c1 k hr
      have htg := (treeRoot_tg hr).1
      simp only [tg, Prod.mk.injEq] at htg
      split
      · rw [finish_fst]; exact fun hg => hk.same hg htg.2
      · split
        · rw [finish_fst]; exact fun hg => hk.same hg htg.2
        · rw [finish_fst]; exact fun hg => hk.same hg htg.2

theorem keeps_decrypt {H : SOp → Nat} {c : Cgka} (hc : Clean c) (hk : KeepsPlaces me c) (e : EncContent) : KeepsPlaces me (c.decryptionKeyFor H e).1 := by
  have := (decrypt_tg H c e).1
  simp only [tg, Prod.mk.injEq] at this
  exact hk.same (hc.decrypt e).2 this.2

theorem keeps_receive {H : SOp → Nat} {c : Cgka} (hc : Clean c) (sc : SInv H c) (hk : KeepsPlaces me c) {op : SOp} (ht : op.True)
    (hp : AMap.get c.graph.ops (H op) = none → Places me op → ∀ s ∈ op.payload.own, AMap.get c.ownerSks ⟨s⟩ ≠ none) :
    KeepsPlaces me (c.mergeConcurrentOperation H op).1 := by
  have hg := (hc.receive sc ht).2
  rcases Cgka.Props.receive_cases H c op with ⟨h1, _⟩ | ⟨h1, _, h2⟩
  · exact hk.same hg h1
  · exact hk.more hg (y := H op) (o := op) (by rw [h1]; rfl) (fun h s hs => hg _ (hp h2 h s hs))

theorem new_ops {H : SOp → Nat} {id : MemberId} {pk : Pk} {op : SOp} {c : Cgka} (h : Cgka.newFromInitAdd H id pk op = .ok c) :
    c.graph.ops = AMap.insert [] (H op) op := by
  unfold Cgka.newFromInitAdd at h
  simp only [bind, Except.bind] at h
  split at h
  · simp at h
  · cases h; rfl

/-! ## Whose leaf it is -/

/-- Nothing but what `sign` signed is recorded in addition. -/
def Signs' (sign : Payload → Res SOp) (c c' : Cgka) : Prop :=
  ∀ x o, AMap.get c'.graph.ops x = some o → AMap.get c.graph.ops x = some o ∨ ∃ p, sign p = .ok o

theorem Signs'.same {sign : Payload → Res SOp} {c c' : Cgka} (he : c'.graph = c.graph) : Signs' sign c c' := fun x o h => by rw [he] at h; exact .inl h

theorem Signs'.more {sign : Payload → Res SOp} {c c' : Cgka} {y : Nat} {o : SOp} {p : Payload} (he : c'.graph.ops = AMap.insert c.graph.ops y o)
    (ho : sign p = .ok o) : Signs' sign c c' := fun x o' h => by
  rw [he, AMap.get_insert] at h
  split at h
  · cases h; exact .inr ⟨p, ho⟩
  · exact .inl h

theorem signs_add {H : SOp → Nat} {sign : Payload → Res SOp} {c : Cgka} (id : MemberId) (pk : Pk) : Signs' sign c (c.add H sign id pk).1 := by
  unfold Cgka.add
  split
  · exact .same rfl
  · split
    · exact .same rfl
    · rename_i c1 hr
      have hx := (Ext.replayIfNeeded hr).graph
      split
      · exact .same hx
      · dsimp only
        split
        · exact .same hx
        · rename_i o ho
          exact .more (y := H o) (o := o) (by rw [← hx]; rfl) ho

theorem signs_remove {H : SOp → Nat} {sign : Payload → Res SOp} {c : Cgka} (id : MemberId) : Signs' sign c (c.remove H sign id).1 := by
  unfold Cgka.remove
  split
  · exact .same rfl
  · split
    · exact .same rfl
    · rename_i c1 hr
      have hx := (Ext.replayIfNeeded hr).graph
      split
      · exact .same hx
      · split
        · exact .same hx
        · dsimp only
          split
          · exact .same hx
          · rename_i o ho
            exact .more (y := H o) (o := o) (by rw [← hx]; rfl) ho

theorem signs_update {H : SOp → Nat} {sign : Payload → Res SOp} {c : Cgka} (g : BeeKem.Gen) (n : Nat) (sk : Sk) :
    Signs' sign c (c.update H sign g n sk).1 := by
  unfold Cgka.update
  split
  · exact .same rfl
  · rename_i c1 hr
    have hx := (Ext.replayIfNeeded hr).graph
    split
    · exact .same hx
    · dsimp only
      split
      · exact .same hx
      · split
        · exact .same hx
        · rename_i o ho
          exact .more (y := H o) (o := o) (by rw [← hx]; rfl) ho

theorem signs_encrypt {H : SOp → Nat} {sign : Payload → Res SOp} {c : Cgka} (g : BeeKem.Gen) (n r ps : Nat) :
    Signs' sign c (c.newAppSecretFor H sign g n r ps).1 := by
  unfold Cgka.newAppSecretFor
  split
  · exact .same rfl
  · have hu := signs_update (H := H) (sign := sign) (c := c) g (n + 1) (g n)
    split
    · rename_i c1 e he; rw [he] at hu; exact hu
    · rename_i c1 k op he
      rw [he] at hu
      rw [finish_fst]
      exact hu
  · split
    · exact .same rfl
    · rename_i c1 k hr
      have htg := (treeRoot_tg hr).1
      simp only [tg, Prod.mk.injEq] at htg
      split
      · rw [finish_fst]; exact .same htg.2
      · split
        · rw [finish_fst]; exact .same htg.2
        · rw [finish_fst]; exact .same htg.2

/-- Once somebody else has added `me`, the key tree is used for the leaf of `me` or that of the public individual. -/
def Owned (me : Id) (c : Cgka) : Prop :=
  (∃ x op, AMap.get c.graph.ops x = some op ∧ Invites me op) → c.ownerId = me ∨ c.ownerId = MemberId.pub

theorem Owned.step {sign : Payload → Res SOp} (hs : As me sign) {c c' : Cgka} (h : Owned me c) (ho : c'.ownerId = c.ownerId) (hg : Signs' sign c c') :
    Owned me c' := by
  rintro ⟨x, op, h1, h2⟩
  rw [ho]
  rcases hg x op h1 with h3 | ⟨p, h3⟩
  · exact h ⟨x, op, h3, h2⟩
  · exact absurd (hs.2 _ _ h3) h2.1

theorem Owned.receive {H : SOp → Nat} {c : Cgka} (h : Owned me c) {op : SOp} (ht : op.True)
    (hp : Invites me op → c.ownerId = me ∨ c.ownerId = MemberId.pub) : Owned me (c.mergeConcurrentOperation H op).1 := by
  have ho := (GStep.receive H c op).2.owner
  rintro ⟨x, o, h1, h2⟩
  rw [ho]
  rcases Cgka.Props.receive_cases H c op with ⟨h3, _⟩ | ⟨h3, _⟩
  · rw [h3] at h1; exact h ⟨x, o, h1, h2⟩
  · rw [h3] at h1
    have h1 : AMap.get (AMap.insert c.graph.ops (H op) op) x = some o := h1
    rw [AMap.get_insert] at h1
    split at h1
    · cases h1; exact hp h2
    · exact h ⟨x, o, h1, h2⟩

theorem Owned.owner {c : Cgka} {id : Id} {sks : ShareKeyMap} (h : id = me ∨ id = MemberId.pub) : Owned me (withPublic (c.withNewOwner id sks)) :=
  fun _ => h

theorem first_owned {H : SOp → Nat} {id : MemberId} {pk : Pk} {op : SOp} {c c' : Cgka} (h : Cgka.newFromInitAdd H id pk op = .ok c)
    {i : Nat} {as : List Nat} (hp : op.payload = .add id pk i [] as) (hg : c'.graph = c.graph) : Owned me c' := by
  rintro ⟨x, o, h1, -, pk', i', p, ps, as', h2⟩
  rw [hg, new_ops h, AMap.get_insert] at h1
  split at h1
  · cases h1
    rw [hp] at h2
    cases h2
  · cases h1

/-- What holds of the key trees. -/
def Secured (H : SOp → Nat) (me : Id) (c : Cgka) : Prop := Trusted H c ∧ KeepsPlaces me c ∧ Owned me c

theorem closed_kept {H : SOp → Nat} (hH : Function.Injective H) : Closed0 H (fun s _ => As me s) (Secured H me) := by
  have T := closed_trusted H
  refine ⟨?_, ?_, ?_, ?_, ?_, ?_⟩
  · intro id pk op c sign g me' hq hpk h1 h2
    refine ⟨T.made (sign := sign) me' hq.1 hpk h1 h2, ?_, by obtain ⟨n, ps, hp⟩ := h1; exact first_owned h2 hp rfl⟩
    intro x o hx _ s hs
    have hx : AMap.get c.graph.ops x = some o := hx
    rw [new_ops h2, AMap.get_insert] at hx
    split at hx
    · cases hx
      obtain ⟨n, ps, hp⟩ := h1
      rw [hp] at hs
      simp only [Payload.own, List.mem_singleton] at hs
      rw [hs, hpk]
      refine Grow.insert _ _ _ _ ?_
      show AMap.get (AMap.insert [] (shareKey (g 0)) (g 0)) (shareKey (g 0)) ≠ none
      rw [AMap.get_insert_self]; simp
    · cases hx
  · intro c sign g id pk hq h
    exact ⟨T.add (g := g) id pk hq.1 h.1, keeps_add hq (trusted_clean hH h.1) (reachOk_inv hH (trusted_ok h.1)) h.2.1 id pk,
      h.2.2.step hq (GStep.add (H := H) (Sample.good_honest hq.1) c id pk).2.owner (signs_add id pk)⟩
  · intro c sign g id hq h
    exact ⟨T.remove (g := g) id hq.1 h.1, keeps_remove hq (trusted_clean hH h.1) (reachOk_inv hH (trusted_ok h.1)) h.2.1 id,
      h.2.2.step hq (GStep.remove (H := H) (Sample.good_honest hq.1) c id).2.owner (signs_remove id)⟩
  · intro c sign g hq h
    exact ⟨T.update (g := g) hq.1 h.1, keeps_update hq (trusted_clean hH h.1) (reachOk_inv hH (trusted_ok h.1)) h.2.1 g 1 (g 0),
      h.2.2.step hq (GStep.update (H := H) (Sample.good_honest hq.1) g 1 c (g 0)).2.owner (signs_update g 1 (g 0))⟩
  · intro c sign g r ps hq h
    exact ⟨T.encrypt (g := g) r ps hq.1 h.1, keeps_encrypt hq (trusted_clean hH h.1) (reachOk_inv hH (trusted_ok h.1)) h.2.1 g 0 r ps,
      h.2.2.step hq (GStep.encrypt (H := H) (Sample.good_honest hq.1) g 0 c r ps).2.owner (signs_encrypt g 0 r ps)⟩
  · intro c e h
    exact ⟨T.decrypt e h.1, keeps_decrypt (trusted_clean hH h.1) h.2.1 e, fun h' => by
      rw [(Ext.decrypt H c e).owner]; rw [(Ext.decrypt H c e).graph] at h'; exact h.2.2 h'⟩

/-! ## Receiving -/

theorem passed_true {did : Id} (hH : Function.Injective (E.hashCgka did)) {op : SOp} (hp : Passed E did op) : op.True := by
  obtain ⟨⟨d0, x, h0, hx⟩, -⟩ := hp
  exact (trusted_clean hH h0).ops x op hx

theorem kept_merge {did : Id} (hH : Function.Injective (E.hashCgka did)) {d : Doc} (h : d.Has (Secured (E.hashCgka did) me)) {op : SOp}
    (hp : Passed E did op) (hi : op.issuer = me → ∃ c, d.cgka = some c ∧ AMap.get c.graph.ops (E.hashCgka did op) ≠ none)
    (hq : ∀ c, d.cgka = some c → Invites me op → (∀ s ∈ op.payload.own, AMap.get c.ownerSks ⟨s⟩ ≠ none) ∧ (c.ownerId = me ∨ c.ownerId = MemberId.pub)) :
    (d.mergeCgkaOp (E.hashCgka did) op).1.Has (Secured (E.hashCgka did) me) := by
  have ht := trusted_mergeCgkaOp (d := d) (fun c hc => (h c hc).1) hp
  intro c' h'
  refine ⟨ht c' h', ?_⟩
  revert h'
  unfold Doc.mergeCgkaOp
  split
  · rename_i c hc
    intro h'
    cases h'
    refine ⟨?_, (h c hc).2.2.receive (passed_true hH hp) (fun hi' => (hq c hc hi').2)⟩
    refine keeps_receive (trusted_clean hH (h c hc).1) (reachOk_inv hH (trusted_ok (h c hc).1)) (h c hc).2.1 (passed_true hH hp) ?_
    intro hn hpl
    rcases hpl with hpl | ⟨h1, _⟩ | ⟨h1, _⟩
    · exact (hq c hc hpl).1
    · obtain ⟨c1, a1, a2⟩ := hi h1
      rw [hc] at a1; cases a1
      exact absurd hn a2
    · obtain ⟨c1, a1, a2⟩ := hi h1
      rw [hc] at a1; cases a1
      exact absurd hn a2
  · rename_i hno
    have hne : op.issuer ≠ me := by
      intro h1
      obtain ⟨c1, a1, _⟩ := hi h1
      rw [hno] at a1; cases a1
    split
    · rename_i id pk n preds ps hp'
      split
      · intro h'; rw [hno] at h'; cases h'
      · rename_i he
        split
        · intro h'; rw [hno] at h'; cases h'
        · rename_i c hc
          intro h'
          cases h'
          have hnil : preds = [] := by simpa using he
          subst hnil
          refine ⟨?_, first_owned hc hp' rfl⟩
          intro x o hx hpl
          have hx : AMap.get c.graph.ops x = some o := hx
          rw [new_ops hc, AMap.get_insert] at hx
          split at hx
          · cases hx
            rcases hpl with ⟨_, pk', i', p, ps', as', h2⟩ | ⟨h1, _⟩ | ⟨h1, _⟩
            · rw [hp'] at h2
              cases h2
            · exact absurd h1 hne
            · exact absurd h1 hne
          · cases hx
    · intro h'; rw [hno] at h'; cases h'

theorem kept_invite {did : Id} (hH : Function.Injective (E.hashCgka did)) {d : Doc} (h : d.Has (Secured (E.hashCgka did) me)) {op : SOp}
    (hp : Passed E did op) {sk : Sk} (hs : ∀ id pk i ps as, op.payload = .add id pk i ps as → pk = shareKey sk)
    (hid : ∀ id pk i ps as, op.payload = .add id pk i ps as → id = me ∨ id = MemberId.pub)
    (hi : op.issuer = me → ∃ c, d.cgka = some c ∧ AMap.get c.graph.ops (E.hashCgka did op) ≠ none) :
    (d.mergeCgkaInviteOp (E.hashCgka did) op sk).1.Has (Secured (E.hashCgka did) me) := by
  unfold Doc.mergeCgkaInviteOp
  split
  · rename_i id pk i ps as ho
    split
    · exact h
    · rename_i c hc
      split
      · exact h
      · refine kept_merge hH ?_ hp ?_ ?_
        · intro c' h'
          cases h'
          exact ⟨trusted_public (h c hc).1 ((trusted_pairs hH (h c hc).1).insert' (hs _ _ _ _ _ ho)), (h c hc).2.1.owner (Grow.insert _ _ _),
            Owned.owner (hid _ _ _ _ _ ho)⟩
        · intro h1
          obtain ⟨c1, a1, a2⟩ := hi h1
          rw [hc] at a1; cases a1
          exact ⟨_, rfl, a2⟩
        · intro c' h' _
          cases h'
          refine ⟨?_, hid _ _ _ _ _ ho⟩
          intro s hs'
          rw [ho] at hs'
          simp only [Payload.own, List.mem_singleton] at hs'
          rw [hs']
          refine Grow.insert _ _ _ _ ?_
          show AMap.get (AMap.insert c.ownerSks pk sk) ⟨pk.of⟩ ≠ none
          rw [AMap.get_insert_self]; simp
  · exact h

theorem kept_reset {did : Id} (hH : Function.Injective (E.hashCgka did)) {d : Doc} (h : d.Has (Secured (E.hashCgka did) me)) {owner : Id} (he : owner = me) :
    (d.resetCgkaOwner owner).1.Has (Secured (E.hashCgka did) me) := by
  unfold Doc.resetCgkaOwner
  split
  · exact h
  · rename_i c hc
    intro c' h'
    cases h'
    exact ⟨trusted_public (h c hc).1 (trusted_pairs hH (h c hc).1), (h c hc).2.1.owner (Grow.refl _), Owned.owner (.inl he)⟩

/-- What holds on such a device. -/
structure OnlyOk (E : Env) (me : Id) (k : Keyhive) : Prop where
  trees : Trees (fun i => Secured (E.hashCgka i) me) k
  self : k.reg.me = me
  pub : k.reg.pub = MemberId.pub
  pairs : OwnPairs k.pairs
  pend : ∀ did op, .cgka did op ∈ k.pending → Passed E did op ∧ op.issuer ≠ me

theorem only_receiveCgkaOp (hH : ∀ i, Function.Injective (E.hashCgka i)) {k : Keyhive} (h : OnlyOk E me k) {did : Id} {op : SOp}
    (hp : Passed E did op) (hi : op.issuer = me → HasKeyOp E k did op) : Trees (fun i => Secured (E.hashCgka i) me) (k.receiveCgkaOp E did op).1 := by
  have ht := h.trees
  unfold Keyhive.receiveCgkaOp
  split
  · exact ht
  · split
    · exact ht
    · rename_i d hd
      have h0 := ht did d hd
      have hi' : op.issuer = me → ∃ c, d.cgka = some c ∧ AMap.get c.graph.ops (E.hashCgka did op) ≠ none := by
        intro h1
        obtain ⟨d1, c, a1, a2, a3⟩ := hi h1
        rw [hd] at a1; cases a1
        exact ⟨c, a2, by rw [a3]; simp⟩
      split
      · rename_i added pk i ps as ho
        split
        · rename_i hme
          split
          · exact ht
          · rename_i sk hsk
            refine ht.set (kept_invite (hH did) h0 hp ?_ ?_ hi') rfl
            · intro _ pk' _ _ _ ho'
              rw [ho] at ho'
              cases ho'
              exact h.pairs _ (AMap.mem_of_get hsk)
            · intro _ pk' _ _ _ ho'
              rw [ho] at ho'
              cases ho'
              exact .inl (hme.symm.trans h.self)
        · rename_i hne
          have hno : ¬ Invites me op := by
            rintro ⟨_, pk', i', p, ps', as', h2⟩
            rw [ho] at h2
            simp only [Payload.add.injEq] at h2
            exact hne (h.self.trans h2.1.symm)
          split
          · rename_i hpub
            unfold Keyhive.mergePublicInvite
            have h1 := kept_invite (hH did) h0 hp (sk := publicSk) (by
              intro _ pk' _ _ _ ho'
              rw [ho] at ho'
              cases ho'
              refine hp.2 pk i ps as ?_
              rw [← h.pub, hpub]; exact ho) (by
              intro _ pk' _ _ _ ho'
              rw [ho] at ho'
              cases ho'
              exact .inr (hpub.symm.trans h.pub)) hi'
            split
            · rename_i heq
              rw [heq] at h1
              exact ht.set h1 rfl
            · rename_i heq
              rw [heq] at h1
              exact ht.set (kept_reset (hH did) h1 h.self) rfl
          · exact ht.set (kept_merge (hH did) h0 hp hi' (fun _ _ h => absurd h hno)) rfl
      · rename_i hna
        refine ht.set (kept_merge (hH did) h0 hp hi' ?_) rfl
        rintro c hc ⟨_, pk', i', p, ps', as', h2⟩
        exact absurd h2 (hna _ _ _ _ _)

theorem only_receive (hH : ∀ i, Function.Injective (E.hashCgka i)) {k : Keyhive} (h : OnlyOk E me k) {e : Event}
    (hp : ∀ did op, e = .cgka did op → Passed E did op) (hi : ∀ did op, e = .cgka did op → op.issuer = me → HasKeyOp E k did op) :
    OnlyOk E me (k.receive E e).1 := by
  have hs := receive_self (E := E) k e
  refine ⟨?_, hs.me.trans h.self, hs.pub.trans h.pub, by rw [hs.pairs]; exact h.pairs, by rw [receive_pending]; exact h.pend⟩
  have ht := h.trees
  cases e with
  | prekey op => exact ht.same rfl
  | cgka i op => exact only_receiveCgkaOp hH h (hp i op rfl) (hi i op rfl)
  | dlg s =>
    show Trees _ (k.receiveDelegation E s).1
    unfold Keyhive.receiveDelegation
    repeat' split
    · exact ht
    · exact ht
    · exact ht
    · exact trees_applyDlg ht _
  | rev s =>
    show Trees _ (k.receiveRevocation E s).1
    unfold Keyhive.receiveRevocation
    repeat' split
    · exact ht
    · exact ht
    · exact ht
    · exact trees_applyRev ht _

theorem only_ingest (hH : ∀ i, Function.Injective (E.hashCgka i)) {k : Keyhive} (h : OnlyOk E me k) {ord : List Event → List Event}
    (hord : ∀ l, (ord l).Perm l) {events : List Event} (hp : ∀ did op, .cgka did op ∈ events → Passed E did op ∧ op.issuer ≠ me) :
    OnlyOk E me (k.ingest E ord events).1 := by
  refine rounds_fine (P := OnlyOk E me) (Q := fun e => ∀ did op, e = .cgka did op → Passed E did op ∧ op.issuer ≠ me)
    (fun k e hq h => only_receive hH h (fun did op ho => (hq did op ho).1) (fun did op ho h1 => absurd h1 (hq did op ho).2)) ?_ ?_ h
  · intro k p hp h
    refine ⟨h.trees.same rfl, h.self, h.pub, h.pairs, fun did op ho => ?_⟩
    rcases hp _ ho with h1 | h1
    · exact h1 did op rfl
    · exact h.pend did op h1
  · intro e hm did op he
    subst he
    have := mem_of_dedup ((hord _).mem_iff.1 hm)
    rcases List.mem_append.1 this with h1 | h1
    · exact hp did op h1
    · exact h.pend did op h1

theorem only_fleet {k : Keyhive} (h : OnlyDevice E me k) : Fleet E k := by
  induction h with
  | start reg pairs hp hk _ => exact .start reg pairs hp hk
  | call c _ ho hc hs _ ih => exact .call c ih ho hc hs
  | receive e _ src hf he _ ih => exact .receive e ih src hf he
  | ingest ord hord events _ src hf he _ ih => exact .ingest ord hord events ih src hf he
  | archive ord hord a _ hk ih => exact .archive ord hord a ih hk

theorem Call.SignsAs.uses {c : Call} (h : c.SignsAs me) (hs : c.Steady) : c.Uses (fun s _ => As me s) := by
  cases c <;> first | exact trivial | exact fun doc => ⟨hs doc, h doc⟩

theorem only_ok (hH : ∀ i, Function.Injective (E.hashCgka i)) {k : Keyhive} (h : OnlyDevice E me k) : OnlyOk E me k := by
  have src_passed : ∀ {src : Id → SOp → Keyhive}, (∀ did op, Fleet E (src did op)) → ∀ {did op}, HasKeyOp E (src did op) did op ∧ PublicAsKnown op →
      Passed E did op := by
    rintro src hf did op ⟨⟨d, c, h1, h2, h3⟩, h4⟩
    exact ⟨⟨c, _, fleet_trusted hH (hf did op) h1 h2, h3⟩, h4⟩
  induction h with
  | start reg pairs hp hk hm => exact ⟨trees_start reg pairs, hm, hp, hk, fun _ _ h => by cases h⟩
  | @call k c h ho hc hs hi ih =>
    obtain ⟨h1, h2, h3, h4⟩ := own_stock (E := E) (k := k) c ho
    exact ⟨trees_own (fun i => closed_kept (hH i)) ih.trees c hc (hi.uses hs) ho, h4.trans ih.self, h1.trans ih.pub, by rw [h2]; exact ih.pairs,
      by rw [h3]; exact ih.pend⟩
  | receive e h src hf he hi ih => exact only_receive hH ih (fun did op ho => src_passed hf (he did op ho)) hi
  | ingest ord hord events h src hf he hi ih => exact only_ingest hH ih hord (fun did op ho => ⟨src_passed hf (he did op ho), hi did op ho⟩)
  | @archive k ord hord a h hk ih =>
    have hs := merged_same k a
    refine only_ingest (k := k.merged a) hH ⟨ih.trees.same hs.docs, hs.me.trans ih.self, (merged_pub k a).trans ih.pub, ?_, by rw [hs.pending]; exact ih.pend⟩ hord ?_
    · unfold Keyhive.merged
      rw [mergeIndies_pairs]
      exact ih.pairs.fold hk
    · intro did op ho
      obtain ⟨m, _, hm⟩ := List.mem_map.1 ho
      cases m <;> cases hm

theorem only_keeps (hH : ∀ i, Function.Injective (E.hashCgka i)) {k : Keyhive} (h : OnlyDevice E me k) {did : Id} {d : Doc} {c : Cgka}
    (hd : AMap.get k.docs did = some d) (hc : d.cgka = some c) : KeepsPlaces me c := ((only_ok hH h).trees did d hd c hc).2.1

theorem only_owned (hH : ∀ i, Function.Injective (E.hashCgka i)) {k : Keyhive} (h : OnlyDevice E me k) {did : Id} {d : Doc} {c : Cgka}
    (hd : AMap.get k.docs did = some d) (hc : d.cgka = some c) : Owned me c := ((only_ok hH h).trees did d hd c hc).2.2

end Verif.Keyhive
