import Verif.Prekey.CardSpec
import Verif.Prekey.Props

/-! # C116 — contact cards -/

namespace Verif.Prekey.CardProps

open Sample (add rot)

variable {H : KeyOp → Nat} {valid : KeyOp → Bool} {pk : Secret → Key} {S : Body → Option KeyOp} {me : Id}

/-- The operation does not rotate a key to itself. -/
def Moves (op : KeyOp) : Prop := op.oldKey ≠ some op.newKey

theorem clamp_all (v : Nat) : clamp v 64 = 0 := by simp [clamp, swapBytes]

theorem sample_all (stream : Nat → Nat) (max turns : Nat) : sampleLoop stream 64 max (turns + 1) 0 = some 0 := by
  unfold sampleLoop
  rw [clamp_all, if_pos (Nat.zero_le _)]

theorem random_single (stream : Nat → Nat) (n turns : Nat) (h : n = 1) : pseudorandomInRange stream n (turns + 1) = some 0 := by
  unfold pseudorandomInRange
  have h0 : 64 - Nat.log2 n = 64 := by subst h; decide
  rw [h0]
  exact sample_all _ _ _

theorem pick_single (i : Indie) (k : Key) (h : i.prekeys = [k]) (xof : Id → Id → Nat → Nat) (doc : Id) (turns : Nat) :
    i.pickPrekey xof doc (turns + 1) = .key k :=
  Props.picked_of_idx i doc xof _ 0 (random_single _ _ _ (by rw [h]; rfl)) k (by rw [h]; rfl)

theorem new_prekeys (H : KeyOp → Nat) (op : KeyOp) (h : Moves op) : (Indie.new H op).prekeys = [op.newKey] := by
  obtain ⟨is, sg, b⟩ := op
  cases b with
  | add k => simp [Indie.new, State.new, CaMap.insert, CaMap.new, State.build, AMap.values, AMap.insert, AMap.erase, State.buildStep, KeyOp.newKey,
      sinsert]
  | rotate old new =>
    have : new ≠ old := fun he => h (by simp [KeyOp.oldKey, KeyOp.newKey, he])
    simp [Indie.new, State.new, CaMap.insert, CaMap.new, State.build, AMap.values, AMap.insert, AMap.erase, State.buildStep, KeyOp.newKey, sinsert,
      sremove, this]

theorem leads_of (H : KeyOp → Nat) (valid : KeyOp → Bool) {op : KeyOp} (h : Moves op) : CardLeadsTo H valid op op.newKey := by
  intro r hr
  have hid : (Indie.new H op).id = op.issuer := rfl
  refine ⟨Indie.new H op, ?_, hid, new_prekeys H op h, fun xof doc turns => pick_single _ _ (new_prekeys H op h) xof doc turns⟩
  unfold Registry.receiveContactCard
  rw [hr]
  have hc : AMap.contains r.indies (Indie.new H op).id = false := by rw [hid]; unfold AMap.contains; rw [hr]; rfl
  simp only [Registry.registerIndividual, hc, Bool.false_eq_true, if_false]
  rw [hid, AMap.get_insert_self]

/-- What holds of the only device of an agent. -/
structure Inv (valid : KeyOp → Bool) (pk : Secret → Key) (me : Id) (a : Active) : Prop where
  good : ∀ k sk, AMap.get a.pairs k = some sk → pk sk = k
  holds : ∀ o ∈ a.published, AMap.contains a.pairs o.newKey = true
  own : ∀ o ∈ a.published, o.issuer = me ∧ valid o = true ∧ Moves o
  some : a.published ≠ []
  id : a.indie.id = me

theorem Inv.opens {a : Active} (h : Inv valid pk me a) {k : Key} (hk : AMap.contains a.pairs k = true) : a.Opens pk k := by
  unfold AMap.contains at hk
  obtain ⟨sk, hsk⟩ := Option.isSome_iff_exists.1 hk
  exact ⟨sk, hsk, h.good k sk hsk⟩

theorem insert_inv (hS : SignsFor valid me S) {a : Active} (h : Inv valid pk me a) {b : Body} {op : KeyOp} {sk : Secret}
    {a' : Active} (hop : S b = some op) (hn : op.newKey = pk sk) (hm : Moves op) (hs : a'.indie.state = (CaMap.insert H a.indie.state op).1)
    (hi : a'.indie.id = a.indie.id) (hp : a'.pairs = AMap.insert a.pairs (pk sk) sk) : Inv valid pk me a' := by
  obtain ⟨_, h2, h3⟩ := hS _ _ hop
  have hmem : ∀ o ∈ a'.published, o = op ∨ o ∈ a.published := by
    intro o ho
    unfold Active.published at ho
    rw [hs] at ho
    exact Registry.values_insert ho
  refine ⟨fun k s hk => ?_, fun o ho => ?_, fun o ho => ?_, ?_, hi.trans h.id⟩
  · rw [hp, AMap.get_insert] at hk
    split at hk
    · rename_i hc
      cases hk
      exact hc.symm
    · exact h.good k s hk
  · unfold AMap.contains
    rw [hp, AMap.get_insert]
    split
    · rfl
    · rename_i hc
      rcases hmem o ho with rfl | ho
      · exact absurd hn hc
      · exact h.holds o ho
  · rcases hmem o ho with rfl | ho
    · exact ⟨h2, h3, hm⟩
    · exact h.own o ho
  · unfold Active.published
    rw [hs]
    simp [CaMap.insert, AMap.insert, AMap.values]

theorem rotate_ok {a a' : Active} {old : Key} {sk : Secret} {op : KeyOp} (hr : a.rotatePrekey H pk S old sk = .ok (a', op)) :
    S (.rotate old (pk sk)) = some op ∧ a'.indie = a.indie.rotate H op old (pk sk) ∧ a'.pairs = AMap.insert a.pairs (pk sk) sk := by
  unfold Active.rotatePrekey at hr
  split at hr
  · cases hr
  · rename_i op' hop
    cases hr
    exact ⟨hop, rfl, rfl⟩

theorem rotate_inv (hS : SignsFor valid me S) {a a' : Active} (h : Inv valid pk me a) {old : Key} {sk : Secret} {op : KeyOp}
    (hne : pk sk ≠ old) (hr : a.rotatePrekey H pk S old sk = .ok (a', op)) : Inv valid pk me a' := by
  obtain ⟨hop, h1, h2⟩ := rotate_ok hr
  have hb := (hS _ _ hop).1
  refine insert_inv (H := H) hS h hop (by simp [KeyOp.newKey, hb]) ?_ (by rw [h1]; rfl) (by rw [h1]; rfl) h2
  simp only [Moves, KeyOp.newKey, KeyOp.oldKey, hb]
  exact fun he => hne (Option.some.inj he).symm

theorem rotate_newKey (hS : SignsFor valid me S) {a a' : Active} {old : Key} {sk : Secret} {op : KeyOp}
    (hr : a.rotatePrekey H pk S old sk = .ok (a', op)) : op.newKey = pk sk ∧ op.oldKey = some old := by
  have hb := (hS _ _ (rotate_ok hr).1).1
  exact ⟨by simp [KeyOp.newKey, hb], by simp [KeyOp.oldKey, hb]⟩

theorem extend_ne {ops : List KeyOp} : ∀ {s s' : State}, s.extend H valid ops = .ok s' → AMap.values s ≠ [] → AMap.values s' ≠ [] := by
  induction ops with
  | nil => intro s s' h hn; cases h; exact hn
  | cons op ops ih =>
    intro s s' h _
    unfold State.extend at h
    cases hi : s.insertOp H valid op with
    | error e => rw [hi] at h; cases h
    | ok s1 =>
      rw [hi] at h
      refine ih h ?_
      unfold State.insertOp at hi
      split at hi
      · cases hi
        simp [CaMap.insert, AMap.insert, AMap.values]
      · cases hi

theorem generate_inv (hS : SignsFor valid me S) {a : Active} {init : Secret} {others : List Secret}
    (h : Active.generate H valid pk S me init others = .ok a) : Inv valid pk me a := by
  unfold Active.generate at h
  split at h
  · cases h
  · rename_i op hop
    cases hs : Active.signAdds S (AMap.keys (others.foldl (fun m sk => AMap.insert m (pk sk) sk)
        (AMap.insert [] (pk init) init))) with
    | error e => simp only [hs, bind, Except.bind] at h; cases h
    | ok ops =>
      simp only [hs, bind, Except.bind] at h
      cases he : (State.new H op).extend H valid ops with
      | error e => simp only [he] at h; cases h
      | ok s =>
        simp only [he] at h
        cases h
        obtain ⟨p1, p2⟩ := pairs_fold (pk := pk) others (AMap.insert [] (pk init) init) (by
          intro k sk hk
          rw [AMap.get_insert] at hk
          split at hk
          · rename_i hc
            cases hk
            exact hc.symm
          · simp at hk)
        have hcase : ∀ o ∈ AMap.values s, ∃ k, S (.add k) = some o ∧ AMap.contains (others.foldl (fun m sk =>
            AMap.insert m (pk sk) sk) (AMap.insert [] (pk init) init)) k = true := by
          intro o ho
          rcases extend_values he o ho with h1 | h1
          · rcases Registry.values_insert (m := []) h1 with rfl | h1
            · exact ⟨_, hop, p2 _ (by simp [AMap.contains])⟩
            · simp [AMap.values] at h1
          · obtain ⟨k', hk', e⟩ := signAdds_ok hs o h1
            exact ⟨k', e, (AMap.contains_iff _ _).2 hk'⟩
        refine ⟨p1, fun o ho => ?_, fun o ho => ?_, ?_, rfl⟩
        · obtain ⟨k, h1, h2⟩ := hcase o ho
          have hb := (hS _ _ h1).1
          have : o.newKey = k := by simp [KeyOp.newKey, hb]
          rw [this]
          exact h2
        · obtain ⟨k, h1, _⟩ := hcase o ho
          obtain ⟨hb, h3, h4⟩ := hS _ _ h1
          exact ⟨h3, h4, by simp [Moves, KeyOp.oldKey, hb]⟩
        · exact extend_ne he (by simp [State.new, CaMap.insert, AMap.insert, AMap.values])

/-- The steps of making a card. -/
theorem card_ok {a a' : Active} {xof : Id → Id → Nat → Nat} {turns : Nat} {sk1 sk2 : Secret} {op : KeyOp}
    (h : a.makeCard H pk S xof turns sk1 sk2 = (a', .card op)) :
    ∃ k a1 op2, a.indie.pickPrekey xof a.indie.id turns = .key k ∧ a.rotatePrekey H pk S k sk1 = .ok (a1, op) ∧
      a1.rotatePrekey H pk S op.newKey sk2 = .ok (a', op2) := by
  unfold Active.makeCard at h
  split at h
  · cases h
  · cases h
  · rename_i k hk
    split at h
    · cases h
    · rename_i a1 op1 hr1
      split at h
      · cases h
      · rename_i a2 op2 hr2
        cases h
        exact ⟨k, a1, op2, hk, hr1, hr2⟩

theorem card_cases {a a' : Active} {xof : Id → Id → Nat → Nat} {turns : Nat} {sk1 sk2 : Secret} {res : CardRes}
    (h : a.makeCard H pk S xof turns sk1 sk2 = (a', res)) :
    a' = a ∨ ∃ k a1 op, a.indie.pickPrekey xof a.indie.id turns = .key k ∧ a.rotatePrekey H pk S k sk1 = .ok (a1, op) ∧
      (a' = a1 ∨ ∃ op2, a1.rotatePrekey H pk S op.newKey sk2 = .ok (a', op2)) := by
  unfold Active.makeCard at h
  split at h
  · cases h; exact .inl rfl
  · cases h; exact .inl rfl
  · rename_i k hk
    split at h
    · cases h; exact .inl rfl
    · rename_i a1 op1 hr1
      split at h
      · cases h; exact .inr ⟨k, a', op1, hk, hr1, .inl rfl⟩
      · rename_i a2 op2 hr2
        cases h
        exact .inr ⟨k, a1, op1, hk, hr1, .inr ⟨op2, hr2⟩⟩

theorem owner_inv (hS : SignsFor valid me S) {a : Active} (h : Owner H valid pk S me a) : Inv valid pk me a := by
  induction h with
  | generate init others h => exact generate_inv hS h
  | rotate old sk _ hne hr ih => exact rotate_inv hS ih hne hr
  | expand sk _ hr ih =>
    unfold Active.expandPrekeys at hr
    split at hr
    · cases hr
    · rename_i op hop
      cases hr
      have hb := (hS _ _ hop).1
      exact insert_inv (H := H) hS ih hop (by simp [KeyOp.newKey, hb]) (by simp [Moves, KeyOp.oldKey, hb]) rfl rfl rfl
  | card xof turns sk1 sk2 _ hf hne hr ih =>
    rcases card_cases hr with rfl | ⟨k, a1, op, hk, hr1, hr2⟩
    · exact ih
    · have hk' := Props.C42_picked_active_partial _ _ _ _ _ hk
      have i1 := rotate_inv hS ih (fun he => hf (by rw [he]; exact hk')) hr1
      rcases hr2 with rfl | ⟨op2, hr2⟩
      · exact i1
      · exact rotate_inv hS i1 (by rw [(rotate_newKey hS hr1).1]; exact hne.symm) hr2
  | importSecrets m hm _ ih =>
    obtain ⟨p1, p2⟩ := import_good hm ih.good
    exact ⟨p1, fun o ho => p2 _ (ih.holds o ho), ih.own, ih.some, ih.id⟩

/-- Secrets are kept. -/
theorem later_keeps {a b : Active} (hg : ∀ k sk, AMap.get a.pairs k = some sk → pk sk = k) (h : Later H valid pk S a b) :
    (∀ k sk, AMap.get b.pairs k = some sk → pk sk = k) ∧ ∀ k, AMap.contains a.pairs k = true → AMap.contains b.pairs k = true := by
  have ins : ∀ {p p' : AMap Key Secret} {sk : Secret}, p' = AMap.insert p (pk sk) sk →
      (∀ k s, AMap.get p k = some s → pk s = k) → (∀ k s, AMap.get p' k = some s → pk s = k) ∧
      ∀ k, AMap.contains p k = true → AMap.contains p' k = true := by
    intro p p' sk he hp
    subst he
    refine ⟨fun k s hk => ?_, fun k hk => ?_⟩
    · rw [AMap.get_insert] at hk
      split at hk
      · rename_i hc
        cases hk
        exact hc.symm
      · exact hp k s hk
    · unfold AMap.contains at hk ⊢
      rw [AMap.get_insert]
      split
      · rfl
      · exact hk
  induction h with
  | now => exact ⟨hg, fun _ h => h⟩
  | rotate old sk _ hr ih =>
    obtain ⟨h1, h2⟩ := ins (rotate_ok hr).2.2 ih.1
    exact ⟨h1, fun k hk => h2 k (ih.2 k hk)⟩
  | expand sk _ hr ih =>
    unfold Active.expandPrekeys at hr
    split at hr
    · cases hr
    · cases hr
      obtain ⟨h1, h2⟩ := ins rfl ih.1
      exact ⟨h1, fun k hk => h2 k (ih.2 k hk)⟩
  | card xof turns sk1 sk2 _ hr ih =>
    rcases card_cases hr with rfl | ⟨k, a1, op, hk, hr1, hr2⟩
    · exact ih
    · obtain ⟨h1, h2⟩ := ins (rotate_ok hr1).2.2 ih.1
      rcases hr2 with rfl | ⟨op2, hr2⟩
      · exact ⟨h1, fun k hk => h2 k (ih.2 k hk)⟩
      · obtain ⟨h3, h4⟩ := ins (rotate_ok hr2).2.2 h1
        exact ⟨h3, fun k hk => h4 k (h2 k (ih.2 k hk))⟩
  | receive op _ _ ih => exact ih
  | importSecrets m hm _ ih =>
    obtain ⟨p1, p2⟩ := import_good hm ih.1
    exact ⟨p1, fun k hk => p2 k (ih.2 k hk)⟩

theorem later_opens {a b : Active} (hi : Inv valid pk me a) (h : Later H valid pk S a b) {o : KeyOp} (ho : o ∈ a.published) :
    b.Opens pk o.newKey := by
  obtain ⟨h1, h2⟩ := later_keeps hi.good h
  have := h2 _ (hi.holds o ho)
  unfold AMap.contains at this
  obtain ⟨sk, hsk⟩ := Option.isSome_iff_exists.1 this
  exact ⟨sk, hsk, h1 _ _ hsk⟩

theorem card_published {a a' : Active} {xof : Id → Id → Nat → Nat} {turns : Nat} {sk1 sk2 : Secret} {op : KeyOp}
    (hS : SignsFor valid me S) (hne : pk sk1 ≠ pk sk2) (hH : Function.Injective H) (h : a.makeCard H pk S xof turns sk1 sk2 = (a', .card op)) :
    op ∈ a'.published ∧ ∃ op2 ∈ a'.published, op2.oldKey = some op.newKey := by
  obtain ⟨k, a1, op2, hk, hr1, hr2⟩ := card_ok h
  obtain ⟨h1, h2, h3⟩ := rotate_ok hr1
  obtain ⟨h4, h5, h6⟩ := rotate_ok hr2
  have hm : ∀ {m : State} {o : KeyOp}, o ∈ AMap.values (CaMap.insert H m o).1 := by
    intro m o
    simp [CaMap.insert, AMap.insert, AMap.values]
  have hd : op ≠ op2 := by
    intro he
    have e1 := (rotate_newKey hS hr1).1
    have e2 := (rotate_newKey hS hr2).1
    rw [← he, e1] at e2
    exact hne e2
  refine ⟨?_, op2, ?_, (rotate_newKey hS hr2).2⟩
  · unfold Active.published
    rw [h5]
    simp only [Indie.rotate]
    rw [h2]
    simp only [Indie.rotate, CaMap.insert, AMap.insert, AMap.values, AMap.erase, List.map_cons, List.mem_cons, List.mem_map,
      List.mem_filter]
    refine .inr ⟨(H op, op), ⟨.inl rfl, ?_⟩, rfl⟩
    have : H op ≠ H op2 := fun he => hd (hH he)
    simp [this]
  · unfold Active.published
    rw [h5]
    exact hm

/-! ## A sample agent -/

namespace CardSample

/-- Agent 7 as generated, with the seven prekeys 1 to 7. -/
def alice : Active :=
  (Active.generate Sample.H Sample.valid id (Sample.sign 7) 7 1 [2, 3, 4, 5, 6, 7]).toOption.getD ⟨Indie.new Sample.H (add 1), []⟩

theorem alice_owner : Owner Sample.H Sample.valid id (Sample.sign 7) 7 alice :=
  Owner.generate 1 [2, 3, 4, 5, 6, 7] (by decide +kernel)

/-- Draws the first prekey. -/
def zeros : Id → Id → Nat → Nat := fun _ _ _ => 0

/-- A card of agent 7, and the device after making it. -/
def made : Active × CardRes := alice.makeCard Sample.H id (Sample.sign 7) zeros 1 10 11

theorem made_eq : alice.makeCard Sample.H id (Sample.sign 7) zeros 1 10 11 = (made.1, .card (rot 7 10)) := by
  have h : (alice.makeCard Sample.H id (Sample.sign 7) zeros 1 10 11).2 = .card (rot 7 10) := by decide +kernel
  exact Prod.ext rfl h

theorem made_owner : Owner Sample.H Sample.valid id (Sample.sign 7) 7 made.1 :=
  alice_owner.card zeros 1 10 11 (by decide +kernel) (by decide) made_eq

/-- The device after rotating each of the prekeys it was generated with. -/
def rotated : List Key → Active → Active
  | [], a => a
  | k :: ks, a => rotated ks (match a.rotatePrekey Sample.H id (Sample.sign 7) k (k + 100) with | .ok (a', _) => a' | .error _ => a)

theorem rotated_owner : ∀ (ks : List Key) {a : Active}, Owner Sample.H Sample.valid id (Sample.sign 7) 7 a →
    Owner Sample.H Sample.valid id (Sample.sign 7) 7 (rotated ks a) := by
  intro ks
  induction ks with
  | nil => intro a h; exact h
  | cons k ks ih =>
    intro a h
    exact ih (h.rotate (op := rot k (k + 100)) k (k + 100) (by simp) rfl)

/-- The device after adding prekeys. -/
def grown : List Key → Active → Active
  | [], a => a
  | k :: ks, a => grown ks (match a.expandPrekeys Sample.H id (Sample.sign 7) k with | .ok (a', _) => a' | .error _ => a)

theorem grown_owner : ∀ (ks : List Key) {a : Active}, Owner Sample.H Sample.valid id (Sample.sign 7) 7 a →
    Owner Sample.H Sample.valid id (Sample.sign 7) 7 (grown ks a) := by
  intro ks
  induction ks with
  | nil => intro a h; exact h
  | cons k ks ih =>
    intro a h
    exact ih (h.expand (op := add k) k rfl)

/-- Another device of agent 7. -/
def tablet : Active :=
  (Active.generate Sample.H Sample.valid id (Sample.sign 7) 7 21 [22, 23]).toOption.getD ⟨Indie.new Sample.H (add 1), []⟩

theorem tablet_owner : Owner Sample.H Sample.valid id (Sample.sign 7) 7 tablet :=
  Owner.generate 21 [22, 23] (by decide +kernel)

end CardSample

open CardSample

/-! ## The theorems -/

/-- C116, a card is enough to reach its owner: whoever knows an agent from a card only invites them with the key on the card, to
whatever document and without panicking, and the device that made the card holds the secret of that key, now and after anything
it does later. So does it for the card that is handed out without making a new one. Missing: other devices of the agent, and the
panic of making a card with 16 prekeys or more (`C116_fails`). -/
theorem C116_reaches_partial (hS : SignsFor valid me S) {a : Active} (h : Owner H valid pk S me a) :
    (∀ xof turns sk1 sk2 a' card b, pk sk1 ∉ a.indie.prekeys → pk sk1 ≠ pk sk2 →
      a.makeCard H pk S xof turns sk1 sk2 = (a', .card card) → Later H valid pk S a' b →
      card.issuer = me ∧ valid card = true ∧ CardLeadsTo H valid card card.newKey ∧ b.Opens pk card.newKey) ∧
    (∀ ord : List KeyOp → List KeyOp, (∀ l, (ord l).Perm l) → ∃ card, a.indie.existingCard ord = some card ∧
      card.issuer = me ∧ valid card = true ∧ CardLeadsTo H valid card card.newKey ∧
      ∀ b, Later H valid pk S a b → b.Opens pk card.newKey) := by
  refine ⟨fun xof turns sk1 sk2 a' card b hf hne hc hb => ?_, fun ord hord => ?_⟩
  · obtain ⟨k, a1, op2, hk, hr1, hr2⟩ := card_ok hc
    have hk' := Props.C42_picked_active_partial _ _ _ _ _ hk
    have hm : Moves card := by
      obtain ⟨e1, e2⟩ := rotate_newKey hS hr1
      unfold Moves
      rw [e1, e2]
      intro he
      exact hf (by rw [← Option.some.inj he]; exact hk')
    obtain ⟨_, h1, h2⟩ := hS _ _ (rotate_ok hr1).1
    have hi := owner_inv hS (h.card xof turns sk1 sk2 hf hne hc)
    refine ⟨h1, h2, leads_of H valid hm, ?_⟩
    have hp : AMap.contains a'.pairs card.newKey = true := by
      rw [(rotate_newKey hS hr1).1]
      unfold AMap.contains
      rw [(rotate_ok hr2).2.2, AMap.get_insert, if_neg hne, (rotate_ok hr1).2.2, AMap.get_insert_self]
      rfl
    obtain ⟨g1, g2⟩ := later_keeps hi.good hb
    obtain ⟨sk, hsk⟩ := Option.isSome_iff_exists.1 (g2 _ hp)
    exact ⟨sk, hsk, g1 _ _ hsk⟩
  · have hi := owner_inv hS h
    have hne : ord (AMap.values a.indie.state) ≠ [] := by
      intro he
      have := (hord (AMap.values a.indie.state))
      rw [he] at this
      exact hi.some this.symm.eq_nil
    obtain ⟨card, hc⟩ : ∃ card, (ord (AMap.values a.indie.state)).head? = some card := by
      cases hl : ord (AMap.values a.indie.state) with
      | nil => exact absurd hl hne
      | cons c cs => exact ⟨c, rfl⟩
    have hmem : card ∈ a.published := (hord _).mem_iff.1 (List.mem_of_head? hc)
    obtain ⟨h1, h2, h3⟩ := hi.own card hmem
    exact ⟨card, hc, h1, h2, leads_of H valid h3, fun b hb => later_opens hi hb hmem⟩

example : Owner Sample.H Sample.valid id (Sample.sign 7) 7 alice ∧ id 10 ∉ alice.indie.prekeys ∧
    alice.makeCard Sample.H id (Sample.sign 7) zeros 1 10 11 = (made.1, .card (rot 7 10)) ∧
    AMap.get ({ Sample.registry with indies := [] } : Registry).indies (rot 7 10).issuer = none ∧
    (alice.indie.existingCard id).isSome :=
  ⟨alice_owner, by decide +kernel, made_eq, rfl, by decide +kernel⟩

/-- C116, the same for whoever has received any part of what the device published, in any order, merged or not: if they pick a key
then the device holds its secret, now and later. -/
theorem C116_part_partial (hH : Function.Injective H) (hS : SignsFor valid me S) {a b : Active} (h : Owner H valid pk S me a)
    (hb : Later H valid pk S a b) {i : Indie} {l : List KeyOp} (hi : History H valid i l) (hl : ∀ o ∈ l, o ∈ a.published)
    (xof : Id → Id → Nat → Nat) (doc : Id) (turns : Nat) (k : Key) (hk : i.pickPrekey xof doc turns = .key k) : b.Opens pk k := by
  have h1 := (Props.C40_active_iff hH hi k).1 (Props.C42_picked_active_partial _ _ _ _ _ hk)
  obtain ⟨o, ho, rfl⟩ := (introduced_iff _ _).1 h1.1
  exact later_opens (owner_inv hS h) hb (hl o ho)

example : History Sample.H Sample.valid (Sample.receiveAll (Indie.new Sample.H (add 2)) [rot 7 10]) [rot 7 10, add 2] ∧
    (∀ o ∈ [rot 7 10, add 2], o ∈ made.1.published) ∧
    (Sample.receiveAll (Indie.new Sample.H (add 2)) [rot 7 10]).pickPrekey zeros 3 1 = .key 2 :=
  ⟨Sample.history_receiveAll [rot 7 10] (History.new (add 2)) (by decide), by decide +kernel, by decide +kernel⟩

/-- C116, a new card is not spent on others: neither the device itself nor anybody who has all that it published uses the key on
the card, and the card's key is the new one, so that different cards have different keys. Missing: whoever has received the card's
operation but not yet the next (`C116_fails`). -/
theorem C116_private_partial (hH : Function.Injective H) (hS : SignsFor valid me S) {a a' : Active} {xof : Id → Id → Nat → Nat}
    {turns : Nat} {sk1 sk2 : Secret} {card : KeyOp} (hne : pk sk1 ≠ pk sk2)
    (hc : a.makeCard H pk S xof turns sk1 sk2 = (a', .card card)) :
    card.newKey = pk sk1 ∧ card.newKey ∉ a'.indie.prekeys ∧
    ∀ i l, History H valid i l → (∀ o ∈ a'.published, o ∈ l) → ∀ xof doc turns, i.pickPrekey xof doc turns ≠ .key card.newKey := by
  obtain ⟨k, a1, op2, hk, hr1, hr2⟩ := card_ok hc
  have e1 := (rotate_newKey hS hr1).1
  refine ⟨e1, ?_, fun i l hi hl xof doc turns hp => ?_⟩
  · rw [(rotate_ok hr2).2.1]
    simp only [Indie.rotate, mem_sinsert, mem_sremove, not_or]
    exact ⟨by rw [e1]; exact hne, fun h => h.1 rfl⟩
  · have h1 := (Props.C40_active_iff hH hi _).1 (Props.C42_picked_active_partial _ _ _ _ _ hp)
    obtain ⟨_, op2, h2, h3⟩ := card_published hS hne hH hc
    exact h1.2 ((retired_iff _ _).2 ⟨op2, hl op2 h2, h3⟩)

example : ∃ l, History Sample.H Sample.valid (Sample.receiveAll (Indie.new Sample.H (add 2)) made.1.published) l ∧
    (∀ o ∈ made.1.published, o ∈ l) ∧
    (Sample.receiveAll (Indie.new Sample.H (add 2)) made.1.published).pickPrekey zeros 3 1 = .key 11 :=
  ⟨_, Sample.history_receiveAll made.1.published (History.new (add 2)) (by decide +kernel), fun o ho => by simp [ho], by decide +kernel⟩

/-- Making a card never panics with one to fifteen active prekeys: it gives a card when the signer works and the drawing of the
prekey ends. -/
theorem C116_made (a : Active) (h1 : 0 < a.indie.prekeys.length) (h2 : a.indie.prekeys.length < 16) (hs : ∀ b, (S b).isSome)
    (xof : Id → Id → Nat → Nat) (turns : Nat) (sk1 sk2 : Secret) :
    (a.makeCard H pk S xof turns sk1 sk2 = (a, .running) ∧ a.indie.pickPrekey xof a.indie.id turns = .running) ∨
    ∃ a' card, a.makeCard H pk S xof turns sk1 sk2 = (a', .card card) := by
  cases hp : a.indie.pickPrekey xof a.indie.id turns with
  | running => exact .inl ⟨by simp [Active.makeCard, hp], rfl⟩
  | panic =>
    exact absurd ((Props.C42_panic_small_iff a.indie a.indie.id h1 (by omega)).1 ⟨xof, turns, hp⟩).1 (by omega)
  | key k =>
    right
    obtain ⟨op1, hop1⟩ := Option.isSome_iff_exists.1 (hs (.rotate k (pk sk1)))
    obtain ⟨op2, hop2⟩ := Option.isSome_iff_exists.1 (hs (.rotate op1.newKey (pk sk2)))
    simp only [Active.makeCard, hp, Active.rotatePrekey, hop1, hop2]
    exact ⟨_, _, rfl⟩

example : alice.indie.prekeys.length = 7 ∧ (∀ b, (Sample.sign 7 b).isSome) := ⟨by decide +kernel, fun _ => rfl⟩

/-- C116 fails in five ways. The key on a new card is published: who receives the operations of the agent uses it for a document
until the next operation arrives. The card that is handed out without making a new one can be for a key that was rotated away.
Whoever takes in a card, validly signed by its owner, that rotates a key to itself panics when they invite that owner. Making a
card panics on a device with 16 prekeys. And another device of the agent does not hold the secret of the key on the card. -/
theorem C116_fails : ∃ (H : KeyOp → Nat) (valid : KeyOp → Bool) (S : Body → Option KeyOp) (a a' : Active) (card : KeyOp)
    (xof : Id → Id → Nat → Nat), Function.Injective H ∧ SignsFor valid 7 S ∧ Owner H valid id S 7 a ∧
      a.makeCard H id S xof 1 10 11 = (a', .card card) ∧
      (∃ i l, History H valid i l ∧ (∀ o ∈ l, o ∈ a'.published) ∧ i.pickPrekey xof 3 1 = .key card.newKey) ∧
      (∃ b old, Owner H valid id S 7 b ∧ b.indie.existingCard List.reverse = some old ∧ old.newKey ∉ b.indie.prekeys) ∧
      (∃ bad, valid bad = true ∧ ∀ r : Registry, AMap.get r.indies bad.issuer = none → ∃ i,
        AMap.get (r.receiveContactCard H valid bad).1.indies bad.issuer = some i ∧ i.pickPrekey xof 3 1 = .panic) ∧
      (∃ b xof', Owner H valid id S 7 b ∧ b.indie.prekeys.length = 16 ∧ (b.makeCard H id S xof' 1 10 11).2 = .panic) ∧
      (∃ b i, Owner H valid id S 7 b ∧ b.indie.receive H valid card = .ok i ∧ ¬ ({ b with indie := i } : Active).Opens id card.newKey) := by
  refine ⟨Sample.H, Sample.valid, Sample.sign 7, alice, made.1, rot 7 10, zeros, Sample.H_injective, Sample.signsFor 7, alice_owner,
    made_eq, ⟨Indie.new Sample.H (rot 7 10), [rot 7 10], History.new _, by decide +kernel, by decide +kernel⟩,
    ⟨rotated [1, 2, 3, 4, 5, 6, 7] alice, _, rotated_owner _ alice_owner, rfl, by decide +kernel⟩,
    ⟨rot 3 3, by decide, fun r hr => ?_⟩,
    ⟨grown [31, 32, 33, 34, 35, 36, 37, 38, 39] alice, fun _ _ _ => 1, grown_owner _ alice_owner, by decide +kernel,
      by decide +kernel⟩,
    ⟨tablet, _, tablet_owner, rfl, ?_⟩⟩
  · refine ⟨Indie.new Sample.H (rot 3 3), ?_, by decide +kernel⟩
    unfold Registry.receiveContactCard
    rw [hr]
    have hc : AMap.contains r.indies (Indie.new Sample.H (rot 3 3)).id = false := by
      show AMap.contains r.indies (rot 3 3).issuer = false
      unfold AMap.contains
      rw [hr]
      rfl
    simp only [Registry.registerIndividual, hc, Bool.false_eq_true, if_false]
    exact AMap.get_insert_self _ _ _
  · rintro ⟨sk, h, _⟩
    have : AMap.get tablet.pairs (rot 7 10).newKey = none := by decide +kernel
    exact absurd (h.symm.trans this) (by simp)

end Verif.Prekey.CardProps
