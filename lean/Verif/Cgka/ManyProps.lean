import Verif.Cgka.Many
import Verif.Cgka.MembersProps

/-!
# Property theorems: adding several members in one call (C129)

`c.addMultiple H sign ms` is `add_multiple` of the group `c` with the individuals and keys `ms`.
-/

namespace Verif.Cgka

open Verif.BeeKem

/-- What a successful `add` records. -/
theorem add_records {H : SOp → Nat} {sign : Payload → Res SOp} {c c' : Cgka} {id : MemberId} {pk : Pk} {o : Option SOp}
    (h : c.add H sign id pk = (c', .ok o)) :
    (o = none ∧ c' = c ∧ c.tree.containsId id = true) ∨ ∃ op i, o = some op ∧ c'.graph = c.graph.addLocalOp H op ∧
      sign (.add id pk i c.graph.heads c.graph.addHeads) = .ok op ∧ c.tree.containsId id = false := by
  unfold Cgka.add at h
  split at h
  · rename_i hc
    cases h
    exact .inl ⟨rfl, rfl, hc⟩
  · rename_i hn
    split at h
    · cases h
    · rename_i c1 h1
      have hg := (Ext.replayIfNeeded h1).graph
      split at h
      · cases h
      · rename_i tree i hp
        dsimp only at h
        split at h
        · cases h
        · rename_i op hs
          cases h
          rw [hg] at hs
          exact .inr ⟨op, i, rfl, by rw [← hg], hs, by simpa using hn⟩

theorem addMultiple_cons {H : SOp → Nat} {sign : Payload → Res SOp} {c c' : Cgka} {m : MemberId × Pk} {ms : List (MemberId × Pk)}
    {os : List SOp} (h : c.addMultiple H sign (m :: ms) = (c', .ok os)) :
    ∃ c1 o os', c.add H sign m.1 m.2 = (c1, .ok o) ∧ c1.addMultiple H sign ms = (c', .ok os') ∧ os = o.toList ++ os' := by
  unfold Cgka.addMultiple at h
  split at h
  · cases h
  · rename_i c1 o h1
    split at h
    · cases h
    · rename_i c2 os' h2
      cases h
      exact ⟨c1, o, os', h1, h2, rfl⟩

end Verif.Cgka

namespace Verif.Cgka.ManyProps

open Verif.BeeKem Verif.Cgka

/-- The individual an operation adds. -/
def added (op : SOp) : Option MemberId :=
  match op.payload with
  | .add id _ _ _ _ => some id
  | _ => none

/-- Each operation comes directly after the one before it. -/
def OneAfterAnother (H : SOp → Nat) (ops : List SOp) : Prop := ops.IsChain (fun a b => ∀ x, x ∈ b.payload.preds ↔ x = H a)

/-- C129, who is a member: when nothing received is waiting to be replayed, the group consists afterwards of the previous members and
the individuals named, and there is one addition for each of them that was not a member. Missing: groups with operations waiting
(`C129_fails`). -/
theorem C129_members_partial {H : SOp → Nat} {sign : Payload → Res SOp} (hs : HonestSigner sign) {c c' : Cgka}
    {ms : List (MemberId × Pk)} {ops : List SOp} (hc : Current c) (h : c.addMultiple H sign ms = (c', .ok ops)) :
    (∀ j, c'.tree.containsId j = true ↔ j ∈ ms.map Prod.fst ∨ c.tree.containsId j = true) ∧
    (∀ j, some j ∈ ops.map added ↔ j ∈ ms.map Prod.fst ∧ c.tree.containsId j = false) ∧
    (ops.map added).Nodup ∧ Current c' := by
  induction ms generalizing c ops with
  | nil => cases h; exact ⟨by simp, by simp, by simp, hc⟩
  | cons m ms ih =>
    obtain ⟨c1, o, os, h1, h2, rfl⟩ := addMultiple_cons h
    obtain ⟨hc1, hm⟩ := hc.add h1
    obtain ⟨a1, a2, a3, a4⟩ := ih hc1 h2
    have hlist : o.toList.map added = (if c.tree.containsId m.1 then [] else [some m.1]) := by
      rcases add_records h1 with ⟨rfl, -, hin⟩ | ⟨op, i, rfl, -, hop, hin⟩
      · simp [hin]
      · simp [hin, added, hs _ _ hop]
    refine ⟨fun j => ?_, fun j => ?_, ?_, a4⟩
    · rw [a1, hm]
      simp only [List.map_cons, List.mem_cons]
      tauto
    · have hb : c1.tree.containsId j = false ↔ ¬ (j = m.1 ∨ c.tree.containsId j = true) := by
        rw [← hm]; simp
      rw [List.map_append, List.mem_append, a2, hb, hlist]
      cases hin : c.tree.containsId m.1 with
      | true =>
        simp only [↓reduceIte, List.not_mem_nil, false_or, List.map_cons, List.mem_cons]
        constructor
        · rintro ⟨x, y⟩
          exact ⟨.inr x, by cases hj : c.tree.containsId j <;> simp_all⟩
        · rintro ⟨x, y⟩
          have : j ≠ m.1 := by rintro rfl; rw [hin] at y; cases y
          exact ⟨x.resolve_left this, by simp [this, y]⟩
      | false =>
        simp only [Bool.false_eq_true, ↓reduceIte, Option.some.injEq, List.map_cons, List.mem_cons, List.not_mem_nil, or_false]
        constructor
        · rintro (rfl | ⟨x, y⟩)
          · exact ⟨.inl rfl, hin⟩
          · exact ⟨.inr x, by cases hj : c.tree.containsId j <;> simp_all⟩
        · rintro ⟨x, y⟩
          by_cases hj : j = m.1
          · exact .inl hj
          · exact .inr ⟨x.resolve_left hj, by simp [hj, y]⟩
    · rw [List.map_append, hlist]
      split
      · simpa using a3
      · rename_i hin
        rw [List.singleton_append, List.nodup_cons]
        refine ⟨fun hx => ?_, a3⟩
        have := ((a2 _).1 hx).2
        rw [(hm _).2 (.inl rfl)] at this
        cases this

/-- C129, what is recorded and handed back: whatever was received before, the group has afterwards the operations it had and the ones
handed back, which are additions of individuals named, with the key named, were not there before, and come each directly after the one before,
the first after everything the group had. -/
theorem C129_recorded {H : SOp → Nat} (hH : Function.Injective H) {sign : Payload → Res SOp} (hs : HonestSigner sign) {c c' : Cgka}
    (hr : Reach H c) {ms : List (MemberId × Pk)} {ops : List SOp} (h : c.addMultiple H sign ms = (c', .ok ops)) :
    (∀ x op, AMap.get c'.graph.ops x = some op ↔ AMap.get c.graph.ops x = some op ∨ op ∈ ops ∧ x = H op) ∧
    (∀ op ∈ ops, AMap.get c.graph.ops (H op) = none ∧ ∃ m ∈ ms, ∃ i ps as, op.payload = .add m.1 m.2 i ps as) ∧
    OneAfterAnother H ops ∧ (∀ op ∈ ops.head?, ∀ x, x ∈ op.payload.preds ↔ x ∈ c.graph.heads) ∧ Reach H c' := by
  induction ms generalizing c ops with
  | nil => cases h; exact ⟨by simp, by simp, by simp [OneAfterAnother], by simp, hr⟩
  | cons m ms ih =>
    obtain ⟨c1, o, os, h1, h2, rfl⟩ := addMultiple_cons h
    have hr1 : Reach H c1 := by
      have := Reach.call (c := c) (cmd := .add sign m.1 m.2) hr hs
      have he : step H c (.add sign m.1 m.2) = (c.add H sign m.1 m.2).1 := rfl
      rw [he, h1] at this
      exact this
    obtain ⟨a1, a2, a3, a4, a5⟩ := ih hr1 h2
    rcases add_records h1 with ⟨rfl, rfl, -⟩ | ⟨op, i, rfl, hg, hop, -⟩
    · refine ⟨a1, fun op hop => ?_, a3, a4, a5⟩
      obtain ⟨x, m', hm', y⟩ := a2 op hop
      exact ⟨x, m', List.mem_cons_of_mem _ hm', y⟩
    · have hpay := hs _ _ hop
      have hp : ∀ x, x ∈ op.payload.preds ↔ x ∈ c.graph.heads := by
        intro x
        rw [hpay]
        simp [Payload.preds, mem_sextend]
      have hfresh : AMap.get c.graph.ops (H op) = none := (reach_inv hH hr).1.localFresh hH hp
      have hget : ∀ x, AMap.get c1.graph.ops x = if x = H op then some op else AMap.get c.graph.ops x := by
        intro x
        rw [hg]
        show AMap.get (AMap.insert c.graph.ops (H op) op) x = _
        rw [AMap.get_insert]
      have hh1 : c1.graph.heads = [H op] := by rw [hg]; rfl
      refine ⟨fun x p => ?_, fun p hpm => ?_, ?_, ?_, a5⟩
      · rw [a1, hget]
        simp only [Option.toList_some, List.singleton_append, List.mem_cons]
        split
        · rename_i hx
          subst hx
          rw [hfresh]
          constructor
          · rintro (h | ⟨h, e⟩)
            · cases h; exact .inr ⟨.inl rfl, rfl⟩
            · exact .inr ⟨.inr h, e⟩
          · rintro (h | ⟨h | h, e⟩)
            · cases h
            · exact .inl (by rw [h])
            · exact .inr ⟨h, e⟩
        · rename_i hx
          constructor
          · rintro (h | ⟨h, e⟩)
            · exact .inl h
            · exact .inr ⟨.inr h, e⟩
          · rintro (h | ⟨h | h, e⟩)
            · exact .inl h
            · exact absurd (by rw [e, h]) hx
            · exact .inr ⟨h, e⟩
      · simp only [Option.toList_some, List.singleton_append, List.mem_cons] at hpm
        rcases hpm with rfl | hpm
        · exact ⟨hfresh, m, List.mem_cons_self, i, _, _, hpay⟩
        · obtain ⟨x, m', hm', y⟩ := a2 p hpm
          refine ⟨?_, m', List.mem_cons_of_mem _ hm', y⟩
          rw [hget] at x
          split at x
          · cases x
          · exact x
      · unfold OneAfterAnother at *
        cases os with
        | nil => simp
        | cons b os =>
          simp only [Option.toList_some, List.singleton_append, List.isChain_cons_cons]
          exact ⟨fun x => by rw [a4 b (by simp), hh1, List.mem_singleton], a3⟩
      · intro p hpm
        cases hpm
        exact hp

/-- C129, a call that fails: it stops at an individual that could not be added; what is on record are the operations that were there and
the additions made before that. Missing: that these are handed back, or withdrawn (`C129_fails`). -/
theorem C129_failed_partial {H : SOp → Nat} (hH : Function.Injective H) {sign : Payload → Res SOp} (hs : HonestSigner sign) {c c' : Cgka}
    (hr : Reach H c) {ms : List (MemberId × Pk)} {e : CgkaError} (h : c.addMultiple H sign ms = (c', .error e)) :
    ∃ before m after c1 ops, ms = before ++ m :: after ∧ c.addMultiple H sign before = (c1, .ok ops) ∧
      (c1.add H sign m.1 m.2).2 = .error e ∧ c'.graph = c1.graph ∧
      ∀ x op, AMap.get c'.graph.ops x = some op ↔ AMap.get c.graph.ops x = some op ∨ op ∈ ops ∧ x = H op := by
  have key : ∃ before m after c1 ops, ms = before ++ m :: after ∧ c.addMultiple H sign before = (c1, .ok ops) ∧
      c1.add H sign m.1 m.2 = (c', .error e) := by
    clear hr
    induction ms generalizing c with
    | nil => cases h
    | cons m ms ih =>
      unfold Cgka.addMultiple at h
      split at h
      · rename_i c1 e' h1
        cases h
        exact ⟨[], m, ms, c, [], rfl, rfl, h1⟩
      · rename_i c1 o h1
        split at h
        · rename_i c2 e' h2
          cases h
          obtain ⟨b, m', a, c3, ops, rfl, h3, h4⟩ := ih h2
          refine ⟨m :: b, m', a, c3, o.toList ++ ops, rfl, ?_, h4⟩
          unfold Cgka.addMultiple
          rw [h1]
          dsimp only
          rw [h3]
        · cases h
  obtain ⟨b, m, a, c1, ops, h1, h2, h3⟩ := key
  obtain ⟨r1, -, -, -, hr1⟩ := C129_recorded hH hs hr h2
  have hg : c'.graph = c1.graph := (Props.C61_failed_call_keeps_operations_partial hH hr1 |>.1 sign m.1 m.2 h3).1
  exact ⟨b, m, a, c1, ops, h1, h2, by rw [h3], hg, by rw [hg]; exact r1⟩

open Sample

/-- A signer that gives its signatures numbers, and does not sign that individual 5 is added. -/
def someSigned : Payload → Res SOp
  | .add 2 pk i ps as => .ok ⟨.add 2 pk i ps as, 0, 1⟩
  | .add 3 pk i ps as => .ok ⟨.add 3 pk i ps as, 0, 2⟩
  | .add 5 _ _ _ _ => .error .conversion
  | p => .ok ⟨p, 0, 6⟩

theorem someSigned_honest : HonestSigner someSigned := by
  intro p o h
  unfold someSigned at h
  split at h <;> cases h <;> rfl

theorem alice0_reach : Reach H alice0 := .owner 1 [(⟨11⟩, 11)] (.new ⟨0, [], rfl⟩ start_new)

-- Alice adds Bob and Carol in one call, and Bob a second time.
example : Reach H alice0 ∧ Current alice0 ∧ (alice0.addMultiple H someSigned [(2, ⟨22⟩), (3, ⟨33⟩), (2, ⟨23⟩)]).2 = .ok [o1, o2] :=
  ⟨alice0_reach, by decide +kernel, by decide +kernel⟩

-- The second individual cannot be added.
example : (alice0.addMultiple H someSigned [(2, ⟨22⟩), (5, ⟨55⟩), (3, ⟨33⟩)]).2 = .error .conversion := by decide +kernel

/-- C129 fails. (1) The call fails because the second addition could not be signed; the first is on record, which nobody else ever learns from
this call. (2) A removal of Carol is waiting to be replayed. Adding Carol and Dave succeeds, but only Dave is a member afterwards. -/
theorem C129_fails :
    (∃ H sign c c' e op, Function.Injective H ∧ HonestSigner sign ∧ Reach H c ∧ Current c ∧
      c.addMultiple H sign [(2, ⟨22⟩), (5, ⟨55⟩)] = (c', .error e) ∧ AMap.get c.graph.ops (H op) = none ∧
      AMap.get c'.graph.ops (H op) = some op) ∧
    ∃ H sign c c' ops, Function.Injective H ∧ HonestSigner sign ∧ Reach H c ∧
      c.addMultiple H sign [(3, ⟨34⟩), (4, ⟨44⟩)] = (c', .ok ops) ∧ c'.tree.containsId 4 = true ∧ c'.tree.containsId 3 = false := by
  refine ⟨⟨H, someSigned, alice0, (alice0.addMultiple H someSigned [(2, ⟨22⟩), (5, ⟨55⟩)]).1, .conversion, o1, H_inj, someSigned_honest,
    alice0_reach, by decide +kernel, Prod.ext rfl (by decide +kernel), by decide +kernel, by decide +kernel⟩, ?_⟩
  obtain ⟨ops, h⟩ := ok_of (r := ((step H alice7 (.receive o4)).addMultiple H someSigned [(3, ⟨34⟩), (4, ⟨44⟩)]).2) (by decide +kernel)
  exact ⟨H, someSigned, step H alice7 (.receive o4), _, ops, H_inj, someSigned_honest, .call (Props.reachOk_reach alice7_ok) trivial,
    Prod.ext rfl h, by decide +kernel, by decide +kernel⟩

end Verif.Cgka.ManyProps
