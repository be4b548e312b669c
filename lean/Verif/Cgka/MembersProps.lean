import Verif.Cgka.Props

/-!
# Property theorems: adding and removing act on everything received so far (C74)
-/

namespace Verif.BeeKem.BeeKem

theorem blankPathLoop_ids : ∀ (n : Nat) {t t' : BeeKem} {i : Nat}, blankPathLoop n t i = .ok t' → t'.idToLeafIdx = t.idToLeafIdx := by
  intro n
  induction n with
  | zero => intro t t' i h; cases h
  | succ n ih =>
    intro t t' i h
    unfold blankPathLoop at h
    split at h
    · unfold blankInnerNode at h
      split at h
      · cases h; rfl
      · cases h
    · unfold blankInnerNode at h
      split at h
      · simp only [bind, Except.bind] at h
        have := ih h
        exact this
      · cases h

theorem pushLeaf_ids {t t' : BeeKem} {id : MemberId} {pk : NodeKey} {i : Nat} (h : t.pushLeaf id pk = .ok (t', i)) :
    t'.idToLeafIdx = AMap.insert t.idToLeafIdx id i := by
  have hg : (t.maybeGrowTree t.nextLeafIdx).idToLeafIdx = t.idToLeafIdx := by
    unfold maybeGrowTree
    split <;> rfl
  unfold pushLeaf insertLeafAt at h
  simp only [bind, Except.bind] at h
  split at h
  · cases h
  · rename_i t3 h3
    split at h3
    · cases h3
      split at h
      · cases h
      · rename_i t5 h5
        cases h
        rw [blankPathLoop_ids _ h5]
        simp only [hg]
    · cases h3

theorem dropTombstones_ids : ∀ (n : Nat) {t t' : BeeKem}, dropTombstones n t = .ok t' → t'.idToLeafIdx = t.idToLeafIdx := by
  intro n
  induction n with
  | zero => intro t t' h; cases h
  | succ n ih =>
    intro t t' h
    unfold dropTombstones at h
    split at h
    · cases h
    · simp only [bind, Except.bind] at h
      split at h
      · cases h
      · split at h
        · cases h; rfl
        · split at h
          · cases h
          · rename_i t1 h1
            rw [ih h]
            have := blankPathLoop_ids _ h1
            exact this

theorem removeId_ids {t t' : BeeKem} {id : MemberId} {x : Nat × List Pk} (h : t.removeId id = .ok (t', x)) :
    t'.idToLeafIdx = AMap.erase t.idToLeafIdx id := by
  unfold removeId at h
  split at h
  · cases h
  · simp only [bind, Except.bind] at h
    split at h
    · cases h
    · split at h
      · cases h
      · split at h
        · cases h
        · split at h
          · cases h
          · rename_i t1 h1
            split at h
            · cases h
            · rename_i t3 h3
              cases h
              rw [dropTombstones_ids _ h3]
              unfold blankLeafAndPath blankLeaf at h1
              simp only [bind, Except.bind] at h1
              split at h1
              · cases h1
              · rename_i t0 h0
                split at h0
                · cases h0
                  simp only
                  rw [blankPathLoop_ids _ h1]
                · cases h0

theorem contains_insert {t t' : BeeKem} {id : MemberId} {i : Nat} (h : t'.idToLeafIdx = AMap.insert t.idToLeafIdx id i) (j : MemberId) :
    t'.containsId j = true ↔ j = id ∨ t.containsId j = true := by
  unfold containsId
  rw [AMap.contains_iff, AMap.contains_iff, AMap.mem_keys_iff, AMap.mem_keys_iff, h, AMap.get_insert]
  by_cases hj : j = id <;> simp [hj]

theorem contains_erase {t t' : BeeKem} {id : MemberId} (h : t'.idToLeafIdx = AMap.erase t.idToLeafIdx id) (j : MemberId) :
    t'.containsId j = true ↔ j ≠ id ∧ t.containsId j = true := by
  unfold containsId
  rw [AMap.contains_iff, AMap.contains_iff, AMap.mem_keys_iff, AMap.mem_keys_iff, h, AMap.get_erase]
  by_cases hj : j = id <;> simp [hj]

end Verif.BeeKem.BeeKem

namespace Verif.Cgka

open Verif.BeeKem

/-- Nothing received is waiting to be replayed. -/
def Current (c : Cgka) : Prop := c.pending = false ∧ ∃ h, c.graph.heads = [h]

instance (c : Cgka) : Decidable (Current c) :=
  decidable_of_iff (c.pending = false ∧ c.graph.heads.length = 1) (by
    unfold Current
    rw [List.length_eq_one_iff])

theorem Current.replay {c : Cgka} (h : Current c) (H : SOp → Nat) : c.replayIfNeeded H = .ok c := by
  obtain ⟨h1, x, h2⟩ := h
  simp [Cgka.replayIfNeeded, Cgka.shouldReplay, Graph.hasSingleHead, h1, h2]

/-- What a successful `add` does, when the tree it looks at is the one after replay. -/
theorem add_ok {H : SOp → Nat} {sign : Payload → Res SOp} {c c' c0 : Cgka} {id : MemberId} {pk : Pk} {o : Option SOp}
    (h0 : c.replayIfNeeded H = .ok c0) (hsame : c0.tree.containsId id = c.tree.containsId id)
    (h : c.add H sign id pk = (c', .ok o)) :
    (c' = c ∧ c0.tree.containsId id = true) ∨
    (c'.pending = c0.pending ∧ (∃ x, c'.graph.heads = [x]) ∧
      ∀ j, c'.tree.containsId j = true ↔ j = id ∨ c0.tree.containsId j = true) := by
  unfold Cgka.add at h
  split at h
  · rename_i hc
    cases h
    exact .inl ⟨rfl, by rw [hsame]; exact hc⟩
  · rw [h0] at h
    simp only at h
    split at h
    · cases h
    · rename_i tree i hp
      split at h
      · cases h
      · cases h
        exact .inr ⟨rfl, ⟨_, rfl⟩, BeeKem.contains_insert (BeeKem.pushLeaf_ids hp)⟩

/-- What a successful `remove` does, when the tree it looks at is the one after replay. -/
theorem remove_ok {H : SOp → Nat} {sign : Payload → Res SOp} {c c' c0 : Cgka} {id : MemberId} {o : Option SOp}
    (h0 : c.replayIfNeeded H = .ok c0) (hsame : c0.tree.containsId id = c.tree.containsId id)
    (h : c.remove H sign id = (c', .ok o)) :
    (c' = c ∧ c0.tree.containsId id = false) ∨
    (c'.pending = c0.pending ∧ (∃ x, c'.graph.heads = [x]) ∧
      ∀ j, c'.tree.containsId j = true ↔ j ≠ id ∧ c0.tree.containsId j = true) := by
  unfold Cgka.remove at h
  split at h
  · rename_i hc
    cases h
    exact .inl ⟨rfl, by rw [hsame]; simpa using hc⟩
  · rw [h0] at h
    simp only at h
    split at h
    · cases h
    · split at h
      · cases h
      · rename_i tree i ks hp
        split at h
        · cases h
        · cases h
          exact .inr ⟨rfl, ⟨_, rfl⟩, BeeKem.contains_erase (BeeKem.removeId_ids hp)⟩

theorem Current.add {H : SOp → Nat} {sign : Payload → Res SOp} {c c' : Cgka} {id : MemberId} {pk : Pk} {o : Option SOp}
    (hc : Current c) (h : c.add H sign id pk = (c', .ok o)) :
    Current c' ∧ ∀ j, c'.tree.containsId j = true ↔ j = id ∨ c.tree.containsId j = true := by
  rcases add_ok (hc.replay H) rfl h with ⟨rfl, h1⟩ | ⟨h1, h2, h3⟩
  · refine ⟨hc, fun j => ⟨.inr, ?_⟩⟩
    rintro (rfl | hj)
    · exact h1
    · exact hj
  · exact ⟨⟨h1.trans hc.1, h2⟩, h3⟩

theorem Current.remove {H : SOp → Nat} {sign : Payload → Res SOp} {c c' : Cgka} {id : MemberId} {o : Option SOp}
    (hc : Current c) (h : c.remove H sign id = (c', .ok o)) :
    Current c' ∧ ∀ j, c'.tree.containsId j = true ↔ j ≠ id ∧ c.tree.containsId j = true := by
  rcases remove_ok (hc.replay H) rfl h with ⟨rfl, h1⟩ | ⟨h1, h2, h3⟩
  · refine ⟨hc, fun j => ⟨fun hj => ⟨?_, hj⟩, fun h => h.2⟩⟩
    rintro rfl
    rw [h1] at hj
    cases hj
  · exact ⟨⟨h1.trans hc.1, h2⟩, h3⟩

end Verif.Cgka

namespace Verif.Cgka.MembersProps

open Verif.BeeKem Verif.Cgka

/-- C74 when nothing received is waiting to be replayed: after adding an individual the group consists of the previous members and
that individual. Missing: groups with operations waiting (`C74_fails_for_add`). -/
theorem C74_add_partial {H : SOp → Nat} {sign : Payload → Res SOp} {c c' : Cgka} {id : MemberId} {pk : Pk} {o : Option SOp}
    (hc : Current c) (h : c.add H sign id pk = (c', .ok o)) :
    c'.replayIfNeeded H = .ok c' ∧ ∀ j, c'.tree.containsId j = true ↔ j = id ∨ c.tree.containsId j = true :=
  ⟨(hc.add h).1.replay H, (hc.add h).2⟩

/-- C74 when nothing received is waiting to be replayed: after removing an individual the group consists of the other members.
Missing: groups with operations waiting (`C74_fails_for_remove`). -/
theorem C74_remove_partial {H : SOp → Nat} {sign : Payload → Res SOp} {c c' : Cgka} {id : MemberId} {o : Option SOp}
    (hc : Current c) (h : c.remove H sign id = (c', .ok o)) :
    c'.replayIfNeeded H = .ok c' ∧ ∀ j, c'.tree.containsId j = true ↔ j ≠ id ∧ c.tree.containsId j = true :=
  ⟨(hc.remove h).1.replay H, (hc.remove h).2⟩

open Sample in
example : Current alice3 ∧ (∃ c' o, alice3.remove H (sign 4) 3 = (c', .ok o)) ∧ ∃ c' o, alice3.add H (sign 6) 4 ⟨44⟩ = (c', .ok o) := by
  refine ⟨by decide +kernel, ?_, ?_⟩
  · obtain ⟨o, h⟩ := ok_of (r := (alice3.remove H (sign 4) 3).2) (by decide +kernel)
    exact ⟨_, o, by rw [← h]⟩
  · obtain ⟨o, h⟩ := ok_of (r := (alice3.add H (sign 6) 4 ⟨44⟩).2) (by decide +kernel)
    exact ⟨_, o, by rw [← h]⟩

/-- C74 fails for removing: an operation adding 4 has arrived and waits to be replayed. Removing 4 succeeds and does nothing; after
the replay, which every later call makes, 4 is a member. -/
theorem C74_fails_for_remove : ∃ H c c' c1, ReachOk H c ∧ Function.Injective H ∧
    (∃ op ∈ AMap.values c.graph.ops, ∃ pk i ps as, op.payload = .add 4 pk i ps as) ∧
    c.remove H (Sample.sign 9) 4 = (c', .ok none) ∧ c'.replayIfNeeded H = .ok c1 ∧ c1.tree.containsId 4 = true := by
  have h : (match (Sample.aliceMerged.remove Sample.H (Sample.sign 9) 4).2,
      (Sample.aliceMerged.remove Sample.H (Sample.sign 9) 4).1.replayIfNeeded Sample.H with
    | .ok none, .ok c1 => c1.tree.containsId 4
    | _, _ => false) = true := by decide +kernel
  split at h
  · rename_i h1 h2
    refine ⟨Sample.H, Sample.aliceMerged, _, _, Sample.aliceMerged_ok, Sample.H_inj, ⟨Sample.o6, by decide +kernel, ⟨44⟩, 3, [3], [2], rfl⟩,
      by rw [← h1], h2, h⟩
  · cases h

/-- C74 fails for adding: an operation removing 3 has arrived and waits to be replayed. Adding 3 again succeeds and does nothing;
after the replay 3 is not a member. -/
theorem C74_fails_for_add : ∃ H c c' c1, ReachOk H c ∧ Function.Injective H ∧
    (∃ op ∈ AMap.values c.graph.ops, ∃ i ks ps, op.payload = .remove 3 i ks ps) ∧
    c.add H (Sample.sign 9) 3 ⟨34⟩ = (c', .ok none) ∧ c'.replayIfNeeded H = .ok c1 ∧ c1.tree.containsId 3 = false := by
  have h : (match ((step Sample.H Sample.alice7 (.receive Sample.o4)).add Sample.H (Sample.sign 9) 3 ⟨34⟩).2,
      ((step Sample.H Sample.alice7 (.receive Sample.o4)).add Sample.H (Sample.sign 9) 3 ⟨34⟩).1.replayIfNeeded Sample.H with
    | .ok none, .ok c1 => !c1.tree.containsId 3
    | _, _ => false) = true := by decide +kernel
  split at h
  · rename_i h1 h2
    refine ⟨Sample.H, step Sample.H Sample.alice7 (.receive Sample.o4), _, _, .call Sample.alice7_ok trivial, Sample.H_inj,
      ⟨Sample.o4, by decide +kernel, 2, [⟨1001⟩], [3], rfl⟩, by rw [← h1], h2, by simpa using h⟩
  · cases h

end Verif.Cgka.MembersProps
