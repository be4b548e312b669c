import Verif.Keyhive.Bytes
import Verif.Keyhive.FadeLemmas
import Verif.Keyhive.LocalLemmas
import Verif.Keyhive.Sample

/-! # Ingesting serialised events -/

namespace Verif.Keyhive

variable {B : Type}

theorem decodeAll_spec (C : Codec B) (bs : List B) :
    (C.decodeAll bs = none ↔ ∃ b ∈ bs, C.decode b = none) ∧
    ∀ es, C.decodeAll bs = some es → es.map Prod.snd = bs ∧ (∀ p ∈ es, C.decode p.2 = some p.1) := by
  induction bs with
  | nil => simp [Codec.decodeAll]
  | cons b bs ih =>
    cases hb : C.decode b with
    | none => simp [Codec.decodeAll, hb]
    | some e =>
      cases hr : C.decodeAll bs with
      | none =>
        refine ⟨?_, fun es h => by simp [Codec.decodeAll, hb, hr] at h⟩
        simp only [Codec.decodeAll, hb, hr, true_iff]
        obtain ⟨b', h1, h2⟩ := ih.1.1 hr
        exact ⟨b', List.mem_cons_of_mem _ h1, h2⟩
      | some es =>
        simp only [Codec.decodeAll, hb, hr]
        obtain ⟨h1, h2⟩ := ih.2 es hr
        refine ⟨⟨fun h => (by cases h), fun ⟨b', h3, h4⟩ => ?_⟩, fun es' h => ?_⟩
        · rcases List.mem_cons.1 h3 with rfl | h3
          · rw [hb] at h4; cases h4
          · rw [ih.1.2 ⟨b', h3, h4⟩] at hr; cases hr
        · cases h
          refine ⟨by simp [h1], fun p hp => ?_⟩
          rcases List.mem_cons.1 hp with rfl | hp
          · exact hb
          · exact h2 p hp

theorem bytesTable_spec (E : Env) (es : List (Event × B)) (n : Nat) :
    (AMap.get (bytesTable E es) n = none ↔ ∀ p ∈ es, E.hashEvent p.1 ≠ n) ∧
    ∀ b, AMap.get (bytesTable E es) n = some b → ∃ p ∈ es, E.hashEvent p.1 = n ∧ p.2 = b := by
  have key : ∀ (es : List (Event × B)) (m : AMap Nat B),
      (AMap.get (es.foldl (fun m p => AMap.insert m (E.hashEvent p.1) p.2) m) n = none ↔
        AMap.get m n = none ∧ ∀ p ∈ es, E.hashEvent p.1 ≠ n) ∧
      ∀ b, AMap.get (es.foldl (fun m p => AMap.insert m (E.hashEvent p.1) p.2) m) n = some b →
        AMap.get m n = some b ∨ ∃ p ∈ es, E.hashEvent p.1 = n ∧ p.2 = b := by
    intro es
    induction es with
    | nil => intro m; simp
    | cons q es ih =>
      intro m
      obtain ⟨h1, h2⟩ := ih (AMap.insert m (E.hashEvent q.1) q.2)
      rw [List.foldl_cons]
      rw [AMap.get_insert] at h1 h2
      refine ⟨h1.trans ?_, fun b hb => ?_⟩
      · by_cases hq : n = E.hashEvent q.1
        · simp [hq]
        · simp [hq, Ne.symm hq]
      · rcases h2 b hb with h3 | ⟨p, h3, h4⟩
        · split at h3
          · rename_i hq
            cases h3
            exact .inr ⟨q, List.mem_cons_self .., hq.symm, rfl⟩
          · exact .inl h3
        · exact .inr ⟨p, List.mem_cons_of_mem _ h3, h4⟩
  obtain ⟨h1, h2⟩ := key es []
  exact ⟨by simpa [bytesTable] using h1, fun b hb => (h2 b hb).resolve_left (by simp)⟩

/-- The byte strings decode to these events, in this order. -/
def Codec.Reads (C : Codec B) (bs : List B) (es : List Event) : Prop := bs.map C.decode = es.map some

theorem reads_decodeAll {C : Codec B} {bs : List B} {es : List Event} (h : C.Reads bs es) :
    ∃ ps, C.decodeAll bs = some ps ∧ ps.map Prod.fst = es ∧ ps.map Prod.snd = bs ∧ ∀ p ∈ ps, C.decode p.2 = some p.1 := by
  cases hd : C.decodeAll bs with
  | none =>
    obtain ⟨b, h1, h2⟩ := (decodeAll_spec C bs).1.1 hd
    have : none ∈ es.map some := by
      rw [← h, ← h2]
      exact List.mem_map_of_mem h1
    simp at this
  | some ps =>
    obtain ⟨h1, h2⟩ := (decodeAll_spec C bs).2 ps hd
    refine ⟨ps, rfl, ?_, h1, h2⟩
    have h3 : bs.map C.decode = ps.map (fun p => some p.1) := by
      rw [← h1, List.map_map]
      exact List.map_congr_left h2
    have h4 : (ps.map Prod.fst).map some = es.map some := by
      rw [← h, h3, List.map_map]
      rfl
    exact (List.map_injective_iff.2 (Option.some_injective _)) h4

theorem later {E : Env} (hE : Function.Injective E.hashEvent) (C : Codec B) (bs bs' : List B) (b : B) (e : Event) (ps : List (Event × B))
    (hd : C.decodeAll (bs ++ b :: bs') = some ps) (hb : C.decode b = some e) (hn : ∀ b' ∈ bs', C.decode b' ≠ some e) :
    bytesOf E C (bytesTable E ps) e = b := by
  obtain ⟨h1, h2⟩ := (decodeAll_spec C _).2 ps hd
  obtain ⟨ps1, qs, rfl, e1, e2⟩ := List.map_eq_append_iff.1 h1
  obtain ⟨p, ps2, rfl, e3, e4⟩ := List.map_eq_cons_iff.1 e2
  have hp : p.1 = e := by
    have := h2 p (by simp)
    rw [e3, hb] at this
    exact (Option.some.inj this).symm
  have key : ∀ (l : List (Event × B)) (m : AMap Nat B), (∀ q ∈ l, q.1 ≠ e) →
      AMap.get (l.foldl (fun m p => AMap.insert m (E.hashEvent p.1) p.2) m) (E.hashEvent e) = AMap.get m (E.hashEvent e) := by
    intro l
    induction l with
    | nil => intro m _; rfl
    | cons q l ih =>
      intro m hl
      rw [List.foldl_cons, ih _ (fun q hq => hl q (List.mem_cons_of_mem _ hq)), AMap.get_insert,
        if_neg (fun he => hl q (List.mem_cons_self ..) (hE he).symm)]
  unfold bytesOf bytesTable
  rw [List.foldl_append, List.foldl_cons, key ps2 _ (fun q hq he => ?_), hp, AMap.get_insert_self, e3]
  · rfl
  · refine hn q.2 (by rw [← e4]; exact List.mem_map_of_mem hq) ?_
    rw [h2 q (by simp [hq]), he]

namespace BytesProps

/-! ## C105 -/

/-- C105: if one of the byte strings does not decode, the call throws and the device is unchanged, and only then is that reported. -/
theorem C105_undecodable (E : Env) (ord : List Event → List Event) (C : Codec B) (k : Keyhive) (bs : List B) :
    ((∃ b ∈ bs, C.decode b = none) → k.ingestBytes E ord C bs = (k, some .undecodable)) ∧
    ((k.ingestBytes E ord C bs).2 = some .undecodable → ∃ b ∈ bs, C.decode b = none) := by
  obtain ⟨h1, h2⟩ := decodeAll_spec C bs
  unfold Keyhive.ingestBytes
  refine ⟨fun h => by rw [h1.2 h], fun h => ?_⟩
  cases hd : C.decodeAll bs with
  | none => exact h1.1 hd
  | some es =>
    rw [hd] at h
    dsimp only at h
    split at h <;> simp at h

/-- C105: otherwise the device is as after ingesting the events that the byte strings decode to. -/
theorem C105_ingests (E : Env) (ord : List Event → List Event) (C : Codec B) (k : Keyhive) (bs : List B) (es : List Event)
    (h : C.Reads bs es) : (k.ingestBytes E ord C bs).1 = (k.ingest E ord es).1 ∧
    (∀ err, (k.ingestBytes E ord C bs).2 = some (.failed err) ↔ (k.ingest E ord es).2 = some (.error err)) ∧
    ((∃ l, (k.ingestBytes E ord C bs).2 = some (.pending l)) ↔ ∃ left, (k.ingest E ord es).2 = some (.ok left)) := by
  obtain ⟨ps, h1, h2, -, -⟩ := reads_decodeAll h
  unfold Keyhive.ingestBytes
  rw [h1]
  dsimp only
  rw [h2]
  split <;> rename_i hk <;> rw [hk] <;> simp

/-- C105: the byte strings handed back decode to the events that are still pending, one for each and in their order; each of them was
given to the call, or else is the encoding of an event that was pending before the call and was not given to it. -/
theorem C105_handed_back {E : Env} (hE : Function.Injective E.hashEvent) {ord : List Event → List Event} (hord : ∀ l, (ord l).Perm l)
    {C : Codec B} (hC : ∀ e, C.decode (C.encode e) = some e) {k : Keyhive} (hk : Reach E k) {bs l : List B}
    (h : (k.ingestBytes E ord C bs).2 = some (.pending l)) :
    C.Reads l (k.ingestBytes E ord C bs).1.pending ∧
    ∀ b ∈ l, b ∈ bs ∨ ∃ e ∈ k.pending, b = C.encode e ∧ ∀ b' ∈ bs, C.decode b' ≠ some e := by
  unfold Keyhive.ingestBytes at h ⊢
  cases hd : C.decodeAll bs with
  | none => rw [hd] at h; simp at h
  | some ps =>
    rw [hd] at h
    dsimp only at h ⊢
    obtain ⟨h1, h2⟩ := (decodeAll_spec C bs).2 ps hd
    cases hi : k.ingest E ord (ps.map Prod.fst) with
    | mk k' r =>
      rw [hi] at h
      cases r with
      | none => simp at h
      | some r =>
        cases r with
        | error e => simp at h
        | ok left =>
          simp only [Option.some.injEq, BytesEnd.pending.injEq] at h
          subst h
          dsimp only
          obtain ⟨g1, -, g3, -⟩ := ingest_every hE hord (reach_storeOk hk) hi
          have hone : ∀ e, C.decode (bytesOf E C (bytesTable E ps) e) = some e ∧
              ((∃ p ∈ ps, p.1 = e ∧ p.2 = bytesOf E C (bytesTable E ps) e) ∨
                bytesOf E C (bytesTable E ps) e = C.encode e ∧ ∀ p ∈ ps, p.1 ≠ e) := by
            intro e
            obtain ⟨t1, t2⟩ := bytesTable_spec E ps (E.hashEvent e)
            cases hg : AMap.get (bytesTable E ps) (E.hashEvent e) with
            | none =>
              have hb : bytesOf E C (bytesTable E ps) e = C.encode e := by simp [bytesOf, hg]
              rw [hb]
              exact ⟨hC e, .inr ⟨rfl, fun p hp he => t1.1 hg p hp (by rw [he])⟩⟩
            | some b =>
              have hb : bytesOf E C (bytesTable E ps) e = b := by simp [bytesOf, hg]
              rw [hb]
              obtain ⟨p, hp, he, hpb⟩ := t2 b hg
              have := hE he
              subst this
              exact ⟨hpb ▸ h2 p hp, .inl ⟨p, hp, rfl, hpb⟩⟩
          refine ⟨?_, fun b hb => ?_⟩
          · rw [g1]
            show (left.map _).map C.decode = left.map some
            rw [List.map_map]
            exact List.map_congr_left (fun e _ => (hone e).1)
          · obtain ⟨e, he, rfl⟩ := List.mem_map.1 hb
            rcases (hone e).2 with ⟨p, hp, -, hpb⟩ | ⟨hb', hno⟩
            · left
              rw [← h1, ← hpb]
              exact List.mem_map_of_mem hp
            · right
              refine ⟨e, ?_, hb', fun b' hb1 hdec => ?_⟩
              · rcases List.mem_append.1 (g3 e he) with h3 | h3
                · obtain ⟨p, hp, hpe⟩ := List.mem_map.1 h3
                  exact absurd hpe (hno p hp)
                · exact h3
              · rw [← h1] at hb1
                obtain ⟨p, hp, rfl⟩ := List.mem_map.1 hb1
                rw [h2 p hp] at hdec
                exact hno p hp (Option.some.inj hdec)

/-- C105: an event is handed back, if at all, with the bytes given for it: with the last ones, if it was given several times. -/
theorem C105_as_given {E : Env} (hE : Function.Injective E.hashEvent) {ord : List Event → List Event} (hord : ∀ l, (ord l).Perm l)
    {C : Codec B} (hC : ∀ e, C.decode (C.encode e) = some e) {k : Keyhive} (hk : Reach E k) {bs bs' l : List B} {b : B} {e : Event}
    (hb : C.decode b = some e) (hn : ∀ b' ∈ bs', C.decode b' ≠ some e)
    (h : (k.ingestBytes E ord C (bs ++ b :: bs')).2 = some (.pending l)) :
    (e ∈ (k.ingestBytes E ord C (bs ++ b :: bs')).1.pending ↔ b ∈ l) ∧ ∀ b' ∈ l, C.decode b' = some e → b' = b := by
  obtain ⟨hr, -⟩ := C105_handed_back hE hord hC hk h
  have hall : ∀ b' ∈ l, C.decode b' = some e → b' = b := by
    unfold Keyhive.ingestBytes at h
    cases hd : C.decodeAll (bs ++ b :: bs') with
    | none => rw [hd] at h; simp at h
    | some ps =>
      rw [hd] at h
      dsimp only at h
      have hlater := later hE C bs bs' b e ps hd hb hn
      obtain ⟨-, h2⟩ := (decodeAll_spec C _).2 ps hd
      split at h
      · simp at h
      · simp at h
      · simp only [Option.some.injEq, BytesEnd.pending.injEq] at h
        subst h
        intro b' hb' hdec
        obtain ⟨e', -, rfl⟩ := List.mem_map.1 hb'
        have : e' = e := by
          have hde : C.decode (bytesOf E C (bytesTable E ps) e') = some e' := by
            obtain ⟨t1, t2⟩ := bytesTable_spec E ps (E.hashEvent e')
            cases hg : AMap.get (bytesTable E ps) (E.hashEvent e') with
            | none => simp [bytesOf, hg, hC]
            | some b0 =>
              obtain ⟨p, hp, he, hpb⟩ := t2 b0 hg
              simp only [bytesOf, hg, Option.getD_some]
              rw [← hpb, h2 p hp, hE he]
          rw [hde] at hdec
          exact Option.some.inj hdec
        rw [this, hlater]
  refine ⟨⟨fun he => ?_, fun hbl => ?_⟩, hall⟩
  · have : some e ∈ l.map C.decode := by
      rw [hr]
      exact List.mem_map_of_mem he
    obtain ⟨b', h1, h2⟩ := List.mem_map.1 this
    rw [← hall b' h1 h2]
    exact h1
  · have : some e ∈ (k.ingestBytes E ord C (bs ++ b :: bs')).1.pending.map some := by
      rw [← hr, ← hb]
      exact List.mem_map_of_mem hbl
    simpa using this

open Sample

/-- Byte strings are lists of events: the first is the event that is meant, the others are further bytes at the end. -/
def codec : Codec (List Event) := ⟨List.head?, fun e => [e]⟩

/-- A batch out of order, one event with further bytes at the end: the event whose proof is missing comes back as it was given, and is
pending; a batch with a byte string that does not decode changes nothing. -/
example : (∀ e, codec.decode (codec.encode e) = some e) ∧
    (k0.ingestBytes Sample.E List.reverse codec [[.dlg gCarol, .rev rBob], [.rev rBob], [.dlg kBob], [.dlg kAlice]]).2 =
      some (.pending [[.dlg gCarol, .rev rBob]]) ∧
    (k0.ingestBytes Sample.E List.reverse codec [[.dlg gCarol, .rev rBob], [.rev rBob], [.dlg kBob], [.dlg kAlice]]).1.pending =
      [.dlg gCarol] ∧
    (k0.ingestBytes Sample.E List.reverse codec [[.dlg kBob], [], [.dlg kAlice]]).2 = some .undecodable :=
  ⟨fun _ => rfl, by decide +kernel, by decide +kernel, by decide +kernel⟩

/-- One event given in two encodings: the later one comes back. -/
example : (k0.ingestBytes Sample.E List.reverse codec [[.dlg gCarol, .rev rBob], [.dlg gCarol, .dlg kBob]]).2 =
    some (.pending [[.dlg gCarol, .dlg kBob]]) := by decide +kernel

end BytesProps

end Verif.Keyhive
