import Verif.Keyhive.Overlap
import Verif.Keyhive.Sample

/-! # C139: ingestions that run at the same time -/

namespace Verif.Keyhive

open Verif.Group

variable {E : Env} {ord : List Event → List Event}

/-! ## Specification -/

/-- Somewhere in the schedule a call was given a turn, received this event, and got this outcome. -/
def Tried (E : Env) (ord : List Event → List Event) (s : Busy) (moves : List Move) (e : Event) (out : Except Err Unit) : Prop :=
  ∃ l i m p es, moves = l ++ .turn i :: m ∧ (Busy.run E ord s l).2[i]? = some p ∧ p.result = none ∧ p.left = e :: es ∧
    ((Busy.run E ord s l).1.receive E e).2 = out

/-! ## Lemmas -/

namespace Busy

theorem run_append (s : Busy) (l m : List Move) : run E ord s (l ++ m) = run E ord (run E ord s l) m := by
  simp [run, List.foldl_append]

theorem run_concat (s : Busy) (l : List Move) (a : Move) : run E ord s (l ++ [a]) = move E ord (run E ord s l) a := by
  simp [run, List.foldl_append]

/-- A call that is alone, given one turn. -/
theorem move_alone (k : Keyhive) (p : Ingestion) : move E ord (k, [p]) (.turn 0) = ((p.step E k).1, [(p.step E k).2]) := rfl

end Busy

theorem Tried.more {s : Busy} {moves : List Move} {e : Event} {out : Except Err Unit} (h : Tried E ord s moves e out) (a : Move) :
    Tried E ord s (moves ++ [a]) e out := by
  obtain ⟨l, i, m, p, es, h1, h2⟩ := h
  exact ⟨l, i, m ++ [a], p, es, by rw [h1]; simp, h2⟩

/-- Turns of a call that is alone. -/
def Alone (E : Env) (ord : List Event → List Event) (s t : Busy) : Prop := ∃ n, Busy.run E ord s (List.replicate n (.turn 0)) = t

theorem Alone.trans {s t u : Busy} (h : Alone E ord s t) (h' : Alone E ord t u) : Alone E ord s u := by
  obtain ⟨n, rfl⟩ := h
  obtain ⟨m, rfl⟩ := h'
  exact ⟨n + m, by rw [List.replicate_add, Busy.run_append]⟩

theorem Alone.one (k : Keyhive) (p : Ingestion) : Alone E ord (k, [p]) ((p.step E k).1, [(p.step E k).2]) := ⟨1, rfl⟩

theorem alone_pass {replayed : List Nat} {len : Nat} : ∀ (es : List Event) (k : Keyhive) (next : List Event),
    match Keyhive.pass E k es next with
    | (k', .error err) => ∃ p, Alone E ord (k, [⟨replayed, es, next, len, none⟩]) (k', [p]) ∧ p.result = some (.error err)
    | (k', .ok out) => Alone E ord (k, [⟨replayed, es, next, len, none⟩]) (k', [⟨replayed, [], out, len, none⟩]) := by
  intro es
  induction es with
  | nil => intro k next; exact ⟨0, rfl⟩
  | cons e es ih =>
    intro k next
    have one : Alone E ord (k, [⟨replayed, e :: es, next, len, none⟩]) _ := Alone.one k _
    simp only [Ingestion.step] at one
    simp only [Keyhive.pass]
    rcases hr : k.receive E e with ⟨k', _ | _⟩
    · rename_i err
      simp only [hr] at one ⊢
      by_cases hf : err.fatal = true
      · simp only [hf, if_true] at one ⊢
        exact ⟨_, one, rfl⟩
      · by_cases hp : err.isPrekey = true
        · simp only [hf, hp, if_true, Bool.false_eq_true, if_false] at one ⊢
          have := ih k' next
          split at this
          · obtain ⟨p, h1, h2⟩ := this
            exact ⟨p, one.trans h1, h2⟩
          · exact one.trans this
        · simp only [hf, hp, Bool.false_eq_true, if_false] at one ⊢
          have := ih k' (next ++ [e])
          split at this
          · obtain ⟨p, h1, h2⟩ := this
            exact ⟨p, one.trans h1, h2⟩
          · exact one.trans this
    · simp only [hr] at one ⊢
      have := ih k' next
      split at this
      · obtain ⟨p, h1, h2⟩ := this
        exact ⟨p, one.trans h1, h2⟩
      · exact one.trans this

theorem alone_rounds {replayed : List Nat} : ∀ (n : Nat) (k : Keyhive) (epoch : List Event),
    (Keyhive.rounds E replayed n k epoch).2 ≠ none →
    ∃ p, Alone E ord (k, [⟨replayed, epoch, [], epoch.length, none⟩]) ((Keyhive.rounds E replayed n k epoch).1, [p]) ∧
      p.result = (Keyhive.rounds E replayed n k epoch).2 := by
  intro n
  induction n with
  | zero => intro k epoch h; exact absurd rfl h
  | succ n ih =>
    intro k epoch h
    have hp := alone_pass (E := E) (ord := ord) (replayed := replayed) (len := epoch.length) epoch k []
    simp only [Keyhive.rounds] at h ⊢
    rcases hr : Keyhive.pass E k epoch [] with ⟨k', err | (_ | ⟨e, es⟩)⟩
    · simp only [hr] at hp h ⊢
      exact hp
    · simp only [hr] at hp h ⊢
      exact ⟨_, hp.trans (Alone.one _ _), rfl⟩
    · simp only [hr] at hp h ⊢
      have one : Alone E ord (k', [⟨replayed, [], e :: es, epoch.length, none⟩]) _ := Alone.one k' _
      simp only [Ingestion.step] at one
      by_cases hl : (e :: es).length = epoch.length
      · simp only [hl, if_true] at one ⊢
        exact ⟨_, hp.trans one, rfl⟩
      · simp only [hl, if_false] at one h ⊢
        obtain ⟨p, h1, h2⟩ := ih k' (e :: es) h
        exact ⟨p, (hp.trans one).trans h1, h2⟩

/-- What has become of an event a call started with. -/
def TakenUp (E : Env) (ord : List Event → List Event) (s : Busy) (moves : List Move) (p : Ingestion) (e : Event) : Prop :=
  Tried E ord s moves e (.ok ()) ∨ (∃ err, Tried E ord s moves e (.error (.prekey err))) ∨
    match p.result with
    | none => e ∈ p.left ∨ e ∈ p.next
    | some (.ok l) => e ∈ l
    | some (.error _) => True

theorem TakenUp.idle {s : Busy} {moves : List Move} {p : Ingestion} {e : Event} (h : TakenUp E ord s moves p e) (a : Move) :
    TakenUp E ord s (moves ++ [a]) p e := by
  rcases h with h | ⟨err, h⟩ | h
  · exact .inl (h.more a)
  · exact .inr (.inl ⟨err, h.more a⟩)
  · exact .inr (.inr h)

theorem prekey_of_isPrekey {err : Err} (h : err.isPrekey = true) : ∃ x, err = .prekey x := by
  cases err <;> simp [Err.isPrekey] at h
  exact ⟨_, rfl⟩

theorem TakenUp.turn {s : Busy} {moves : List Move} {i : Nat} {p : Ingestion} (hi : (Busy.run E ord s moves).2[i]? = some p) {e : Event}
    (h : TakenUp E ord s moves p e) :
    TakenUp E ord s (moves ++ [.turn i]) (p.step E (Busy.run E ord s moves).1).2 e := by
  rcases h with h | ⟨err, h⟩ | h
  · exact .inl (h.more _)
  · exact .inr (.inl ⟨err, h.more _⟩)
  · cases hr : p.result with
    | some r =>
      refine .inr (.inr ?_)
      have : (p.step E (Busy.run E ord s moves).1).2 = p := by simp only [Ingestion.step, hr]
      rw [this]
      exact h
    | none =>
      simp only [hr] at h
      cases hl : p.left with
      | nil =>
        rw [hl] at h
        have hn : e ∈ p.next := h.resolve_left (List.not_mem_nil)
        refine .inr (.inr ?_)
        simp only [Ingestion.step, hr, hl]
        cases hx : p.next with
        | nil => rw [hx] at hn; exact absurd hn List.not_mem_nil
        | cons y ys =>
          rw [hx] at hn
          by_cases hlen : (y :: ys).length = p.len
          · simp only [hlen, if_true]; exact hn
          · simp only [hlen, if_false, hr]; exact .inl hn
      | cons y ys =>
        have tried : Tried E ord s (moves ++ [.turn i]) y ((Busy.run E ord s moves).1.receive E y).2 :=
          ⟨moves, i, [], p, ys, rfl, hi, hr, hl, rfl⟩
        rw [hl] at h
        simp only [Ingestion.step, hr, hl]
        rcases hv : (Busy.run E ord s moves).1.receive E y with ⟨k', err | u⟩
        · rw [hv] at tried
          simp only
          by_cases hf : err.fatal = true
          · simp only [hf, if_true]
            exact .inr (.inr trivial)
          · by_cases hp : err.isPrekey = true
            · simp only [hf, hp, if_true, Bool.false_eq_true, if_false]
              rcases h with h | h
              · rcases List.mem_cons.1 h with rfl | h
                · obtain ⟨x, rfl⟩ := prekey_of_isPrekey hp
                  exact .inr (.inl ⟨x, tried⟩)
                · exact .inr (.inr (by simp only [hr]; exact .inl h))
              · exact .inr (.inr (by simp only [hr]; exact .inr h))
            · simp only [hf, hp, Bool.false_eq_true, if_false]
              refine .inr (.inr ?_)
              simp only [hr]
              rcases h with h | h
              · rcases List.mem_cons.1 h with rfl | h
                · exact .inr (by simp)
                · exact .inl h
              · exact .inr (List.mem_append_left _ h)
        · rw [hv] at tried
          simp only
          rcases h with h | h
          · rcases List.mem_cons.1 h with rfl | h
            · exact .inl tried
            · exact .inr (.inr (by simp only [hr]; exact .inl h))
          · exact .inr (.inr (by simp only [hr]; exact .inr h))

/-- Every event a call started with is kept track of, whatever the other calls do. -/
theorem takenUp (s : Busy) (l : List Move) (events : List Event) (O : List Event)
    (hO : ∀ e ∈ O, e ∈ ord (Keyhive.dedup E (events ++ (Busy.run E ord s l).1.pending))) : ∀ m : List Move,
    ∃ p, (Busy.run E ord s (l ++ .start events :: m)).2[(Busy.run E ord s l).2.length]? = some p ∧
      ∀ e ∈ O, TakenUp E ord s (l ++ .start events :: m) p e := by
  intro m
  induction m using List.reverseRecOn with
  | nil =>
    refine ⟨Ingestion.start E ord (Busy.run E ord s l).1 events, ?_, fun e he => .inr (.inr (.inl (hO e he)))⟩
    rw [Busy.run_concat]
    simp [Busy.move]
  | append_singleton m a ih =>
    obtain ⟨p, h1, h2⟩ := ih
    have hs : l ++ .start events :: (m ++ [a]) = (l ++ .start events :: m) ++ [a] := by simp
    rw [hs, Busy.run_concat]
    cases a with
    | start es =>
      refine ⟨p, ?_, fun e he => (h2 e he).idle _⟩
      simp only [Busy.move]
      rw [List.getElem?_append_left (List.getElem?_eq_some_iff.1 h1).1]
      exact h1
    | turn i =>
      by_cases hi : i = (Busy.run E ord s l).2.length
      · subst hi
        refine ⟨(p.step E (Busy.run E ord s (l ++ .start events :: m)).1).2, ?_, fun e he => TakenUp.turn h1 (h2 e he)⟩
        simp only [Busy.move, h1]
        rw [List.getElem?_set_self (List.getElem?_eq_some_iff.1 h1).1]
      · refine ⟨p, ?_, fun e he => (h2 e he).idle _⟩
        simp only [Busy.move]
        split
        · exact h1
        · simp only
          rw [List.getElem?_set_ne hi]
          exact h1

/-! ## C139 -/

namespace Props

/-- C139: a call that no other call interrupts does what ingestion does in the rest of the model: with enough turns it ends in the
same state with the same result. So C36 and all that follows from it hold for ingestions that run one after the other. -/
theorem C139_alone (k : Keyhive) (events : List Event) :
    ∃ n, (Busy.run E ord (k, []) (.start events :: List.replicate n (.turn 0))).1 = (k.ingest E ord events).1 ∧
      (Busy.run E ord (k, []) (.start events :: List.replicate n (.turn 0))).result 0 = (k.ingest E ord events).2 := by
  obtain ⟨p, ⟨n, h1⟩, h2⟩ := alone_rounds (E := E) (ord := ord) (replayed := k.pending.map E.hashEvent)
    ((ord (Keyhive.dedup E (events ++ k.pending))).length + 1) k (ord (Keyhive.dedup E (events ++ k.pending)))
    (rounds_ends (Nat.lt_succ_self _))
  have hs : Busy.run E ord (k, []) (.start events :: List.replicate n (.turn 0)) =
      Busy.run E ord (k, [Ingestion.start E ord k events]) (List.replicate n (.turn 0)) := rfl
  refine ⟨n, ?_, ?_⟩
  · rw [hs]; exact congrArg Prod.fst h1
  · rw [hs]
    have : Busy.run E ord (k, [Ingestion.start E ord k events]) (List.replicate n (.turn 0)) = _ := h1
    rw [this]
    exact h2

/-- C139: whatever other calls run at the same time and however they take turns, a call that returns accounts for every event it was
given and every event that was pending when it began: the device has accepted the event, or has dropped it as a refused prekey
event, or the call hands it back as pending.
Missing from the full property: that the device still has the events that were handed back (`C139_fails`). -/
theorem C139_handed_back_partial (hE : Function.Injective E.hashEvent) (hord : ∀ l, (ord l).Perm l) (s : Busy) (l m : List Move)
    (events left : List Event)
    (h : (Busy.run E ord s (l ++ .start events :: m)).result (Busy.run E ord s l).2.length = some (.ok left)) :
    ∀ e ∈ events ++ (Busy.run E ord s l).1.pending,
      Tried E ord s (l ++ .start events :: m) e (.ok ()) ∨ (∃ err, Tried E ord s (l ++ .start events :: m) e (.error (.prekey err))) ∨
        e ∈ left := by
  intro e he
  obtain ⟨p, h1, h2⟩ := takenUp (E := E) (ord := ord) s l events (events ++ (Busy.run E ord s l).1.pending)
    (fun e he => (hord _).mem_iff.2 ((dedup_mem hE _ e).2 he)) m
  have hr : p.result = some (.ok left) := by
    unfold Busy.result at h
    rw [h1] at h
    exact h
  have := h2 e he
  unfold TakenUp at this
  simp only [hr] at this
  exact this

/-- C139: at the moment a call returns with events handed back, these are the pending events of the device. -/
theorem C139_at_return (s : Busy) (i : Nat) (p : Ingestion) (hp : s.2[i]? = some p) (hr : p.result = none) (e : Event) (left : List Event)
    (h : (s.move E ord (.turn i)).result i = some (.ok (e :: left))) : (s.move E ord (.turn i)).1.pending = e :: left := by
  have hlt := (List.getElem?_eq_some_iff.1 hp).1
  simp only [Busy.move, hp, Busy.result, List.getElem?_set_self hlt, Option.bind_some] at h ⊢
  cases hl : p.left with
  | nil =>
    simp only [Ingestion.step, hr, hl] at h ⊢
    cases hx : p.next with
    | nil => simp only [hx] at h; simp at h
    | cons y ys =>
      simp only [hx] at h ⊢
      by_cases hlen : (y :: ys).length = p.len
      · simp only [hlen, if_true, Option.some.injEq, Except.ok.injEq] at h ⊢
        exact h
      · simp only [hlen, if_false] at h; simp at h
  | cons y ys =>
    simp only [Ingestion.step, hr, hl] at h
    rcases hv : s.1.receive E y with ⟨k', err | u⟩
    · simp only [hv] at h
      by_cases hf : err.fatal = true
      · simp only [hf, if_true] at h; simp at h
      · by_cases hk : err.isPrekey = true
        · simp only [hf, hk, if_true, Bool.false_eq_true, if_false] at h; simp at h
        · simp only [hf, hk, Bool.false_eq_true, if_false] at h; simp at h
    · simp only [hv] at h; simp at h

end Props

namespace Sample

/-- Two calls take turns: one is given an event that adds Carol to a group the device does not know yet, the other one that makes Bob
admin of a team the device does not know yet. Each hands its event back. -/
def crossed : List Move :=
  [.start [.dlg gCarol], .start [.dlg kBob], .turn 0, .turn 1, .turn 0, .turn 1]

/-- Then the missing events arrive. -/
def arrival : List Move := .start [.dlg kAlice, .dlg gTeam] :: List.replicate 6 (.turn 2)

/-- The same calls one after the other. -/
def orderly : List Move :=
  [.start [.dlg gCarol], .turn 0, .turn 0, .start [.dlg kBob], .turn 1, .turn 1, .turn 1] ++
    .start [.dlg kAlice, .dlg gTeam] :: List.replicate 12 (.turn 2)

end Sample

namespace Props

open Sample

/-- `C139_handed_back_partial` applies to both calls. -/
example : (Busy.run Sample.E List.reverse (k0, []) crossed).result 0 = some (.ok [.dlg gCarol]) ∧
    (Busy.run Sample.E List.reverse (k0, []) crossed).result 1 = some (.ok [.dlg kBob]) := by
  constructor <;> decide +kernel

/-- `C139_at_return` applies to the last turn but one. -/
example : (Busy.run Sample.E List.reverse (k0, []) (crossed.take 5)).1.pending = [.dlg gCarol] := by decide +kernel

/-- C139 fails: two calls run at the same time. Each hands an event back as pending, but the one that returns last overwrites the list
of pending events with its own. When what the first event was waiting for arrives, and all calls have returned, that event has not
been applied and is not pending any more; the device would accept it if it were sent again. Had the same calls run one after the other,
it would have been applied. -/
theorem C139_fails : ∃ (E : Env) (k : Keyhive) (d : SDlg) (two rest after : List Move), Reach E k ∧ E.NoClash ∧
    Function.Injective E.hashEvent ∧
    (Busy.run E List.reverse (k, []) two).result 0 = some (.ok [.dlg d]) ∧
    (∃ d', (Busy.run E List.reverse (k, []) two).result 1 = some (.ok [.dlg d'])) ∧
    (Busy.run E List.reverse (k, []) (two ++ rest)).result 2 = some (.ok []) ∧
    (Busy.run E List.reverse (k, []) (two ++ rest)).1.pending = [] ∧
    AMap.get (Busy.run E List.reverse (k, []) (two ++ rest)).1.dlgs (E.hashDlg d) = none ∧
    ((Busy.run E List.reverse (k, []) (two ++ rest)).1.receive E (.dlg d)).2 = .ok () ∧
    (Busy.run E List.reverse (k, []) after).result 2 = some (.ok []) ∧
    AMap.get (Busy.run E List.reverse (k, []) after).1.dlgs (E.hashDlg d) ≠ none :=
  ⟨Sample.E, k0, gCarol, crossed, arrival, orderly, reach_k0, E_noClash, E_events, by decide +kernel, ⟨kBob, by decide +kernel⟩,
    by decide +kernel, by decide +kernel, by decide +kernel, by decide +kernel, by decide +kernel, by decide +kernel⟩

end Props

end Verif.Keyhive
