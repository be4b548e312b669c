import Verif.Keyhive.OverlapProps
import Verif.Keyhive.Props

/-! # C146 — giving up an ingestion

The turns of a call of `ingest_unsorted_static_events` are those of `Verif.Keyhive.Overlap`; a call that is dropped gets no more turns. -/

namespace Verif.Keyhive.StopProps

open Verif.Group

variable {E : Env} {ord : List Event → List Event}

/-- The device when a call with these events is given up after `n` turns. -/
def stopped (E : Env) (ord : List Event → List Event) (k : Keyhive) (events : List Event) (n : Nat) : Busy :=
  Busy.run E ord (k, []) (.start events :: List.replicate n (.turn 0))

theorem step_fed (k : Keyhive) (p : Ingestion) (h : (p.step E k).2.result = none) : p.result = none ∧ Fed E k (p.step E k).1 := by
  unfold Ingestion.step at h ⊢
  cases hr : p.result with
  | some r => simp only [hr] at h; cases h
  | none =>
    refine ⟨rfl, ?_⟩
    simp only [hr] at h ⊢
    cases hl : p.left with
    | cons e es =>
      simp only [hl] at h ⊢
      have := Fed.step (E := E) (k := k) e .refl
      rcases hrec : k.receive E e with ⟨k', err | u⟩
      · rw [hrec] at this
        dsimp only at this ⊢
        repeat' split
        all_goals exact this
      · rw [hrec] at this
        exact this
    | nil =>
      simp only [hl] at h ⊢
      cases hn : p.next with
      | nil => simp only [hn] at h; cases h
      | cons e es =>
        simp only [hn] at h ⊢
        split at h
        · cases h
        · rename_i hlen
          rw [if_neg hlen]
          exact .refl

theorem Fed.app {a b c : Keyhive} (h : Fed E a b) (h' : Fed E b c) : Fed E a c := by
  induction h' with
  | refl => exact h
  | step e _ ih => exact .step e ih

theorem run_fed (k : Keyhive) : ∀ (n : Nat) (k1 : Keyhive) (p : Ingestion), Fed E k k1 →
    (Busy.run E ord (k1, [p]) (List.replicate n (.turn 0))).result 0 = none →
    Fed E k (Busy.run E ord (k1, [p]) (List.replicate n (.turn 0))).1
  | 0, _, _, h, _ => h
  | n + 1, k1, p, h, hr => by
    have hs : Busy.run E ord (k1, [p]) (List.replicate (n + 1) (.turn 0)) =
        Busy.run E ord ((p.step E k1).1, [(p.step E k1).2]) (List.replicate n (.turn 0)) := rfl
    rw [hs] at hr ⊢
    by_cases hx : (p.step E k1).2.result = none
    · exact run_fed k n _ _ (Fed.app h (step_fed k1 p hx).2) hr
    · exfalso
      have stay : ∀ (n : Nat) (k2 : Keyhive) (q : Ingestion), q.result ≠ none →
          (Busy.run E ord (k2, [q]) (List.replicate n (.turn 0))).result 0 ≠ none := by
        intro n
        induction n with
        | zero => intro k2 q hq; exact hq
        | succ n ih =>
          intro k2 q hq
          have : q.step E k2 = (k2, q) := by
            unfold Ingestion.step
            cases hq' : q.result with
            | none => exact absurd hq' hq
            | some r => rfl
          have e2 : Busy.run E ord (k2, [q]) (List.replicate (n + 1) (.turn 0)) =
              Busy.run E ord ((q.step E k2).1, [(q.step E k2).2]) (List.replicate n (.turn 0)) := rfl
          rw [e2, this]
          exact ih k2 q hq
      exact stay n _ _ hx hr

theorem fed_reach {k k' : Keyhive} (h : Reach E k) (hf : Fed E k k') : Reach E k' := by
  induction hf with
  | refl => exact h
  | step e _ ih => exact .call (.receive e) ih trivial

/-- C146: as long as a call has not returned, the device is what it was before with some events received, and the events that were pending
are pending. -/
theorem C146_pending (k : Keyhive) (events : List Event) (n : Nat) (hr : (stopped E ord k events n).result 0 = none) :
    Fed E k (stopped E ord k events n).1 ∧ (stopped E ord k events n).1.pending = k.pending := by
  have h : Fed E k (stopped E ord k events n).1 := run_fed k n k (Ingestion.start E ord k events) .refl hr
  exact ⟨h, h.pending⟩

/-- C146: an ingestion that is given up can be made up for. The device gives up an ingestion after `n` turns, and ingests the events again.
When that returns, each of the events and each event that was pending at the beginning has been accepted by the device, or has been dropped
as a refused prekey event, or is pending; and the pending delegations and revocations still fail. -/
theorem C146_again (hE : Function.Injective E.hashEvent) (hord : ∀ l, (ord l).Perm l) {k k' : Keyhive} (hk : Reach E k)
    {events left : List Event} (n : Nat) (hr : (stopped E ord k events n).result 0 = none)
    (h : (stopped E ord k events n).1.ingest E ord events = (k', some (.ok left))) :
    k'.pending = left ∧
    (∃ k1, k' = { k1 with pending := left } ∧ Fed E k k1 ∧
      ∀ e ∈ events ++ k.pending, Handled E k k1 e (.ok ()) ∨ (∃ err, Handled E k k1 e (.error (.prekey err))) ∨ e ∈ left) ∧
    (∀ e ∈ left, e ∈ events ++ k.pending) ∧
    (∀ e ∈ left, e.isMembership = true → ∃ err, (k'.receive E e).2 = .error err) := by
  obtain ⟨hf, hp⟩ := C146_pending (E := E) (ord := ord) k events n hr
  obtain ⟨a1, ⟨k1, a2, a3, a4⟩, a5, a6⟩ := Props.C36_every_event_partial hE hord (fed_reach hk hf) h
  rw [hp] at a4 a5
  have later : ∀ {e out}, Handled E (stopped E ord k events n).1 k1 e out → Handled E k k1 e out := by
    rintro e out ⟨k0, b1, b2, b3⟩
    exact ⟨k0, Fed.app hf b1, b2, b3⟩
  refine ⟨a1, ⟨k1, a2, Fed.app hf a3, fun e he => ?_⟩, a5, a6⟩
  rcases a4 e he with h1 | ⟨err, h1⟩ | h1
  · exact .inl (later h1)
  · exact .inr (.inl ⟨err, later h1⟩)
  · exact .inr (.inr h1)

open Sample

-- Given up after four turns, of which the last has applied a delegation; ingested again, all is applied but one event, which is pending.
example : (stopped Sample.E List.reverse k0 [.dlg gCarol, .rev rBob, .dlg kBob, .dlg kAlice] 4).result 0 = none ∧
    (stopped Sample.E List.reverse k0 [.dlg gCarol, .rev rBob, .dlg kBob, .dlg kAlice] 4).1.dlgs.length = 1 ∧
    ((stopped Sample.E List.reverse k0 [.dlg gCarol, .rev rBob, .dlg kBob, .dlg kAlice] 4).1.ingest Sample.E List.reverse
      [.dlg gCarol, .rev rBob, .dlg kBob, .dlg kAlice]).2 = some (.ok [.dlg gCarol]) :=
  ⟨by decide +kernel, by decide +kernel, by decide +kernel⟩

end Verif.Keyhive.StopProps
