import Verif.Keyhive.IngestLemmas

/-! # Ingestions that run at the same time

`ingest_unsorted_static_events` takes `&self` and holds no lock between its awaits: it reads the pending events, receives one event
after the other, and writes the pending events when it is done. Here several calls take turns.
Simplification: receiving one event, reading the pending events and writing them are each one step; in the code receiving one event
also has awaits inside. -/

namespace Verif.Keyhive

open Verif.Group

/-- The local variables of one call of `ingest_unsorted_static_events` — keyhive.rs:2306-2323: `replayed_pending`, what is left of
`epoch`, `next_epoch`, `epoch_len`; and what it has returned. -/
structure Ingestion where
  replayed : List Nat
  left : List Event
  next : List Event
  len : Nat
  result : Option (Except Err (List Event))

namespace Ingestion

/-- The call up to the loop — keyhive.rs:2306-2318. `ord` stands for the iteration order of the `HashMap` of unique events. -/
def start (E : Env) (ord : List Event → List Event) (k : Keyhive) (events : List Event) : Ingestion :=
  let epoch := ord (Keyhive.dedup E (events ++ k.pending))
  ⟨k.pending.map E.hashEvent, epoch, [], epoch.length, none⟩

/-- One turn of a call — keyhive.rs:2320-2362: it receives the next event of the epoch, or ends the epoch. A call that has returned, or
never will, does nothing. -/
def step (E : Env) (k : Keyhive) (p : Ingestion) : Keyhive × Ingestion :=
  match p.result with
  | some _ => (k, p)
  | none =>
    match p.left with
    | e :: es =>
      match k.receive E e with
      | (k', .ok ()) => (k', { p with left := es })
      | (k', .error err) =>
        if err.fatal then (k', { p with result := some (.error err) })
        else if err.isPrekey then (k', { p with left := es })
        else (k', { p with left := es, next := p.next ++ [e] })
    | [] =>
      match p.next with
      | [] =>
        ({ k with pending := k.pending.filter (fun e => !decide (E.hashEvent e ∈ p.replayed)) }, { p with result := some (.ok []) })
      | e :: es =>
        if (e :: es).length = p.len then ({ k with pending := e :: es }, { p with result := some (.ok (e :: es)) })
        else (k, { p with left := e :: es, next := [], len := (e :: es).length })

end Ingestion

/-- What the scheduler does: it lets a new call begin, or gives a turn to the call with this number. -/
inductive Move where
  | start (events : List Event)
  | turn (i : Nat)

/-- A device and the calls that have begun. -/
abbrev Busy := Keyhive × List Ingestion

namespace Busy

/-- One move. -/
def move (E : Env) (ord : List Event → List Event) (s : Busy) : Move → Busy
  | .start events => (s.1, s.2 ++ [Ingestion.start E ord s.1 events])
  | .turn i =>
    match s.2[i]? with
    | none => s
    | some p => ((p.step E s.1).1, s.2.set i (p.step E s.1).2)

/-- A schedule. -/
def run (E : Env) (ord : List Event → List Event) (s : Busy) (moves : List Move) : Busy := moves.foldl (move E ord) s

/-- What the call with this number has returned. -/
def result (s : Busy) (i : Nat) : Option (Except Err (List Event)) := s.2[i]?.bind Ingestion.result

end Busy

end Verif.Keyhive
