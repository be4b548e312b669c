/-!
# Model of the queueing listeners `keyhive_core/src/listener/deque.rs` and `listener/log.rs`

The `Arc<Mutex<..>>` is dropped: each method body runs under the lock, so a run of the listener is
a sequence of method calls.
-/

namespace Verif.Listener

/-- Method calls on a queue listener. -/
inductive Call (E : Type) where
  | push (e : E)
  | popLatest
  | popEarliest

/-- `VecDeque` content, front first — deque.rs:18-22. -/
abbrev Deque (E : Type) := List E

/-- `Deque::push` — deque.rs:32-35 (`push_back`). -/
def Deque.push {E : Type} (q : Deque E) (e : E) : Deque E := q ++ [e]

/-- `Deque::pop_latest` — deque.rs:37-40 (`pop_front`). -/
def Deque.popLatest {E : Type} (q : Deque E) : Deque E × Option E :=
  match q with
  | [] => ([], none)
  | e :: q => (q, some e)

/-- `Deque::pop_earliest` — deque.rs:42-45 (`pop_back`). -/
def Deque.popEarliest {E : Type} (q : Deque E) : Deque E × Option E :=
  (q.dropLast, q.getLast?)

/-- One call; returns the event handed out, if any. -/
def Deque.call {E : Type} (q : Deque E) : Call E → Deque E × Option E
  | .push e => (q.push e, none)
  | .popLatest => q.popLatest
  | .popEarliest => q.popEarliest

/-- A sequence of calls; returns the events handed out, in order. -/
def Deque.run {E : Type} (q : Deque E) : List (Call E) → Deque E × List E
  | [] => (q, [])
  | c :: cs =>
    let (q', o) := q.call c
    let (q'', os) := Deque.run q' cs
    (q'', o.toList ++ os)

/-- `Log` content — log.rs:20-24; `push` 34-37, `pop` 39-42 (both at the end). -/
abbrev Log (E : Type) := List E

def Log.push {E : Type} (l : Log E) (e : E) : Log E := l ++ [e]

def Log.pop {E : Type} (l : Log E) : Log E × Option E := (l.dropLast, l.getLast?)

end Verif.Listener
