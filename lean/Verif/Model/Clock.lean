import Verif.Model.TraceLog
/-
The log of TraceLog.lean together with the clock `std::chrono::steady_clock`.

`logEvent` without a time constructs the event after it has its chunk, and the constructor asks the
clock (trace_log.cc:131, trace_event.cc:22-30). `logEvent` with a time stores the times the caller
measured (trace_log.cc:147-148, trace_event.cc:32-40); a caller measures them before it calls
(scoped_event_guard.h:39-45, 74-115). Simplification: the clock is one number all threads see, which
never decreases; it is read at the very moment the event is put into the chunk, both being done by
one thread that holds the lock of its chunk.
-/
namespace Phosphor.Clock

/-- The log with the clock. `times b t`: what the clock showed when the events that `t` put into buffer
`b` were constructed, oldest first; `timed`: the items of the log's history with what the clock showed
then, newest first. Code: trace_log.cc:38-317, trace_event.cc:22-40. -/
structure St (ε : Type) where
  log : TLog.St ε
  now : Nat
  times : Nat → Nat → List Nat
  timed : List (Nat × TLog.Item)

/-- A log just constructed. Code: trace_log.cc:38-41. -/
def St.init {ε : Type} : St ε := ⟨TLog.St.init, 0, fun _ _ => [], []⟩

variable {ε : Type}

/-- `TraceEvent(tpi, …)` is constructed and put into the chunk by this step (trace_log.cc:131, 147). -/
def St.stamp (s : St ε) (t : Nat) (c : TLog.Choice ε) : Nat → Nat → List Nat :=
  match s.log.pc t, (s.log.tenant t).chunk, c with
  | .store _, some (b, _), .step => setf s.times b (setf (s.times b) t (s.times b t ++ [s.now]))
  | .store _, some (b, _), .spurious => setf s.times b (setf (s.times b) t (s.times b t ++ [s.now]))
  | _, _, _ => s.times

/-- A step of the log. Code: trace_log.cc:38-317. -/
def St.act (tid : Nat → Nat) (s : St ε) (t : Nat) (c : TLog.Choice ε) : Option (St ε) :=
  match s.log.next true tid t c with
  | .to l =>
    some ⟨l, s.now, s.stamp t c, (l.hist.take (l.hist.length - s.log.hist.length)).map (fun i => (s.now, i)) ++ s.timed⟩
  | _ => none

/-- What happens next: time passes, or a thread takes a step. `given e` are the start and the end that
the caller of `logEvent` has measured for `e`, if it passes them; they are not in the future. Code:
trace_log.cc:38-317, trace_event.cc:22-40, scoped_event_guard.h:39-45. -/
inductive Step (tid : Nat → Nat) (given : ε → Option (Nat × Nat)) (s : St ε) : St ε → Prop
  | tick (d : Nat) : Step tid given s { s with now := s.now + d }
  | act (t : Nat) (c : TLog.Choice ε) {s' : St ε} (h : s.act tid t c = some s')
      (hg : ∀ e a b, c = .log e → given e = some (a, b) → a ≤ b ∧ b ≤ s.now) : Step tid given s s'

/-- Code: trace_log.cc:38-317. -/
inductive Reachable (tid : Nat → Nat) (given : ε → Option (Nat × Nat)) : St ε → Prop
  | init : Reachable tid given St.init
  | step {s s' : St ε} : Reachable tid given s → Step tid given s s' → Reachable tid given s'

/-- The time an event bears: the start passed to `logEvent`, or when it was constructed. Code:
trace_event.cc:22-40. -/
def timeOf (given : ε → Option (Nat × Nat)) (e : ε) (constructed : Nat) : Nat :=
  match given e with
  | some (a, _) => a
  | none => constructed

/-- The time an event ends: its time plus its duration. Code: trace_event.cc:22-40. -/
def endOf (given : ε → Option (Nat × Nat)) (e : ε) (constructed : Nat) : Nat :=
  match given e with
  | some (_, b) => b
  | none => constructed

end Phosphor.Clock
