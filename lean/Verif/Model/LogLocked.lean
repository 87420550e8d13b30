import Verif.Model.TraceLog
/-
Model of trace points passed while the thread holds the lock of the log: `TraceLog::lock()`
(trace_log.h:241-252) is public, and the caller of `lock()`, or a stopped callback run by its
`stop`, may contain trace points. Model/TraceLog leaves this out.

A thread is two positions of that model: `own t` for `logEvent`, `registerThread` and
`deregisterThread`, which use the thread-local tenant, and `holder t` for everything done with
`lock()`. Only one of them moves at a time: the code of the holder waits while `logEvent` runs.

`mutex.try_lock()` by the thread that owns the mutex is undefined behaviour
([thread.mutex.requirements.mutex]); `maybe_stop` (trace_log.cc:72) is where that may happen.

Simplifications, besides those of Model/TraceLog:
* A thread holding the lock does not call `lock()`, `registerThread` or `deregisterThread`
  (which would lock a mutex it owns).
* In a stopped callback run by `maybe_stop` a thread passes trace points only while tracing is
  off, that is, before the callback starts tracing again.
-/
namespace Phosphor.LogLocked
open TLog

/-- The position of thread `t` in `logEvent`, `registerThread`, `deregisterThread`, and in the
`maybe_stop` it runs. Code: trace_log.cc:68-83, trace_log.cc:124-149, trace_log.cc:188-234. -/
def own (t : Nat) : Nat := 2 * t

/-- The position of thread `t` under `lock()`. Code: trace_log.h:241-252. -/
def holder (t : Nat) : Nat := 2 * t + 1

/-- The thread id of the thread at a position. Code: platform/thread.h:41-63. -/
def slot (tid : Nat → Nat) (n : Nat) : Nat := tid (n / 2)

section
variable {ε : Type}

/-- Thread `t`, which owns the mutex, is about to `try_lock` it. Code: trace_log.cc:72. -/
def tries (s : St ε) (t : Nat) : Bool :=
  match s.pc (own t) with
  | .tryMutex _ _ => decide (s.owner = some (holder t))
  | _ => false

/-- One step of thread `t`, which may pass trace points while it holds the lock. Code:
trace_log.cc:46-317, trace_log.h:241-252. -/
def next (tid : Nat → Nat) (s : St ε) (t : Nat) (c : Choice ε) : Out (St ε) :=
  match c with
  | .log e =>
    match s.pc (own t) with
    | .idle =>
      match s.pc (holder t) with
      | .idle | .held .user _ => s.next true (slot tid) (own t) (.log e)
      | _ => .blocked
    | .held .user _ => if s.enabled then .blocked else .to s
    | _ => .blocked
  | .lock => if s.isIdle (own t) then s.next true (slot tid) (holder t) .lock else .blocked
  | .register n =>
    if s.isIdle (holder t) then s.next true (slot tid) (own t) (.register n) else .blocked
  | .deregister =>
    if s.isIdle (holder t) then s.next true (slot tid) (own t) .deregister else .blocked
  | .free b => s.next true (slot tid) (own t) (.free b)
  | .step =>
    if s.isIdle (own t) then s.next true (slot tid) (holder t) .step
    else if tries s t then .ub
    else s.next true (slot tid) (own t) .step
  | .spurious =>
    if s.isIdle (own t) then s.next true (slot tid) (holder t) .spurious
    else if tries s t then .ub
    else s.next true (slot tid) (own t) .spurious
  | c =>
    if s.isIdle (own t) then s.next true (slot tid) (holder t) c
    else s.next true (slot tid) (own t) c

/-- States reachable by any interleaving of any threads. Code: trace_log.cc:38-317. -/
inductive Reachable (tid : Nat → Nat) : St ε → Prop
  | init : Reachable tid St.init
  | step {s s' : St ε} {t c} : Reachable tid s → next tid s t c = .to s' → Reachable tid s'

/-- Runs a list of steps from a state. Code: trace_log.cc:38-317. -/
def run (tid : Nat → Nat) (s : St ε) : List (Nat × Choice ε) → Out (St ε)
  | [] => .to s
  | (t, c) :: l =>
    match next tid s t c with
    | .to s' => run tid s' l
    | .ub => .ub
    | .blocked => .blocked

end
end Phosphor.LogLocked
