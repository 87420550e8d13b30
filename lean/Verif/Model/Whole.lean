import Verif.Model.TraceLog
import Verif.Model.TracePoint
/-
The parts together: trace points, category registry and trace log, used by any number of threads.
`TraceLog::start` and `stop` update the registry at the places they do in the source, trace points
test the status of their category and hand events to the log. Sequentially consistent memory.

Simplifications: those of Model/TraceLog and Model/TracePoint. The events a thread has decided to
log but not yet logged (scoped events log when their scope ends) may be logged in any order, which
allows more than the code. A thread in the middle of a lookup does not take steps of the log.
-/
namespace Phosphor

/-- The call of `updateEnabled` or `disableAll` a thread is in. Code: category_registry.cc:102-126. -/
def RegConc.Pc.updating : RegConc.Pc → Option RegConc.Upd
  | .uWant u | .uEn u | .uDis u | .uLoad u | .uLoop u _ _ => some u
  | _ => none

namespace Whole

/-- An event on its way: the trace point that made it, its contents (a number), and, for the record
only, the buffer of the run that was on when the status of the category was tested. Code:
phosphor-internal.h:96-100, scoped_event_guard.h:31-45. -/
structure Ev where
  point : Nat
  contents : Nat
  run : Option Nat
  deriving DecidableEq, Repr

/-- Where a thread inside `start` or `stop` is with respect to the registry: nothing to do, about to
call it, inside the call. Code: trace_log.cc:87, trace_log.cc:118-119. -/
inductive Due
  | nothing
  | want (u : RegConc.Upd)
  | running (u : RegConc.Upd)

/-- The log, the trace points with the registry, the registry calls of `start` and `stop`, and the
events decided but not yet logged. Code: trace_log.h:321-380, phosphor-internal.h:34-39,
scoped_event_guard.h:47-60. -/
structure St where
  log : TLog.St Ev
  tp : TpConc.St
  due : Nat → Due
  pend : Nat → List Ev

/-- The beginning of the program. Code: trace_log.cc:38-44, category_registry.cc:22-28. -/
def St.init : St := ⟨TLog.St.init, TpConc.St.init, fun _ => .nothing, fun _ => []⟩

/-- The registry call that follows a step of the log: `disableAll` after `enabled.exchange(false)`
returned true (trace_log.cc:86-87), `updateEnabled` after the buffer was made (trace_log.cc:117-119).
-/
def dueAfter (l l' : TLog.St Ev) (t : Nat) : Due :=
  if l.enabled = true ∧ l'.enabled = false then .want .disable
  else
    match l.pc t, l'.pc t with
    | .held (.startCreate _) _, .held .startEnable _ =>
      .want (.update l'.config.enabled l'.config.disabled)
    | _, _ => .nothing

/-- One step. Code: trace_log.cc:38-317, category_registry.cc:30-126, phosphor-internal.h:34-141,
scoped_event_guard.h:31-45. -/
inductive Step (cat : Nat → Str) (tid : Nat → Nat) : St → St → Prop
  /-- a step of the log, other than a call of `logEvent` -/
  | log {s t c l'} : s.due t = .nothing → s.tp.pc t = .out → s.tp.reg.pc t = .idle →
      (∀ e, c ≠ .log e) → s.log.next true tid t c = .to l' →
      Step cat tid s { s with log := l', due := setf s.due t (dueAfter s.log l' t) }
  /-- `start` or `stop` calls the registry -/
  | call {s t u tp'} : s.due t = .want u → s.tp.reg.pc t = .idle →
      tp' = { s.tp with reg := s.tp.reg.goto t (.uWant u) } → TpConc.Step cat s.tp tp' →
      Step cat tid s { s with tp := tp', due := setf s.due t (.running u) }
  /-- and the registry returns -/
  | finish {s t u tp'} : s.due t = .running u → tp'.reg.pc t = .idle →
      (∀ v, v ≠ t → tp'.reg.pc v = s.tp.reg.pc v) → tp'.pc = s.tp.pc → TpConc.Step cat s.tp tp' →
      Step cat tid s { s with tp := tp', due := setf s.due t .nothing }
  /-- a step of the registry or of a trace point, other than these and the test of the status; only
  threads outside the log enter a trace point -/
  | point {s tp'} : TpConc.Step cat s.tp tp' →
      (∀ v, (tp'.reg.pc v).updating = (s.tp.reg.pc v).updating) →
      (∀ v, s.tp.pc v ≠ .out → tp'.pc v ≠ .out) →
      (∀ v, s.tp.pc v = .out → tp'.pc v ≠ .out → s.log.pc v = .idle ∧ s.due v = .nothing) →
      Step cat tid s { s with tp := tp' }
  /-- a thread tests the status of a category (phosphor-internal.h:96-98): Disabled -/
  | testOff {s t p i tp'} : s.tp.pc t = .testing p i → s.tp.reg.statuses i = false →
      tp' = { s.tp with pc := TpConc.setPc s.tp.pc t .out, tested := (p, i, false) :: s.tp.tested } →
      Step cat tid s { s with tp := tp' }
  /-- or not: there is an event to log -/
  | testOn {s t p i tp'} (x : Nat) : s.tp.pc t = .testing p i → s.tp.reg.statuses i = true →
      tp' = { s.tp with pc := TpConc.setPc s.tp.pc t .out, tested := (p, i, true) :: s.tp.tested } →
      Step cat tid s { s with
        tp := tp'
        pend := setf s.pend t (⟨p, x, if s.log.enabled then s.log.buffer else none⟩ :: s.pend t) }
  /-- a thread calls `logEvent` with an event it has decided to log -/
  | emit {s t e l'} : e ∈ s.pend t → s.due t = .nothing → s.tp.pc t = .out → s.tp.reg.pc t = .idle →
      s.log.next true tid t (.log e) = .to l' →
      Step cat tid s { s with log := l', pend := setf s.pend t ((s.pend t).erase e) }

/-- States reachable by any interleaving. Code: trace_log.cc:38-317. -/
inductive Reachable (cat : Nat → Str) (tid : Nat → Nat) : St → Prop
  | init : Reachable cat tid St.init
  | step {s s'} : Reachable cat tid s → Step cat tid s s' → Reachable cat tid s'

end Whole
end Phosphor
