import Verif.Model.TraceLog
/-
Construction of a `TraceLog` with a start-up trace.
-/
namespace Phosphor.TLog

/-- `TraceLog::TraceLog()`, `TraceLog::TraceLog(const TraceLogConfig&)` and `TraceLog::configure`
(trace_log.cc:38-44, 50-56), given the value of `PHOSPHOR_TRACING_START`: the constructing
thread, here thread 0, locks the log, starts the start-up trace if there is one, and unlocks. No
other thread has access to the log yet. An exception thrown by `start` leaves the constructor. -/
def St.construct {ε : Type} (tid : Nat → Nat) (env : Option Str) : Res (St ε) :=
  match fromEnvironment env with
  | .throw e => .throw e
  | .ub => .ub
  | .ok none => .ok St.init
  | .ok (some cfg) =>
    match (St.init : St ε).run true tid [(0, .lock), (0, .start cfg)] with
    | .to s =>
      match s.hist with
      | .reject :: _ => .throw .invalidArgument
      | _ =>
        match s.run true tid [(0, .step), (0, .step), (0, .ret), (0, .step)] with
        | .to s => .ok s
        | _ => .ub
    | _ => .ub

end Phosphor.TLog
