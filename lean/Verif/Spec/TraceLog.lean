import Verif.Model.TraceLog
/-
Reading the history of a TraceLog (newest item first), and which histories are right.
-/
namespace Phosphor.TLog

/-- Tracing is on after this history: the last run begun has not been stopped. -/
def on : List Item → Bool
  | [] => false
  | .run _ _ :: _ => true
  | .stop _ _ :: _ => false
  | _ :: h => on h

/-- The configuration last passed to `start`. -/
def configOf : List Item → TraceConfig
  | [] => { mode := .fixed, size := 0 }
  | .configure c :: _ => c
  | _ :: h => configOf h

/-- The buffer of the last run, if nobody has retrieved it. -/
def available : List Item → Option Nat
  | [] => none
  | .run b _ :: _ => some b
  | .retrieve _ :: _ => none
  | _ :: h => available h

/-- The last run begun: buffer and configuration. -/
def lastRun : List Item → Option (Nat × TraceConfig)
  | [] => none
  | .run b c :: _ => some (b, c)
  | _ :: h => lastRun h

/-- The last successful call of `t` was `registerThread`. -/
def isReg (t : Nat) : List Item → Bool
  | [] => false
  | .regOk u _ :: h => if u = t then true else isReg t h
  | .deregOk u :: h => if u = t then false else isReg t h
  | _ :: h => isReg t h

/-- A stop has been made and not yet been followed by the decision about the callback. -/
def stopping : List Item → Option Bool
  | .stop sh _ :: _ => some sh
  | _ => none

/-- The callback `cb` of configuration `cfg` is to be called at this stop. -/
def CallDue (cfg : TraceConfig) (shutdown : Bool) (cb : Callback) : Prop :=
  cfg.callback = some cb ∧ (shutdown = false ∨ cfg.stopTracing = true)

/-- Item `i` may follow history `h`. -/
def ItemOk (i : Item) (h : List Item) : Prop :=
  match i with
  | .stop _ _ => stopping h = none ∧ on h = true
  | .call cb => ∃ sh, stopping h = some sh ∧ CallDue (configOf h) sh cb
  | .noCall => ∃ sh, stopping h = some sh ∧ ∀ cb, ¬ CallDue (configOf h) sh cb
  | .run _ cfg => stopping h = none ∧ cfg = configOf h
  | .configure _ => stopping h = none
  | .reject => stopping h = none ∧ (configOf h).size / sizeofTraceChunk = 0
  | .retrieve r => stopping h = none ∧ on h = false ∧ r = available h
  | .refuse => stopping h = none ∧ on h = true
  | .regOk t _ => stopping h = none ∧ isReg t h = false
  | .regRefused t => stopping h = none ∧ isReg t h = true
  | .deregOk t => stopping h = none ∧ isReg t h = true
  | .deregRefused t => stopping h = none ∧ isReg t h = false

/-- Every item of the history may follow the ones before it. -/
def HistOk : List Item → Prop
  | [] => True
  | i :: h => ItemOk i h ∧ HistOk h

/-- The buffers of the runs in the history. -/
def runIds : List Item → List Nat
  | [] => []
  | .run b _ :: h => b :: runIds h
  | _ :: h => runIds h

/-- The item hands out buffer `b`. -/
def Item.hands (b : Nat) : Item → Bool
  | .retrieve (some c) => c == b
  | _ => false

/-- What the log remembers of thread `t`: its name, and whether it has departed while tracing. -/
def record (t : Nat) : List Item → Option Str × Bool
  | [] => (none, false)
  | .regOk u n :: h => if u = t ∧ n ≠ [] then (some n, false) else record t h
  | .deregOk u :: h =>
    if u = t then (if on h then ((record t h).1, true) else (none, (record t h).2)) else record t h
  | .run _ _ :: h => if (record t h).2 then (none, true) else record t h
  | _ :: h => record t h

end Phosphor.TLog
