import Verif.Model.CategoryRegistry
import Verif.Model.CategoryRegistryConc
/-
Model of a trace point: the static category pointer of PHOSPHOR_INTERNAL_CATEGORY_INFO, its
initialisation, and the test in front of `logEvent` (include/phosphor/phosphor-internal.h).
A trace point is a number; `cat p` is its category string (a compile-time constant).
First each execution as one step on the sequential registry, then any number of threads with
one step per access to shared memory, on the concurrent registry.
-/
namespace Phosphor

/-- Registry, the static pointer of every trace point (index of the status cell), and two
ghost records: how often each trace point has called `getCategoryStatus`, and the trace points
that called `logEvent`, oldest first. Code: phosphor-internal.h:34-39. -/
structure TpSt where
  reg : Registry
  cache : Nat → Option Nat
  lookups : Nat → Nat
  logged : List Nat

/-- Static initialisation: null pointers. Code: phosphor-internal.h:34-36. -/
def TpSt.init : TpSt := ⟨Registry.init, fun _ => none, fun _ => 0, []⟩

/-- One execution of trace point `p`: `PHOSPHOR_INTERNAL_CATEGORY_INFO`
(phosphor-internal.h:34-39), `PHOSPHOR_INTERNAL_INITIALIZE_CATEGORY_ENABLED`
(phosphor-internal.h:70-77), and the test of `PHOSPHOR_INTERNAL_TRACE_EVENT2`
(phosphor-internal.h:96-100); the other macros (phosphor-internal.h:136-141,
phosphor.h:168-216, 272-325, 387-414) test in the same way. `getCategoryStatus` is
`registry.getStatus` (trace_log.cc:151-154). -/
def TpSt.exec (cat : Nat → Str) (s : TpSt) (p : Nat) : Res TpSt := do
  let (i, s) ← match s.cache p with
    | some i => pure (i, s)
    | none => do
      let (i, r) ← s.reg.getStatus (cat p)
      pure (i, { s with
        reg := r
        cache := fun q => if q = p then some i else s.cache q
        lookups := fun q => if q = p then s.lookups p + 1 else s.lookups q })
  let status ← s.reg.cell i
  pure (if status then { s with logged := s.logged ++ [p] } else s)

/-- What can happen in a program: executions of trace points, and calls on the registry
(`TraceLog::start` and `stop` call `updateEnabled` and `disableAll`). Code:
phosphor-internal.h:79-141, trace_log.cc:87, trace_log.cc:118-119. -/
inductive TpOp
  | exec (p : Nat)
  | reg (op : RegOp)

/-- One operation. Code: phosphor-internal.h:79-141, trace_log.cc:87, trace_log.cc:118-119. -/
def TpSt.step (cat : Nat → Str) (s : TpSt) : TpOp → Res TpSt
  | .exec p => s.exec cat p
  | .reg op => do let (_, r) ← s.reg.step op; pure { s with reg := r }

/-- A history of operations. Code: phosphor-internal.h:79-141. -/
def TpSt.run (cat : Nat → Str) (s : TpSt) : List TpOp → Res TpSt
  | [] => .ok s
  | op :: ops => do let s ← s.step cat op; s.run cat ops

/-! ### Concurrent executions -/

namespace TpConc

/-- Where a thread is in a trace point. Code: phosphor-internal.h:34-39, phosphor-internal.h:70-100.
-/
inductive Pc
  | out
  /-- loaded a null pointer, calling `getCategoryStatus` (phosphor-internal.h:72-73) -/
  | looking (p : Nat)
  /-- about to store the pointer to cell `i` (phosphor-internal.h:74-76) -/
  | storing (p i : Nat)
  /-- about to load the status in cell `i` (phosphor-internal.h:96-98) -/
  | testing (p i : Nat)

/-- Shared state. `lookups t p` counts the calls of `getCategoryStatus` that thread `t` has
made for trace point `p`; `tested` records every test of a status: trace point, cell, and
whether `logEvent` was called. Code: phosphor-internal.h:34-39. -/
structure St where
  reg : RegConc.St
  cache : Nat → Option Nat
  pc : Nat → Pc
  lookups : Nat → Nat → Nat
  tested : List (Nat × Nat × Bool)

/-- Null pointers, no thread in a trace point. Code: phosphor-internal.h:34-36. -/
def St.init : St := ⟨RegConc.St.init, fun _ => none, fun _ => .out, fun _ _ => 0, []⟩

/-- Thread `t` goes to `q`. Code: phosphor-internal.h:70-100. -/
def setPc (f : Nat → Pc) (t : Nat) (q : Pc) : Nat → Pc := fun u => if u = t then q else f u

/-- One step. Code: phosphor-internal.h:34-39, phosphor-internal.h:70-100. -/
inductive Step (cat : Nat → Str) : St → St → Prop
  /-- A step of the registry in which no thread leaves or enters a call it makes on behalf of a
  trace point: a thread outside trace points does anything, a thread in `looking` runs inside
  `getStatus`. -/
  | reg {s r'} : RegConc.Step s.reg r' →
      (∀ t, s.pc t ≠ .out → (s.reg.pc t = .idle ↔ r'.pc t = .idle)) →
      Step cat s { s with reg := r' }
  /-- enter trace point `p` and load its pointer (phosphor-internal.h:37-39), not null -/
  | enter {s t p i} : s.pc t = .out → s.reg.pc t = .idle → s.cache p = some i →
      Step cat s { s with pc := setPc s.pc t (.testing p i) }
  /-- enter trace point `p`, its pointer is null; call `getCategoryStatus` -/
  | enterFirst {s t p r'} : s.pc t = .out → s.reg.pc t = .idle → s.cache p = none →
      r' = s.reg.goto t (.scan1 (cat p) s.reg.count 0) → RegConc.Step s.reg r' →
      Step cat s { s with
        reg := r'
        pc := setPc s.pc t (.looking p)
        lookups := fun u q => if u = t ∧ q = p then s.lookups t p + 1 else s.lookups u q }
  /-- the call returns cell `i` -/
  | found {s t p i r'} : s.pc t = .looking p → s.reg.pc t ≠ .idle → r'.pc t = .idle →
      r'.results = (cat p, i) :: s.reg.results → RegConc.Step s.reg r' →
      Step cat s { s with reg := r', pc := setPc s.pc t (.storing p i) }
  /-- store the pointer -/
  | store {s t p i} : s.pc t = .storing p i →
      Step cat s { s with
        cache := fun q => if q = p then some i else s.cache q
        pc := setPc s.pc t (.testing p i) }
  /-- load the status and call `logEvent` if it is not Disabled -/
  | test {s t p i} : s.pc t = .testing p i →
      Step cat s { s with
        pc := setPc s.pc t .out
        tested := (p, i, s.reg.statuses i) :: s.tested }

/-- States reachable by any interleaving. Code: phosphor-internal.h:34-39,
phosphor-internal.h:70-100. -/
inductive Reachable (cat : Nat → Str) : St → Prop
  | init : Reachable cat St.init
  | step {s s'} : Reachable cat s → Step cat s s' → Reachable cat s'

end TpConc
end Phosphor
