import Verif.Model.TraceEvent
/-
Model of include/phosphor/scoped_event_guard.h and of the scope macros of
include/phosphor/phosphor.h that use it. What a guard does to the outside is a list of actions:
clock readings, operations on the mutex, and calls of `TraceLog::logEvent`.
Times are nanoseconds of `steady_clock`, a signed 64-bit count; arithmetic that leaves this
range is undefined behaviour.
Simplification: `logEvent` does not throw (in a destructor that would end the program).
-/
namespace Phosphor

/-- An externally visible action. Code: scoped_event_guard.h:39-45, scoped_event_guard.h:74-115. -/
inductive Act
  /-- `std::chrono::steady_clock::now()` returned `t` -/
  | now (t : Int)
  /-- `mutex.lock()` returned -/
  | lock (m : BitVec 64)
  /-- `mutex.lock()` threw -/
  | lockFailed (m : BitVec 64)
  /-- `mutex.unlock()` -/
  | unlock (m : BitVec 64)
  /-- `logEvent(tpi, start, duration, argA, argB)` -/
  | log (tpi : TracepointInfo) (start duration : Int) (argA argB : TraceArg)
  /-- anything else the program does inside a scope -/
  | other (n : Nat)
  deriving DecidableEq, Repr

/-- The clock (value of the i-th reading), the number of readings so far, and the actions so
far, oldest first. Code: scoped_event_guard.h:34-35. -/
structure World where
  clock : Nat → Int
  reads : Nat
  acts : List Act

/-- `steady_clock::now()`. Code: scoped_event_guard.h:35, scoped_event_guard.h:41. -/
def World.now (w : World) : Int × World :=
  (w.clock w.reads, { w with reads := w.reads + 1, acts := w.acts ++ [.now (w.clock w.reads)] })

/-- Any other action. Code: scoped_event_guard.h:39-45, scoped_event_guard.h:95-115. -/
def World.act (w : World) (a : Act) : World := { w with acts := w.acts ++ [a] }

/-- Difference of two time points: subtraction of `int64_t`. Code: scoped_event_guard.h:41-43,
scoped_event_guard.h:97-113. -/
def durSub (a b : Int) : Res Int :=
  if -2 ^ 63 ≤ a - b ∧ a - b < 2 ^ 63 then .ok (a - b) else .ub

/-- `ScopedEventGuard` (scoped_event_guard.h:47-51). A default-constructed time point is 0. -/
structure ScopedGuard where
  tpi : TracepointInfo
  enabled : Bool
  arg1 : CVal
  arg2 : CVal
  start : Int

/-- Constructor (scoped_event_guard.h:29-37). -/
def ScopedGuard.ctor (tpi : TracepointInfo) (enabled : Bool) (arg1 arg2 : CVal) (w : World) :
    ScopedGuard × World :=
  if enabled then
    let (t, w) := w.now
    ({ tpi, enabled, arg1, arg2, start := t }, w)
  else ({ tpi, enabled, arg1, arg2, start := 0 }, w)

/-- Destructor (scoped_event_guard.h:39-45). -/
def ScopedGuard.dtor (g : ScopedGuard) (w : World) : Res World :=
  if g.enabled then do
    let (t, w) := w.now
    let d ← durSub t g.start
    .ok (w.act (.log g.tpi g.start d g.arg1.asArgument g.arg2.asArgument))
  else .ok w

/-- `MutexEventGuard` (scoped_event_guard.h:118-125); the mutex is its address. -/
structure MutexGuard where
  tpiWait : TracepointInfo
  tpiHeld : TracepointInfo
  enabled : Bool
  mutex : BitVec 64
  threshold : Int
  start : Int
  lockedAt : Int

/-- Constructor (scoped_event_guard.h:74-92). `lockOk`: whether `mutex.lock()` returns; if it
throws, so does the constructor, and there is no guard to destroy. -/
def MutexGuard.ctor (tpiWait tpiHeld : TracepointInfo) (enabled : Bool) (mutex : BitVec 64)
    (threshold : Int) (lockOk : Bool) (w : World) : Option MutexGuard × World :=
  if enabled then
    let (t0, w) := w.now
    if lockOk then
      let w := w.act (.lock mutex)
      let (t1, w) := w.now
      (some { tpiWait, tpiHeld, enabled, mutex, threshold, start := t0, lockedAt := t1 }, w)
    else (none, w.act (.lockFailed mutex))
  else if lockOk then
    (some { tpiWait, tpiHeld, enabled, mutex, threshold, start := 0, lockedAt := 0 },
      w.act (.lock mutex))
  else (none, w.act (.lockFailed mutex))

/-- Destructor (scoped_event_guard.h:95-115). -/
def MutexGuard.dtor (g : MutexGuard) (w : World) : Res World :=
  let w := w.act (.unlock g.mutex)
  if g.enabled then do
    let (t2, w) := w.now
    let waitTime ← durSub g.lockedAt g.start
    let heldTime ← durSub t2 g.lockedAt
    if waitTime > g.threshold ∨ heldTime > g.threshold then
      let w := w.act (.log g.tpiWait g.start waitTime (CVal.ptr g.mutex).asArgument CVal.none.asArgument)
      .ok (w.act (.log g.tpiHeld g.lockedAt heldTime (CVal.ptr g.mutex).asArgument CVal.none.asArgument))
    else .ok w
  else .ok w

/-! ### The macros that create guards -/

/-- The `tracepoint_info` of `TRACE_EVENT2` (phosphor.h:206-215); `TRACE_EVENT0` and
`TRACE_EVENT1` (phosphor.h:168-177, 187-196) are the cases where the missing arguments have
the name "" and the type `NoneType`. -/
def traceEventTpi (category name : Str) (n1 : Str) (a1 : CVal) (n2 : Str) (a2 : CVal) :
    TracepointInfo where
  category
  name
  type := .complete
  argNames := (some n1, some n2)
  argTypes := (a1.getType, a2.getType)

/-- `tpi_wait` of `TRACE_LOCKGUARD` and `TRACE_LOCKGUARD_TIMED` (phosphor.h:274-281,
301-308). -/
def lockWaitTpi (category name : Str) : TracepointInfo where
  category
  name := name ++ ".wait".toList
  type := .complete
  argNames := (some "this".toList, some [])
  argTypes := (.isPointer, .isNone)

/-- `tpi_held` of `TRACE_LOCKGUARD` and `TRACE_LOCKGUARD_TIMED` (phosphor.h:282-289,
309-316). -/
def lockHeldTpi (category name : Str) : TracepointInfo where
  category
  name := name ++ ".held".toList
  type := .complete
  argNames := (some [], some [])
  argTypes := (.isPointer, .isNone)

/-- A block containing one scoped guard around `body` (the guard lives until the end of the
block). Code: phosphor.h:168-216. -/
def inScope (tpi : TracepointInfo) (enabled : Bool) (a1 a2 : CVal) (body : World → Res World)
    (w : World) : Res World := do
  let (g, w) := ScopedGuard.ctor tpi enabled a1 a2 w
  let w ← body w
  g.dtor w

/-- A block whose first statement is a lock guard, around `body`; when locking throws, the
rest of the block does not run. Code: phosphor.h:272-325. -/
def guarded (tpiWait tpiHeld : TracepointInfo) (enabled : Bool) (mutex : BitVec 64)
    (threshold : Int) (lockOk : Bool) (body : World → Res World) (w : World) : Res World :=
  match MutexGuard.ctor tpiWait tpiHeld enabled mutex threshold lockOk w with
  | (some g, w) => do
    let w ← body w
    g.dtor w
  | (none, w) => .ok w

end Phosphor
