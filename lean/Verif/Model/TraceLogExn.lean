import Verif.Model.ConfigObject
import Verif.Model.Export
/-
src/trace_log.cc once more, for one thread, with exceptions: where they come from (stopped
callbacks, buffer factories, the checks of the log itself), where they go, and what the log looks
like afterwards. Unlike Model/TraceLog this has user factories, failing allocations and the file
saving callback.

Simplifications: stopped callbacks of the user do not start tracing (Model/TraceLog has those); the
category registry is represented by the categories in force; the file saving callback finishes
(C30).
-/
namespace Phosphor.Exc

/-- An exception: one of the library's own, `std::bad_alloc`, or one of the user's. Code:
trace_log.cc:107-111, export.cc:134-141, dyn_array.h:362-369. -/
inductive X
  | lib (e : Exn)
  | badAlloc
  | user (n : Nat)
  deriving DecidableEq, Repr

/-- How a call ends. Code: trace_log.cc:46-149. -/
inductive Ret
  | ret
  | raise (x : X)
  /-- `std::terminate`: an exception left a destructor -/
  | terminate
  | ub
  /-- waits for ever -/
  | hang
  deriving DecidableEq, Repr

/-- What a buffer factory does. Code: trace_buffer.h:385-386, trace_log.cc:117. -/
inductive Made
  | buffer (b : Buffer Event)
  | null
  | raises (x : X)

/-- What a stopped callback of the user does to the log, in order. Code: trace_log.h:89-190. -/
inductive Op
  | getBuffer
  | getTraceContext
  | stop (shutdown : Bool)
  deriving DecidableEq, Repr

/-- The environment: process id, files, what user callbacks do and whether they raise an exception
in the end, whether the library's factories find memory, and the user's factories. Code:
trace_config.h:52-58, trace_buffer.h:385-386. -/
structure Env where
  pid : Int
  file : FileEnv
  callback : Nat → List Op × Option X
  memory : Nat → Bool
  factory : Nat → Nat → Nat → Made

/-- The log and the `ChunkTenant` of the thread. `locked`: the thread holds the mutex; `inForce`:
the categories last given to the registry, `none` after `disableAll`; `chunk` is an index into
`buffer`. Code: trace_log.h:321-380, chunk_lock.h:158-193. -/
structure Log where
  config : Cfg.Obj
  enabled : Bool
  locked : Bool
  buffer : Option (Buffer Event)
  generation : Nat
  inForce : Option (List Str × List Str)
  names : List (Nat × Str)
  tid : Nat
  initialised : Bool
  chunk : Option Nat

/-- A log constructed without start-up trace. Code: trace_log.cc:38-41. -/
def Log.new (tid : Nat) : Log where
  config := Cfg.Obj.new
  enabled := false
  locked := false
  buffer := none
  generation := 0
  inForce := none
  names := []
  tid
  initialised := false
  chunk := none

/-- `getBuffer(lh)`, and `getTraceContext(lh)` as far as the buffer goes: raise, or move the buffer
out (trace_log.cc:161-182). -/
def Log.takeBuffer (l : Log) : Log × Ret :=
  if l.enabled then (l, .raise (.lib .logicError)) else ({ l with buffer := none }, .ret)

/-- `stop(lh, shutdown)` called by a callback: tracing is not enabled there, so nothing happens
(trace_log.cc:85-86). -/
def Log.doOp (l : Log) : Op → Log × Ret
  | .getBuffer => l.takeBuffer
  | .getTraceContext => l.takeBuffer
  | .stop _ => (l, .ret)

/-- The body of a user callback: its operations, until one raises. Code: trace_log.cc:92. -/
def Log.doOps (l : Log) : List Op → Log × Ret
  | [] => (l, .ret)
  | o :: os =>
    match l.doOp o with
    | (l, .ret) => l.doOps os
    | r => r

/-- The outcome of `FileStopCallback::operator()` as an outcome of the call. The bound on the
rounds is one more than the file could need. Code: export.cc:130-155. -/
def saveOutcome (env : Env) (ctx : TraceContext) (fuel : Nat) : Ret :=
  match fileStop env.pid env.file fuel ctx with
  | none => .hang
  | some (.ok _, _) => .ret
  | some (.throw e, _) => .raise (.lib e)
  | some (.ub, _) => .ub

/-- `(*cb)(*this, lh)` (trace_log.cc:92). The file saving callback first opens the file and then
moves the buffer into its `TraceContext` (export.cc:132-143), with which it is destroyed. -/
def Log.runCallback (env : Env) (fuel : Nat) (l : Log) : Callback → Log × Ret
  | .user n =>
    match l.doOps (env.callback n).1 with
    | (l, .ret) =>
      match (env.callback n).2 with
      | none => (l, .ret)
      | some x => (l, .raise x)
    | r => r
  | .file _ =>
    if env.file.canOpen then
      ({ l with buffer := none }, saveOutcome env ⟨l.buffer, l.names⟩ fuel)
    else (l, .raise (.lib .systemError))

/-- The callback to be called by `stop` (trace_log.cc:89-91). -/
def callbackDue (c : Cfg.Obj) (shutdown : Bool) : Option Callback :=
  match c.getStoppedCallback with
  | none => none
  | some cb => if !shutdown || c.getStopTracingOnDestruct then some cb else none

/-- `stop(lh, shutdown)` (trace_log.cc:85-95); `evictThreads` takes the chunk away from every
registered thread (trace_log.cc:311-317). -/
def Log.stopLh (env : Env) (fuel : Nat) (l : Log) (shutdown : Bool) : Log × Ret :=
  if l.enabled then
    let l := { l with
      enabled := false
      inForce := none
      chunk := if l.initialised then none else l.chunk }
    match callbackDue l.config shutdown with
    | none => (l, .ret)
    | some cb => l.runCallback env fuel cb
  else (l, .ret)

/-- The factories: `make_fixed_buffer` and `make_ring_buffer` (trace_buffer.cc:184-187, 313-316)
fail when there is no memory; user factories do as they like. -/
def make (env : Env) (f : Cfg.Factory) (generation chunks : Nat) : Made :=
  match f with
  | .makeFixed => if env.memory chunks then .buffer (.makeFixed generation chunks) else .raises .badAlloc
  | .makeRing => if env.memory chunks then .buffer (.makeRing generation chunks) else .raises .badAlloc
  | .user id => env.factory id generation chunks

/-- `start(lh, config)` (trace_log.cc:102-122). `generation++` happens before the factory is called;
the assignment to `buffer` only after it has returned. -/
def Log.startLh (env : Env) (fuel : Nat) (l : Log) (cfg : Cfg.Obj) : Log × Ret :=
  let l := { l with config := cfg }
  if cfg.getBufferSize / sizeofTraceChunk = 0 then (l, .raise (.lib .invalidArgument))
  else
    match (if l.enabled then l.stopLh env fuel false else (l, .ret)) with
    | (l, .ret) =>
      let g := l.generation
      let l := { l with generation := g + 1 }
      match make env l.config.getBufferFactory g (cfg.getBufferSize / sizeofTraceChunk) with
      | .raises x => (l, .raise x)
      | .null => ({ l with
          buffer := none
          inForce := some (l.config.getEnabledCategories, l.config.getDisabledCategories)
          enabled := true }, .ret)
      | .buffer b => ({ l with
          buffer := some b
          inForce := some (l.config.getEnabledCategories, l.config.getDisabledCategories)
          enabled := true }, .ret)
    | r => r

/-- A body run under `std::lock_guard<TraceLog> lh(*this)`: the mutex is released when the scope is
left, also by an exception. Locking a `std::mutex` the thread owns is undefined. Code:
trace_log.cc:64, trace_log.cc:98. -/
def Log.guarded (l : Log) (body : Log → Log × Ret) : Log × Ret :=
  if l.locked then (l, .ub)
  else
    match body { l with locked := true } with
    | (l, r) => ({ l with locked := false }, r)

/-- `stop(shutdown)` (trace_log.cc:63-66). -/
def Log.stop (env : Env) (fuel : Nat) (l : Log) (shutdown : Bool) : Log × Ret :=
  l.guarded (·.stopLh env fuel shutdown)

/-- `start(config)` (trace_log.cc:97-100). -/
def Log.start (env : Env) (fuel : Nat) (l : Log) (cfg : Cfg.Obj) : Log × Ret :=
  l.guarded (·.startLh env fuel cfg)

/-- `getBuffer()` (trace_log.cc:156-159), `getTraceContext()` (170-173). -/
def Log.getBuffer (l : Log) : Log × Ret := l.guarded (·.takeBuffer)

/-- `maybe_stop` (trace_log.cc:68-83); the mutex is adopted by a `lock_guard`. -/
def Log.maybeStop (env : Env) (fuel : Nat) (l : Log) (g : Nat) : Log × Ret :=
  l.guarded fun l => if l.generation ≠ g then (l, .ret) else l.stopLh env fuel false

/-- Whether the thread needs another chunk: `!chunk || chunk->isFull()` (trace_log.cc:285). -/
def Log.needsChunk (l : Log) : Res Bool :=
  match l.chunk with
  | none => .ok true
  | some i =>
    match l.buffer with
    | none => .ub
    | some b =>
      match b.chunkAt i with
      | .ok c => .ok c.isFull
      | .throw e => .throw e
      | .ub => .ub

/-- Result of `replaceChunk`. Code: trace_log.cc:303-309. -/
inductive Got
  | yes
  | no
  /-- undefined, or waiting for ever for a chunk of a ring -/
  | fails (r : Ret)

/-- `replaceChunk` (trace_log.cc:303-309): the chunk goes back, and if tracing is enabled and there
is a buffer, another is asked for. -/
def Log.replaceChunk (l : Log) : Log × Got :=
  let returned : Option Log :=
    match l.chunk with
    | none => some l
    | some i =>
      match l.buffer with
      | none => none
      | some b => some { l with buffer := some (b.returnChunk i), chunk := none }
  match returned with
  | none => (l, .fails .ub)
  | some l =>
    if l.enabled then
      match l.buffer with
      | none => (l, .no)
      | some b =>
        match b.getChunk l.tid with
        | (b, .chunk i) => ({ l with buffer := some b, chunk := some i }, .yes)
        | (b, .null) => ({ l with buffer := some b }, .no)
        | (b, .spins) => ({ l with buffer := some b }, .fails .hang)
    else (l, .no)

/-- `cl.mutex()->chunk->addEvent() = …` (trace_log.cc:132, 146-147). -/
def Log.store (l : Log) (e : Event) : Log × Ret :=
  match l.chunk, l.buffer with
  | some i, some b =>
    match b.pushAt i e with
    | (b, .ok ()) => ({ l with buffer := some b }, .ret)
    | (b, .throw x) => ({ l with buffer := some b }, .raise (.lib x))
    | (b, .ub) => ({ l with buffer := some b }, .ub)
  | _, _ => (l, .ub)

/-- `logEvent` (trace_log.cc:124-149) with `getChunkTenant` (256-301). -/
def Log.logEvent (env : Env) (fuel : Nat) (l : Log) (e : Event) : Log × Ret :=
  if l.enabled then
    if l.initialised then
      match l.needsChunk with
      | .ok false => l.store e
      | .ok true =>
        match l.replaceChunk with
        | (l, .yes) => l.store e
        | (l, .no) => l.maybeStop env fuel l.generation
        | (l, .fails r) => (l, r)
      | .throw x => (l, .raise (.lib x))
      | .ub => (l, .ub)
    else (l, .ret)
  else (l, .ret)

/-- `registerThread("")` (trace_log.cc:188-199). -/
def Log.register (l : Log) : Log × Ret :=
  l.guarded fun l =>
    if l.initialised then (l, .raise (.lib .logicError)) else ({ l with initialised := true }, .ret)

/-- `deregisterThread` (trace_log.cc:211-227). -/
def Log.deregister (l : Log) : Log × Ret :=
  l.guarded fun l =>
    if l.initialised then
      let l :=
        match l.chunk, l.buffer with
        | some i, some b => { l with buffer := some (b.returnChunk i) }
        | _, _ => l
      ({ l with chunk := none, initialised := false }, .ret)
    else (l, .raise (.lib .logicError))

/-- Destructors are `noexcept`: an exception leaving one ends the program. Code: trace_log.cc:46-48,
scoped_event_guard.h:39-45. -/
def noexcept : Log × Ret → Log × Ret
  | (l, .raise _) => (l, .terminate)
  | r => r

/-- `~TraceLog` (trace_log.cc:46-48). -/
def Log.destroy (env : Env) (fuel : Nat) (l : Log) : Log × Ret := noexcept (l.stop env fuel true)

/-- `~ScopedEventGuard` of an enabled trace point: it logs the event `e`
(scoped_event_guard.h:39-45). -/
def Log.leaveScope (env : Env) (fuel : Nat) (l : Log) (e : Event) : Log × Ret :=
  noexcept (l.logEvent env fuel e)

/-- A call of the public interface. Code: trace_log.h:60-262. -/
inductive Call
  | start (cfg : Cfg.Obj)
  | stop (shutdown : Bool)
  | log (e : Event)
  | getBuffer
  | register
  | deregister

/-- The effect of a call. Code: trace_log.cc:63-234. -/
def Log.call (env : Env) (fuel : Nat) (l : Log) : Call → Log × Ret
  | .start cfg => l.start env fuel cfg
  | .stop shutdown => l.stop env fuel shutdown
  | .log e => l.logEvent env fuel e
  | .getBuffer => l.getBuffer
  | .register => l.register
  | .deregister => l.deregister

/-- A sequence of calls by code that catches every exception; it ends early only where nothing can
follow. The environment may change from call to call. Code: trace_log.cc:63-234. -/
def Log.calls (l : Log) : List (Env × Nat × Call) → Option Log
  | [] => some l
  | (env, fuel, c) :: cs =>
    match l.call env fuel c with
    | (l, .ret) => l.calls cs
    | (l, .raise _) => l.calls cs
    | _ => none

end Phosphor.Exc
