import Verif.Model.TraceLogNew
import Verif.Model.TraceLogStats
import Verif.Model.CategoryRegistry
/-
The expectations of the library's own tests on the trace log, stated of the model and computed by the evaluator
(`#guard`). These are checks of the model against the authors' expectations, not proofs of properties.
-/
namespace Phosphor.Tests
open TLog

/-! ### Complete calls -/

/-- A call of a member function of `TraceLog` by a thread, or an expectation. -/
inductive Call
  | register (name : String)
  | deregister
  | start (cfg : TraceConfig)
  | stop (shutdown : Bool := false)
  | getBuffer
  | getTraceContext
  | log (e : Nat)
  /-- `while (isEnabled()) logEvent(e)` -/
  | logTillFull (e : Nat)
  | lock
  | unlock
  | expect (p : St Nat → Bool)

/-- What a stopped callback does. -/
abbrev Cb := List (Choice Nat)

/-- Thread `t` goes on until it is idle or, with `user`, in its own code again. Callbacks do `cb`. -/
def settle (cb : Cb) (user : Bool) : Nat → Nat → St Nat → Option (St Nat)
  | 0, _, _ => none
  | n + 1, t, s =>
    match s.pc t with
    | .idle => some s
    | .held .user stack =>
      if user && stack.isEmpty then some s
      else
        match s.run true id (cb.map (fun c => (t, c)) ++ [(t, .ret)]) with
        | .to s => settle cb user n t s
        | _ => none
    | _ =>
      match s.next true id t .step with
      | .to s => settle cb user n t s
      | _ => none

/-- A choice followed by what it leads to. -/
def perform (cb : Cb) (user : Bool) (t : Nat) (c : Choice Nat) (s : St Nat) : Option (St Nat) :=
  match s.next true id t c with
  | .to s => settle cb user 1000 t s
  | _ => none

/-- `f` under the lock. -/
def locked (cb : Cb) (t : Nat) (c : Choice Nat) (s : St Nat) : Option (St Nat) :=
  (perform cb true t .lock s).bind fun s => (perform cb true t c s).bind (perform cb false t .ret)

/-- `while (isEnabled()) logEvent(e)`. -/
def logLoop (cb : Cb) (t e : Nat) : Nat → St Nat → Option (St Nat)
  | 0, _ => none
  | n + 1, s => if s.enabled then (perform cb false t (.log e) s).bind (logLoop cb t e n) else some s

/-- All expectations are met, and nothing is undefined or blocks. -/
def logTest (cb : Cb) (s : St Nat) : List (Nat × Call) → Bool
  | [] => true
  | (t, c) :: cs =>
    let after : Option (St Nat) → Bool := fun o => match o with
      | some s => logTest cb s cs
      | none => false
    match c with
    | .register n => after (perform cb false t (.register n.toList) s)
    | .deregister => after (perform cb false t .deregister s)
    | .start cfg => after (locked cb t (.start cfg) s)
    | .stop sh => after (locked cb t (.stop sh) s)
    | .getBuffer => after (locked cb t .getBuffer s)
    | .getTraceContext => after (locked cb t .getTraceContext s)
    | .log e => after (perform cb false t (.log e) s)
    | .logTillFull e => after (logLoop cb t e 4000 s)
    | .lock => after (perform cb true t .lock s)
    | .unlock => after (perform cb false t .ret s)
    | .expect p => p s && logTest cb s cs

/-- `TraceConfig(mode, size)`. -/
def config (mode : BufferMode) (size : Nat) : TraceConfig := { mode, size, enabled := [['*']] }

/-- `start_basic`. -/
def basic : TraceConfig := config .fixed sizeofTraceChunk

def isEnabled (b : Bool) : Call := .expect fun s => s.enabled == b
def last (p : Item → Bool) : Call := .expect fun s => match s.hist with
  | i :: _ => p i
  | [] => false
def refused : Call := last (· == .refuse)

/-- A test that begins with the registration of its thread (trace_log_test.cc:63-69). -/
def fixtureTest (cs : List Call) (cb : Cb := []) : Bool :=
  logTest cb .init ((0, .register "") :: cs.map (fun c => (0, c)) ++ [(0, .deregister)])

/-! ### tests/module/trace_log_test.cc -/

-- smallBufferThrow, isEnabled (trace_log_test.cc:90-103)
#guard fixtureTest [.start (config .fixed 0), last (· == .reject), isEnabled false, .start basic, isEnabled true]
#guard fixtureTest [isEnabled false, .start basic, isEnabled true, .stop, isEnabled false]

-- multiStart (trace_log_test.cc:105-121)
#guard fixtureTest [.start (config .ring sizeofTraceChunk), isEnabled true,
  .expect fun s => s.config.toString == (config .ring sizeofTraceChunk).toString,
  .start (config .fixed (2 * sizeofTraceChunk)), isEnabled true,
  .expect fun s => s.config.toString == (config .fixed (2 * sizeofTraceChunk)).toString,
  .stop, isEnabled false, .stop, isEnabled false]

-- EnabledBufferGetThrow, EnabledContextGetThrow (trace_log_test.cc:123-137)
#guard fixtureTest [.getBuffer, last (· == .retrieve none), .start basic, .getBuffer, refused, .stop, .getBuffer,
  last (· == .retrieve (some 0))]
#guard fixtureTest [.getTraceContext, last (· == .retrieve none), .start basic, .getTraceContext, refused, .stop,
  .getTraceContext, last (· == .retrieve (some 0))]

-- bufferGenerationCheck (trace_log_test.cc:139-148)
#guard fixtureTest [.start basic, .stop, .getTraceContext, last (· == .retrieve (some 0)),
  .expect fun s => (s.heap 0).generation == 0, .start basic, .stop, .getTraceContext,
  last (· == .retrieve (some 1)), .expect fun s => (s.heap 1).generation == 1]

-- logTillFullAndEvenThen, logTillFullAndEvenThenButReload (trace_log_test.cc:150-171)
#guard fixtureTest [.start (config .fixed (4 * sizeofTraceChunk)), .logTillFull 7, .log 7, .log 7, .log 7,
  .expect fun s => (s.stored 0 0).length == 400]
#guard fixtureTest [.start (config .fixed (4 * sizeofTraceChunk)), .logTillFull 7,
  .start (config .fixed (4 * sizeofTraceChunk)), .logTillFull 7,
  .expect fun s => (s.stored 0 0).length == 400 && (s.stored 1 0).length == 400]

-- logTillFullThreaded (trace_log_test.cc:173-193), one thread after the other
#guard logTest [] .init ([(0, .register ""), (0, .start (config .fixed (32 * sizeofTraceChunk)))] ++
  ((List.range 8).flatMap fun i => [(i + 1, .register ""), (i + 1, .log 7), (i + 1, .log 8)]) ++
  ((List.range 8).flatMap fun i => [(i + 1, .log 9)]) ++
  [(1, .logTillFull 7)] ++ ((List.range 8).map fun i => (i + 1, .deregister)) ++ [(0, isEnabled false), (0, .deregister)])

-- StopRestartVerify (trace_log_test.cc:195-224): the first event of the second run is 2
#guard fixtureTest [.start basic, .log 1, .stop, .start basic, .log 2, .stop, .getTraceContext,
  last (· == .retrieve (some 1)), .expect fun s => match (s.heap 1).iterate 10 with
    | some (.ok l) => l == [(2, 0)]
    | _ => false]

-- registerDeRegister, registerDeRegisterWithChunk (trace_log_test.cc:251-274)
#guard logTest [] .init [(0, .start basic), (0, .deregister), (0, last (· == .deregRefused 0)), (0, .register ""),
  (0, last (· == .regOk 0 [])), (0, .register ""), (0, last (· == .regRefused 0)), (0, .deregister),
  (0, last (· == .deregOk 0))]
#guard logTest [] .init [(0, .start basic), (0, .register ""), (0, .log 1), (0, .deregister),
  (0, last (· == .deregOk 0))]

-- registerSomeThreads (trace_log_test.cc:279-303)
#guard logTest [] .init [(0, .start (config .fixed (2 * sizeofTraceChunk))), (1, .log 1), (2, .register "second"),
  (2, .log 2), (2, .deregister), (0, .stop), (0, .getTraceContext), (0, .expect fun s =>
    match (s.heap 0).iterate 10 with
    | some (.ok l) => l == [(2, 2)]
    | _ => false)]

-- noExplicitRegisterWithChunk (trace_log_test.cc:311-332)
#guard logTest [] .init ([(0, .start (config .ring (32 * sizeofTraceChunk)))] ++
  ((List.range 32).map fun i => (i + 1, .log 7)) ++ [(0, .stop), (0, .expect fun s => (s.heap 0).chunkCount == 0)])

-- testDoneCallback (trace_log_test.cc:334-355): the callback retrieves the buffer
#guard fixtureTest (cb := [.getTraceContext])
  [.start { config .fixed (4 * sizeofTraceChunk) with callback := some (.user 1) }, .logTillFull 7,
   .expect (fun s => s.hist.contains (.call (.user 1)) && s.hist.contains (.retrieve (some 0))), .getTraceContext,
   last (· == .retrieve none)]

-- nonBlockingStop (trace_log_test.cc:357-385), with a buffer whose only chunk is on loan to another thread
#guard logTest [] .init [(0, .register ""), (2, .register ""), (0, .start basic), (2, .log 1),
  (1, .lock), (0, .log 2), (0, isEnabled true), (1, .unlock), (0, .log 3), (0, isEnabled false)]

-- FromEnvironmentConstructor (trace_log_test.cc:396-400)
#guard match (St.construct id (some "buffer-mode:fixed;buffer-size:80000".toList) : Res (St Nat)) with
  | .ok s => s.enabled
  | _ => false
#guard match (St.construct id (some []) : Res (St Nat)) with
  | .ok s => !s.enabled
  | _ => false

-- stopOnDestruct (trace_log_test.cc:409-428): the destructor stops with `shutdown`
#guard logTest [] .init [(0, .start { config .fixed 80000 with callback := some (.user 1), stopTracing := true }),
  (0, .stop true), (0, .expect fun s => s.hist.contains (.call (.user 1)))]
#guard logTest [] .init [(0, .start { config .fixed 80000 with callback := some (.user 1) }),
  (0, .stop true), (0, .expect fun s => !s.hist.contains (.call (.user 1)))]

/-- The name of the thread in the context handed out last. -/
def contextName (n : Option String) : Call := .expect fun s => match s.contexts with
  | (_, names) :: _ => names 0 == n.map (·.toList)
  | [] => false

-- RegisterDeregisterRegister (trace_log_test.cc:430-472)
#guard fixtureTest [.deregister, .register "name1", .getTraceContext, contextName (some "name1"),
  .deregister, .getTraceContext, contextName none,
  .register "name1", .start basic, .deregister, .stop, .getTraceContext, contextName (some "name1"),
  .register "name2", .getTraceContext, contextName (some "name2"),
  .start basic, .deregister, .stop, .getTraceContext, contextName (some "name2"),
  .start basic, .stop, .getTraceContext, contextName none, .register ""]

/-- Which stats of a name there are. -/
def stat (s : St Nat) (n : String) : List Buffer.StatVal :=
  ((s.getStats Registry.init.count 0).filter fun p => p.1 == n.toList).map (·.2)

-- StatsTest (trace_log_test.cc:474-507)
#guard fixtureTest [.expect (fun s => stat s "log_has_buffer" == [.bool false] && stat s "log_is_enabled" == [.bool false] &&
    stat s "log_thread_names" == [.num 0] && stat s "log_deregistered_threads" == [.num 0] &&
    stat s "registry_group_count" == [.num 3] && (stat s "log_registered_tenants").length == 1),
  .start basic, .expect (fun s => stat s "log_has_buffer" == [.bool true] && stat s "log_is_enabled" == [.bool true] &&
    (stat s "buffer_name").length == 1)]

end Phosphor.Tests
