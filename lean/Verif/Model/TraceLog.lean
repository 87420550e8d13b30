import Verif.Model.TraceBuffer
import Verif.Model.TraceConfig
import Verif.Model.ChunkLock
/-
Model of src/trace_log.cc: one TraceLog used by any number of threads. One step is one access
to shared memory (or one operation of a component verified on its own: a `ChunkLock` round,
C23/C24; `getChunk`/`returnChunk` of a buffer, C17/C18). Sequentially consistent memory.

Simplifications:
* A thread does not log events while it holds the log's mutex (a `std::mutex` must not be
  `try_lock`ed by its owner, which `maybe_stop` would do).
* The stopped callback and any code run under `lock()` is arbitrary: the thread may perform
  any sequence of the operations that take a `lock_guard<TraceLog>&`.
* Buffers are made by the two factories of the library, not by user factories.
* The category registry is not part of this state (C06–C10, C51); Model/Whole joins the two (C80).
* Thread-local storage outlives the model (threads do not end; Model/ThreadEnd adds that they do).
-/
namespace Phosphor.TLog

/-- Who owns a buffer: nobody yet, the log (`buffer`), the user who retrieved it, or nobody
any more because it was destroyed. Code: trace_log.h:353, trace_log.cc:117, trace_log.cc:167,
trace_log.cc:181. -/
inductive Status
  | unborn | inLog | handed | freed
  deriving DecidableEq, Repr

/-- What remains to be done after a `stop(lh)` or `start(lh, …)` under the mutex. Code:
trace_log.cc:50-83, trace_log.cc:97-122. -/
inductive Frame
  /-- return to the code that called it -/
  | resumeUser
  /-- `start`, which asked for `chunks` chunks, continues after its `stop(lh)`
  (trace_log.cc:106, 113-115) -/
  | finishStart (chunks : Nat)
  deriving DecidableEq, Repr

/-- The number of unfinished `start` calls. Code: trace_log.cc:102-122. -/
def finishing : List Frame → Nat
  | [] => 0
  | .resumeUser :: st => finishing st
  | .finishStart _ :: st => finishing st + 1

/-- What a thread holding the mutex is doing. Code: trace_log.cc:50-122, trace_log.cc:156-234. -/
inductive Work
  /-- user code: under `lock()`, or a stopped callback -/
  | user
  /-- `evictThreads` (trace_log.cc:311-317): tenants still to be evicted; `[]`: about to decide
  about the callback (trace_log.cc:89-93) -/
  | evict (rest : List Nat) (shutdown : Bool)
  /-- holding the master lock of `u`, about to clear its chunk (trace_log.cc:314) -/
  | evictClear (u : Nat) (rest : List Nat) (shutdown : Bool)
  /-- about to release the master lock of `u` (trace_log.cc:315) -/
  | evictUnlock (u : Nat) (rest : List Nat) (shutdown : Bool)
  /-- about to create the buffer with `chunks` chunks (trace_log.cc:117) -/
  | startCreate (chunks : Nat)
  /-- about to do trace_log.cc:118-121 -/
  | startEnable
  deriving DecidableEq, Repr

/-- Program counter of a thread. Code: trace_log.cc:38-317. -/
inductive Pc (ε : Type)
  | idle
  /-- `logEvent`: `if (!enabled)` (trace_log.cc:127, 141) -/
  | readEnabled (e : ε)
  /-- `unique_lock cl{thread_chunk, try_to_lock}` (257) -/
  | tryLock (e : ε)
  /-- `if (!thread_chunk.initialised)` (281) -/
  | checkInit (e : ε)
  /-- `!thread_chunk.chunk || thread_chunk.chunk->isFull()` (285) -/
  | checkChunk (e : ε)
  /-- `if (!enabled)` (288) -/
  | recheck (e : ε)
  /-- `buffer` in `buffer->returnChunk(*ct.chunk)` (305) -/
  | retLoad (e : ε)
  /-- the call of `returnChunk` on `p` and line 306 -/
  | retDo (e : ε) (p : Nat)
  /-- `enabled &&` (308) -/
  | getCheck (e : ε)
  /-- `buffer &&` (308) -/
  | getNull (e : ε)
  /-- `buffer` in `buffer->getChunk()` (308) -/
  | getLoad (e : ε)
  /-- the call of `getChunk` on `p` -/
  | getDo (e : ε) (p : Nat)
  /-- in the `dequeue` loop of `RingTraceBuffer::getChunk` -/
  | getWait (e : ε) (p : Nat)
  /-- `size_t current = generation` (293); `full` (history): the buffer that had no chunk -/
  | failed (full : Option Nat)
  /-- `cl.unlock()` (294) -/
  | failUnlock (full : Option Nat) (g : Nat)
  /-- `mutex.try_lock()` (72) -/
  | tryMutex (full : Option Nat) (g : Nat)
  /-- `if (generation != _generation)` (77) and the exchange in `stop` (86) -/
  | compare (full : Option Nat) (g : Nat)
  /-- `cl.mutex()->chunk->addEvent() = …` (132, 146-147) -/
  | store (e : ε)
  /-- destructor of `cl` -/
  | unlock
  /-- body of `registerThread` (188-209) -/
  | regBody (name : Str)
  /-- body of `deregisterThread` (211-234) -/
  | deregBody
  /-- about to release the mutex -/
  | release
  | held (w : Work) (stack : List Frame)
  deriving DecidableEq, Repr

/-- `ChunkTenant` (chunk_lock.h:158-193): thread-local. `chunk` is a pointer into
a buffer: (buffer, index). -/
structure Tenant where
  lock : ChunkLock.State
  initialised : Bool
  chunk : Option (Nat × Nat)
  deriving DecidableEq, Repr

/-- What happened (history, newest first). Code: trace_log.cc:38-317. -/
inductive Item
  /-- `enabled.exchange(false)` returned true; `full`: in `maybe_stop`, for this buffer -/
  | stop (shutdown : Bool) (full : Option (Option Nat))
  | call (cb : Callback)
  | noCall
  /-- a run began with buffer `b` -/
  | run (b : Nat) (cfg : TraceConfig)
  /-- `start` was called: `trace_config` is assigned -/
  | configure (cfg : TraceConfig)
  /-- `start` raised `invalid_argument` -/
  | reject
  | retrieve (b : Option Nat)
  /-- `getBuffer`/`getTraceContext` raised `logic_error` -/
  | refuse
  | regOk (t : Nat) (name : Str)
  | regRefused (t : Nat)
  | deregOk (t : Nat)
  | deregRefused (t : Nat)
  deriving DecidableEq, Repr

/-- The log (trace_log.h, `protected` members), the buffers, the tenants and the threads. Code:
trace_log.h:321-380. -/
structure St (ε : Type) where
  config : TraceConfig
  enabled : Bool
  owner : Option Nat
  buffer : Option Nat
  generation : Nat
  registered : List Nat
  names : Nat → Option Str
  dereg : List Nat
  heap : Nat → Buffer ε
  status : Nat → Status
  nextBuf : Nat
  tenant : Nat → Tenant
  pc : Nat → Pc ε
  /-- history: what each chunk handed out contains: owner and events -/
  contents : Nat → List (Nat × List ε)
  /-- history: the events each thread stored into each buffer, oldest first -/
  stored : Nat → Nat → List ε
  hist : List Item
  /-- history: the contexts handed out: buffer and thread names -/
  contexts : List (Option Nat × (Nat → Option Str))

/-- Nondeterministic choices. Code: trace_log.h:60-262. -/
inductive Choice (ε : Type)
  /-- go on -/
  | step
  /-- go on, but a weak compare-exchange or `try_lock` fails spuriously -/
  | spurious
  /-- call `logEvent` -/
  | log (e : ε)
  /-- call `lock()`, directly or in one of the functions that take the lock -/
  | lock
  | register (name : Str)
  | deregister
  /-- the user destroys a retrieved buffer -/
  | free (b : Nat)
  /-- `start(lh, cfg)` -/
  | start (cfg : TraceConfig)
  /-- `stop(lh, shutdown)` -/
  | stop (shutdown : Bool)
  | getBuffer
  | getTraceContext
  /-- return from the callback, or `unlock()` -/
  | ret
  /-- leave the callback by an exception -/
  | throw
  deriving DecidableEq, Repr

/-- Result of a step. Code: trace_log.cc:38-317. -/
inductive Out (σ : Type)
  /-- not possible (now) -/
  | blocked
  /-- undefined behaviour, or an exception leaving `logEvent` -/
  | ub
  | to (s : σ)

/-- Default constructed log without start-up trace (trace_log.cc:38-44). -/
def St.init {ε : Type} : St ε where
  config := { mode := .fixed, size := 0 }
  enabled := false
  owner := none
  buffer := none
  generation := 0
  registered := []
  names := fun _ => none
  dereg := []
  heap := fun _ => Buffer.makeFixed 0 0
  status := fun _ => .unborn
  nextBuf := 0
  tenant := fun _ => { lock := .unlocked, initialised := false, chunk := none }
  pc := fun _ => .idle
  contents := fun _ => []
  stored := fun _ _ => []
  hist := []
  contexts := []

section
variable {ε : Type}

/-- Thread `t` is outside every call. Code: trace_log.cc:38-317. -/
def St.isIdle (s : St ε) (t : Nat) : Bool :=
  match s.pc t with
  | .idle => true
  | _ => false

/-- `s` with thread `t` at `p`. Code: trace_log.cc:38-317. -/
def St.goto (s : St ε) (t : Nat) (p : Pc ε) : St ε := { s with pc := setf s.pc t p }

/-- Writes to the tenant of `u`. Code: chunk_lock.h:184, trace_log.cc:257, trace_log.cc:313-315. -/
def St.setLock (s : St ε) (u : Nat) (l : ChunkLock.State) : St ε :=
  { s with tenant := setf s.tenant u { s.tenant u with lock := l } }

/-- Writes to `chunk` of the tenant of `u`. Code: chunk_lock.h:185, trace_log.cc:224,
trace_log.cc:306-308, trace_log.cc:314. -/
def St.setChunk (s : St ε) (u : Nat) (c : Option (Nat × Nat)) : St ε :=
  { s with tenant := setf s.tenant u { s.tenant u with chunk := c } }

/-- Writes to buffer `b`. Code: trace_log.cc:132, trace_log.cc:222, trace_log.cc:305-308. -/
def St.setBuf (s : St ε) (b : Nat) (x : Buffer ε) : St ε := { s with heap := setf s.heap b x }

/-- The memory of buffer `b` exists. Code: trace_log.h:353. -/
def St.mapped (s : St ε) (b : Nat) : Bool :=
  decide (s.status b = .inLog ∨ s.status b = .handed)

/-- A stop, or a start, is over: continue with what is on the stack. Code: trace_log.cc:85-122. -/
def St.pop (s : St ε) (t : Nat) : List Frame → St ε
  | [] => s.goto t .release
  | .resumeUser :: st => s.goto t (.held .user st)
  | .finishStart n :: st => s.goto t (.held (.startCreate n) st)

/-- An exception leaves `stop` (and the `start` that called it). Code: trace_log.cc:85-122. -/
def St.unwind (s : St ε) (t : Nat) : List Frame → St ε
  | [] => s.goto t .release
  | .resumeUser :: st => s.goto t (.held .user st)
  | .finishStart _ :: st => s.unwind t st

/-- `if (enabled.exchange(false))` with `enabled` true (trace_log.cc:86-88); the iteration over
`registered_chunk_tenants` begins. -/
def St.beginStop (s : St ε) (t : Nat) (shutdown : Bool) (full : Option (Option Nat))
    (stack : List Frame) : St ε :=
  { s with enabled := false, hist := .stop shutdown full :: s.hist }.goto t
    (.held (.evict s.registered shutdown) stack)

/-- Whether the callback is to be called (trace_log.cc:89-91). -/
def callbackDue (cfg : TraceConfig) (shutdown : Bool) : Option Callback :=
  match cfg.callback with
  | none => none
  | some cb => if !shutdown || cfg.stopTracing then some cb else none

/-- trace_log.cc:117: the new buffer. The factory is that of the configuration in force now,
the number of chunks was computed before any `stop(lh)` (trace_log.cc:106). -/
def makeBuffer (cfg : TraceConfig) (generation chunks : Nat) : Buffer ε :=
  match cfg.mode with
  | .ring => .makeRing generation chunks
  | _ => .makeFixed generation chunks

/-- `buffer = factory(generation++, buffer_size)` (trace_log.cc:117); the old buffer, if any,
is destroyed. -/
def St.createBuffer (s : St ε) (chunks : Nat) : St ε :=
  { s with
    heap := setf s.heap s.nextBuf (makeBuffer s.config s.generation chunks)
    status := setf (fun b => if s.buffer = some b then .freed else s.status b) s.nextBuf .inLog
    buffer := some s.nextBuf
    nextBuf := s.nextBuf + 1
    generation := s.generation + 1
    contents := setf s.contents s.nextBuf []
    stored := setf s.stored s.nextBuf (fun _ => []) }

/-- `clearDeregisteredThreads(); enabled.store(true)` (trace_log.cc:120-121, 319-323). -/
def St.enable (s : St ε) : St ε :=
  { s with
    names := fun i => if i ∈ s.dereg then none else s.names i
    enabled := true
    hist := .run (s.nextBuf - 1) s.config :: s.hist }

/-- Body of `registerThread` (trace_log.cc:191-208). -/
def St.registerBody (tid : Nat → Nat) (s : St ε) (t : Nat) (name : Str) : St ε :=
  if (s.tenant t).initialised then { s with hist := .regRefused t :: s.hist }
  else
    let s := { s with
      tenant := setf s.tenant t { s.tenant t with initialised := true }
      registered := t :: s.registered
      hist := .regOk t name :: s.hist }
    if name = [] then s
    else { s with
      names := setf s.names (tid t) (some name)
      dereg := s.dereg.filter (· ≠ tid t) }

/-- Returning the chunk of a thread that deregisters (trace_log.cc:220-223); `none`: the chunk
does not belong to the buffer. -/
def St.returnOwn (s : St ε) (t : Nat) : Option (St ε) :=
  match (s.tenant t).chunk with
  | none => some s
  | some (b, i) =>
    match s.buffer with
    | none => some s
    | some p => if p = b then some (s.setBuf p ((s.heap p).returnChunk i)) else none

/-- Body of `deregisterThread` (trace_log.cc:214-233). -/
def St.deregisterBody (tid : Nat → Nat) (s : St ε) (t : Nat) : Option (St ε) :=
  if (s.tenant t).initialised then
    match s.returnOwn t with
    | none => none
    | some s =>
      let s := { s with
        tenant := setf s.tenant t { s.tenant t with chunk := none, initialised := false }
        registered := s.registered.filter (· ≠ t)
        hist := .deregOk t :: s.hist }
      if s.enabled then some { s with dereg := tid t :: s.dereg.filter (· ≠ tid t) }
      else some { s with names := setf s.names (tid t) none }
  else some { s with hist := .deregRefused t :: s.hist }

/-- The buffer is moved out (trace_log.cc:167, 181). -/
def St.retrieve (s : St ε) : St ε :=
  { s with
    buffer := none
    status := fun b => if s.buffer = some b then .handed else s.status b
    hist := .retrieve s.buffer :: s.hist }

/-- A chunk of `p` at index `i` was loaned to `t`: history of its contents. Code: trace_log.cc:308.
-/
def St.loaned (s : St ε) (t p i : Nat) : St ε :=
  let old := s.contents p
  { s with
    contents := setf s.contents p (if i < old.length then old.set i (t, []) else old ++ [(t, [])]) }

/-- The event `e` was stored into chunk `i` of buffer `b` by `t`: history. Code: trace_log.cc:132,
trace_log.cc:146-147. -/
def St.recorded (s : St ε) (t b i : Nat) (e : ε) : St ε :=
  { s with
    contents := setf s.contents b ((s.contents b).modify i (fun p => (p.1, p.2 ++ [e])))
    stored := setf s.stored b (setf (s.stored b) t (s.stored b t ++ [e])) }

/-- Steps of `logEvent` (trace_log.cc:124-149), `getChunkTenant` (256-301), `replaceChunk`
(303-309) and `maybe_stop` (68-83). -/
def St.logStep (tid : Nat → Nat) (s : St ε) (t : Nat) (spurious : Bool) : Out (St ε) :=
  match s.pc t with
  | .readEnabled e => .to (s.goto t (if s.enabled then .tryLock e else .idle))
  | .tryLock e =>
    match (ChunkLock.tryRound (s.tenant t).lock spurious) with
    | (l, some true) => .to ((s.setLock t l).goto t (.checkInit e))
    | (_, some false) => .to (s.goto t .idle)
    | (_, none) => .to s
  | .checkInit e =>
    .to (s.goto t (if (s.tenant t).initialised then .checkChunk e else .unlock))
  | .checkChunk e =>
    match (s.tenant t).chunk with
    | none => .to (s.goto t (.recheck e))
    | some (b, i) =>
      if s.mapped b then
        match (s.heap b).chunkAt i with
        | .ok c => .to (s.goto t (if c.isFull then .recheck e else .store e))
        | _ => .ub
      else .ub
  | .recheck e =>
    if s.enabled then
      .to (s.goto t (if (s.tenant t).chunk.isSome then .retLoad e else .getCheck e))
    else .to (s.goto t .unlock)
  | .retLoad e =>
    match s.buffer with
    | none => .ub
    | some p => .to (s.goto t (.retDo e p))
  | .retDo e p =>
    match (s.tenant t).chunk with
    | none => .ub
    | some (b, i) =>
      if s.mapped p ∧ p = b then
        .to (((s.setBuf p ((s.heap p).returnChunk i)).setChunk t none).goto t (.getCheck e))
      else .ub
  | .getCheck e => .to (s.goto t (if s.enabled then .getNull e else .failed none))
  | .getNull e => .to (s.goto t (if s.buffer.isSome then .getLoad e else .failed none))
  | .getLoad e =>
    match s.buffer with
    | none => .ub
    | some p => .to (s.goto t (.getDo e p))
  | .getDo e p =>
    if s.mapped p then
      match (s.heap p).mode with
      | .ring =>
        match (s.heap p).ringClaim (tid t) with
        | (x, some i) => .to ((((s.setBuf p x).loaned t p i).setChunk t (some (p, i))).goto t (.store e))
        | (x, none) => .to ((s.setBuf p x).goto t (.getWait e p))
      | _ =>
        match (s.heap p).getChunkFixed (tid t) with
        | (x, .chunk i) => .to ((((s.setBuf p x).loaned t p i).setChunk t (some (p, i))).goto t (.store e))
        | (x, _) => .to ((s.setBuf p x).goto t (.failed (some p)))
    else .ub
  | .getWait e p =>
    if s.mapped p then
      match (s.heap p).ringTake (tid t) with
      | some (x, i) => .to ((((s.setBuf p x).loaned t p i).setChunk t (some (p, i))).goto t (.store e))
      | none => .to s
    else .ub
  | .failed full => .to (s.goto t (.failUnlock full s.generation))
  | .failUnlock full g => .to ((s.setLock t .unlocked).goto t (.tryMutex full g))
  | .tryMutex full g =>
    if s.owner = none ∧ spurious = false then .to ({ s with owner := some t }.goto t (.compare full g))
    else .to (s.goto t .idle)
  | .compare full g =>
    if s.generation ≠ g then .to (s.goto t .release)
    else if s.enabled then .to (s.beginStop t false (some full) [])
    else .to (s.goto t .release)
  | .store e =>
    match (s.tenant t).chunk with
    | none => .ub
    | some (b, i) =>
      if s.mapped b then
        match (s.heap b).pushAt i e with
        | (x, .ok ()) => .to (((s.setBuf b x).recorded t b i e).goto t .unlock)
        | _ => .ub
      else .ub
  | .unlock => .to ((s.setLock t .unlocked).goto t .idle)
  | _ => .blocked

/-- Steps of a thread that holds the mutex: `registerThread`, `deregisterThread`, `stop`
(trace_log.cc:85-95), `start` (102-122), `evictThreads` (311-317). The iteration over the
unordered set is in any order: with `other` another tenant is taken next. -/
def St.heldStep (tid : Nat → Nat) (s : St ε) (t : Nat) (other : Bool) : Out (St ε) :=
  match s.pc t with
  | .regBody name => .to ((s.registerBody tid t name).goto t .release)
  | .deregBody =>
    match s.deregisterBody tid t with
    | some s => .to (s.goto t .release)
    | none => .ub
  | .release => .to ({ s with owner := none }.goto t .idle)
  | .held (.evict [] shutdown) stack =>
    match callbackDue s.config shutdown with
    | some cb => .to ({ s with hist := .call cb :: s.hist }.goto t (.held .user stack))
    | none => .to ({ s with hist := .noCall :: s.hist }.pop t stack)
  | .held (.evict (u :: rest) shutdown) stack =>
    if other then .to (s.goto t (.held (.evict (rest ++ [u]) shutdown) stack))
    else match ChunkLock.lockRound (s.tenant u).lock .masterLocked false with
    | (l, true) => .to ((s.setLock u l).goto t (.held (.evictClear u rest shutdown) stack))
    | (_, false) => .to s
  | .held (.evictClear u rest shutdown) stack =>
    .to ((s.setChunk u none).goto t (.held (.evictUnlock u rest shutdown) stack))
  | .held (.evictUnlock u rest shutdown) stack =>
    .to ((s.setLock u .unlocked).goto t (.held (.evict rest shutdown) stack))
  | .held (.startCreate n) stack => .to ((s.createBuffer n).goto t (.held .startEnable stack))
  | .held .startEnable stack => .to (s.enable.pop t stack)
  | _ => .blocked

/-- One step of thread `t`. `pol`: stopped callbacks run by a `start` that restarts tracing do
not themselves start tracing. Code: trace_log.cc:46-317. -/
def St.next (pol : Bool) (tid : Nat → Nat) (s : St ε) (t : Nat) (c : Choice ε) : Out (St ε) :=
  match c with
  | .step =>
    match s.logStep tid t false with
    | .blocked => s.heldStep tid t false
    | o => o
  | .spurious =>
    match s.logStep tid t true with
    | .blocked => s.heldStep tid t true
    | o => o
  | .log e => if s.isIdle t then .to (s.goto t (.readEnabled e)) else .blocked
  | .lock =>
    if s.isIdle t ∧ s.owner = none then .to ({ s with owner := some t }.goto t (.held .user []))
    else .blocked
  | .register name =>
    if s.isIdle t ∧ s.owner = none then .to ({ s with owner := some t }.goto t (.regBody name))
    else .blocked
  | .deregister =>
    if s.isIdle t ∧ s.owner = none then .to ({ s with owner := some t }.goto t .deregBody)
    else .blocked
  | .free b =>
    if s.status b = .handed then .to { s with status := setf s.status b .freed } else .blocked
  | .start cfg =>
    match s.pc t with
    | .held .user stack =>
      if pol = true ∧ finishing stack ≠ 0 then .blocked
      else if cfg.mode = .fixed ∨ cfg.mode = .ring then
        let s := { s with config := cfg, hist := .configure cfg :: s.hist }
        if cfg.size / sizeofTraceChunk = 0 then .to { s with hist := .reject :: s.hist }
        else if s.enabled then .to (s.beginStop t false none (.finishStart (cfg.size / sizeofTraceChunk) :: .resumeUser :: stack))
        else .to (s.goto t (.held (.startCreate (cfg.size / sizeofTraceChunk)) (.resumeUser :: stack)))
      else .blocked
    | _ => .blocked
  | .stop shutdown =>
    match s.pc t with
    | .held .user stack =>
      if s.enabled then .to (s.beginStop t shutdown none (.resumeUser :: stack)) else .to s
    | _ => .blocked
  | .getBuffer =>
    match s.pc t with
    | .held .user _ => if s.enabled then .to { s with hist := .refuse :: s.hist } else .to s.retrieve
    | _ => .blocked
  | .getTraceContext =>
    match s.pc t with
    | .held .user _ =>
      if s.enabled then .to { s with hist := .refuse :: s.hist }
      else .to { s.retrieve with contexts := (s.buffer, s.names) :: s.contexts }
    | _ => .blocked
  | .ret =>
    match s.pc t with
    | .held .user stack => .to (s.pop t stack)
    | _ => .blocked
  | .throw =>
    match s.pc t with
    | .held .user stack => .to (s.unwind t stack)
    | _ => .blocked

/-- States reachable by any interleaving of any threads. Code: trace_log.cc:38-317. -/
inductive Reachable (pol : Bool) (tid : Nat → Nat) : St ε → Prop
  | init : Reachable pol tid St.init
  | step {s s' : St ε} {t c} : Reachable pol tid s → s.next pol tid t c = .to s' →
      Reachable pol tid s'

/-- Runs a list of steps from a state. Code: trace_log.cc:38-317. -/
def St.run (pol : Bool) (tid : Nat → Nat) (s : St ε) : List (Nat × Choice ε) → Out (St ε)
  | [] => .to s
  | (t, c) :: l =>
    match s.next pol tid t c with
    | .to s' => s'.run pol tid l
    | .ub => .ub
    | .blocked => .blocked

end
end Phosphor.TLog
