import Verif.Model.TraceLog
/-
The TraceLog with buffers made by a user's factory (trace_config.h:131-139, trace_buffer.h:139-330):
which calls such a buffer receives, from any number of threads. The control flow is that of
Model/TraceLog; `getChunk`, `returnChunk` and `getStats` are no longer steps but calls with a
beginning and an end, and what `getChunk` answers, and when, is up to the buffer.

Simplifications:
* The factory answers with a new buffer (a factory that throws or answers with a null pointer:
  Model/TraceLogExn, C78), and the functions of the buffer do not throw.
* The buffer lends no chunk that is still on loan, and the chunk it lends is empty.
* A chunk counts as given back when `returnChunk` begins, so the buffer may lend it again at once.
* As in Model/TraceLog: sequentially consistent memory; no event is logged under the mutex; a
  callback run by a `start` that restarts tracing does not itself start tracing.
-/
namespace Phosphor.Custom
open TLog

/-- What a buffer is called with, and what becomes of it. `getBegin t b`: thread `t` calls
`getChunk` on buffer `b`; `getEnd`: that call returns the chunk, or a null pointer. `retBegin`,
`retEnd`: `returnChunk`. `add`: `addEvent` on a chunk of `b`. `statsBegin`, `statsEnd`: `getStats`.
`handed`: the buffer is moved out of the log; `destroyed`: its destructor begins. Code:
trace_log.cc:117, trace_log.cc:132, trace_log.cc:167, trace_log.cc:181, trace_log.cc:222,
trace_log.cc:246, trace_log.cc:305-308. -/
inductive Call
  | getBegin (t b : Nat)
  | getEnd (t b : Nat) (r : Option Nat)
  | retBegin (t b c : Nat)
  | retEnd (t b c : Nat)
  | add (t b c : Nat)
  | statsBegin (t b : Nat)
  | statsEnd (t b : Nat)
  | handed (b : Nat)
  | destroyed (b : Nat)
  deriving DecidableEq, Repr

/-- The log (the members `heap`, `contents` and `stored` of `log` are not used), the chunks on loan,
the events in each chunk (`next_free`), the buffer inside whose function a thread is, and the
history of the calls, newest first. Code: trace_log.h:321-380, trace_buffer.h:115-121. -/
structure CSt (ε : Type) where
  log : St ε
  lent : Nat → Nat → Bool
  count : Nat → Nat → Nat
  inCall : Nat → Option Nat
  calls : List Call

/-- Nothing has happened. Code: trace_log.cc:38-44. -/
def CSt.init {ε : Type} : CSt ε where
  log := St.init
  lent := fun _ _ => false
  count := fun _ _ => 0
  inCall := fun _ => none
  calls := []

/-- What a thread does next: as in Model/TraceLog; the `getChunk` it is in returns; or it calls
`getStats` on the buffer of the log. Code: trace_log.cc:38-317. -/
inductive Act (ε : Type)
  | act (c : Choice ε)
  | result (r : Option Nat)
  | stats

section
variable {ε : Type}

/-- The member of a pair of indices. Code: trace_buffer.h:115-121. -/
def set2 {α : Type} (f : Nat → Nat → α) (b c : Nat) (a : α) : Nat → Nat → α :=
  setf f b (setf (f b) c a)

/-- A step of the log that does not touch the buffer. Code: trace_log.cc:38-317. -/
def CSt.lift (s : CSt ε) : Out (St ε) → Out (CSt ε)
  | .to l => .to { s with log := l }
  | .ub => .ub
  | .blocked => .blocked

/-- `start(lh, cfg)` up to the creation of the buffer, whatever makes it (trace_log.cc:102-115). -/
def CSt.start (s : CSt ε) (t : Nat) (cfg : TraceConfig) : Out (CSt ε) :=
  match s.log.pc t with
  | .held .user stack =>
    if finishing stack ≠ 0 then .blocked
    else
      let l := { s.log with config := cfg, hist := .configure cfg :: s.log.hist }
      if cfg.size / sizeofTraceChunk = 0 then
        .to { s with log := { l with hist := .reject :: l.hist } }
      else if l.enabled then
        .to { s with
          log := l.beginStop t false none
            (.finishStart (cfg.size / sizeofTraceChunk) :: .resumeUser :: stack) }
      else
        .to { s with
          log := l.goto t (.held (.startCreate (cfg.size / sizeofTraceChunk))
            (.resumeUser :: stack)) }
  | _ => .blocked

/-- `getChunk` returns (trace_log.cc:308). -/
def CSt.result (s : CSt ε) (t : Nat) (r : Option Nat) : Out (CSt ε) :=
  match s.log.pc t with
  | .getWait e p =>
    match r with
    | none =>
      .to { s with
        log := s.log.goto t (.failed (some p))
        inCall := setf s.inCall t none
        calls := .getEnd t p none :: s.calls }
    | some c =>
      if s.lent p c then .blocked
      else
        .to { s with
          log := (s.log.setChunk t (some (p, c))).goto t (.store e)
          lent := set2 s.lent p c true
          count := set2 s.count p c 0
          inCall := setf s.inCall t none
          calls := .getEnd t p (some c) :: s.calls }
  | _ => .blocked

/-- `buffer->getStats(addStats)` begins (trace_log.cc:245-247), under the mutex. -/
def CSt.stats (s : CSt ε) (t : Nat) : Out (CSt ε) :=
  match s.log.pc t with
  | .held .user _ =>
    match s.log.buffer with
    | some p =>
      if s.inCall t = none then
        if s.log.mapped p then
          .to { s with inCall := setf s.inCall t (some p), calls := .statsBegin t p :: s.calls }
        else .ub
      else .blocked
    | none => .blocked
  | _ => .blocked

/-- A function of the buffer returns, other than `getChunk`: `returnChunk`, after which the chunk
pointer is cleared (trace_log.cc:222-224, trace_log.cc:305-306), or `getStats`
(trace_log.cc:246). -/
def CSt.leave (s : CSt ε) (t p : Nat) : Out (CSt ε) :=
  match s.log.pc t with
  | .retDo e _ =>
    match (s.log.tenant t).chunk with
    | some (_, c) =>
      .to { s with
        log := (s.log.setChunk t none).goto t (.getCheck e)
        inCall := setf s.inCall t none
        calls := .retEnd t p c :: s.calls }
    | none => .ub
  | .deregBody =>
    match (s.log.tenant t).chunk with
    | some (_, c) =>
      .to { s with
        log := s.log.setChunk t none
        inCall := setf s.inCall t none
        calls := .retEnd t p c :: s.calls }
    | none => .ub
  | .held .user _ =>
    .to { s with inCall := setf s.inCall t none, calls := .statsEnd t p :: s.calls }
  | _ => .blocked

/-- `returnChunk` begins on `p`, with the chunk of the thread; undefined unless `p` exists and the
chunk is one of its own. Code: trace_log.cc:222, trace_log.cc:305. -/
def CSt.giveBack (s : CSt ε) (t p b c : Nat) : Out (CSt ε) :=
  if s.log.mapped p ∧ p = b then
    .to { s with
      lent := set2 s.lent p c false
      inCall := setf s.inCall t (some p)
      calls := .retBegin t p c :: s.calls }
  else .ub

/-- The steps of the log that touch the buffer or its chunks: `isFull` (trace_log.cc:285),
`returnChunk` (305 and 222), `getChunk` (308), `addEvent` (132 and 146), and the creation of a
buffer, which destroys the one before (117). -/
def CSt.step (tid : Nat → Nat) (s : CSt ε) (t : Nat) (spurious : Bool) : Out (CSt ε) :=
  match s.log.pc t with
  | .checkChunk e =>
    match (s.log.tenant t).chunk with
    | none => .to { s with log := s.log.goto t (.recheck e) }
    | some (b, c) =>
      if s.log.mapped b then
        .to { s with log := s.log.goto t (if s.count b c = chunkSize then .recheck e else .store e) }
      else .ub
  | .retDo _ p =>
    match (s.log.tenant t).chunk with
    | none => .ub
    | some (b, c) => s.giveBack t p b c
  | .getDo e p =>
    if s.log.mapped p then
      .to { s with
        log := s.log.goto t (.getWait e p)
        inCall := setf s.inCall t (some p)
        calls := .getBegin t p :: s.calls }
    else .ub
  | .getWait _ _ => .blocked
  | .store _ =>
    match (s.log.tenant t).chunk with
    | none => .ub
    | some (b, c) =>
      if s.log.mapped b ∧ s.count b c < chunkSize then
        .to { s with
          log := s.log.goto t .unlock
          count := set2 s.count b c (s.count b c + 1)
          calls := .add t b c :: s.calls }
      else .ub
  | .deregBody =>
    match (s.log.tenant t).initialised, (s.log.tenant t).chunk, s.log.buffer with
    | true, some (b, c), some p => s.giveBack t p b c
    | _, _, _ => s.lift (s.log.next true tid t .step)
  | .held (.startCreate n) stack =>
    .to { s with
      log := (s.log.createBuffer n).goto t (.held .startEnable stack)
      calls := match s.log.buffer with
        | some b => .destroyed b :: s.calls
        | none => s.calls }
  | _ => s.lift (s.log.next true tid t (if spurious then .spurious else .step))

/-- `getBuffer` and `getTraceContext`: the buffer leaves the log unless tracing is on
(trace_log.cc:161-182). -/
def CSt.moveOut (s : CSt ε) : Out (St ε) → Out (CSt ε)
  | .to l =>
    .to { s with
      log := l
      calls := match s.log.enabled, s.log.buffer with
        | false, some b => .handed b :: s.calls
        | _, _ => s.calls }
  | .ub => .ub
  | .blocked => .blocked

/-- One step of thread `t`. Code: trace_log.cc:38-317. -/
def CSt.next (tid : Nat → Nat) (s : CSt ε) (t : Nat) : Act ε → Out (CSt ε)
  | .result r => s.result t r
  | .stats => s.stats t
  | .act c =>
    match s.inCall t with
    | some p =>
      match c with
      | .step => s.leave t p
      | _ => .blocked
    | none =>
      match c with
      | .step => s.step tid t false
      | .spurious => s.step tid t true
      | .start cfg => s.start t cfg
      | .free b =>
        match s.log.next true tid t (.free b) with
        | .to l => .to { s with log := l, calls := .destroyed b :: s.calls }
        | .ub => .ub
        | .blocked => .blocked
      | .getBuffer => s.moveOut (s.log.next true tid t .getBuffer)
      | .getTraceContext => s.moveOut (s.log.next true tid t .getTraceContext)
      | c => s.lift (s.log.next true tid t c)

/-- States reachable by any interleaving of any threads, with any buffers. Code:
trace_log.cc:38-317. -/
inductive Reachable (tid : Nat → Nat) : CSt ε → Prop
  | init : Reachable tid CSt.init
  | step {s s' : CSt ε} {t a} : Reachable tid s → s.next tid t a = .to s' → Reachable tid s'

/-- Runs a list of steps from a state. Code: trace_log.cc:38-317. -/
def CSt.run (tid : Nat → Nat) (s : CSt ε) : List (Nat × Act ε) → Out (CSt ε)
  | [] => .to s
  | (t, a) :: l =>
    match s.next tid t a with
    | .to s' => s'.run tid l
    | .ub => .ub
    | .blocked => .blocked

end
end Phosphor.Custom
