import Verif.Model.TraceLog
/-
Model of several TraceLog objects in one process. Every log has members of its own
(trace_log.h, `protected`), so a step on one log is a step of `TLog.St.next`; but the
ChunkTenant of a thread, `thread_local ChunkTenant thread_chunk` (trace_log.cc:36), is one
object shared by all logs.

Simplification: the steps of one thread on different logs may interleave in any way. The real
ones nest (a stopped callback of one log may use another), so this allows more than the code
does; the refutations below use one operation after the other.
-/
namespace Phosphor.TLog

/-- `thread_chunk` of a thread (trace_log.cc:36, chunk_lock.h:158-193). `chunk` is a pointer
into a buffer of some log: (log, buffer, index). -/
structure Holder where
  lock : ChunkLock.State
  initialised : Bool
  chunk : Option (Nat × Nat × Nat)
  deriving DecidableEq, Repr

/-- All logs and the thread-local tenants. The field `tenant` of the members of `logs` is not
used. Code: trace_log.cc:36, trace_log.h:321-380. -/
structure Many (ε : Type) where
  logs : Nat → St ε
  tenant : Nat → Holder

section
variable {ε : Type}

/-- Default constructed logs without start-up trace (trace_log.cc:38-44). -/
def Many.init : Many ε where
  logs := fun _ => St.init
  tenant := fun _ => { lock := .unlocked, initialised := false, chunk := none }

/-- The tenant as log `k` sees it. A pointer into a buffer of another log is none of the
buffers `k` has made (`fresh`). Code: trace_log.cc:36, trace_log.cc:220-225, trace_log.cc:285. -/
def Holder.seen (h : Holder) (k fresh : Nat) : Tenant where
  lock := h.lock
  initialised := h.initialised
  chunk := h.chunk.map fun p => if p.1 = k then (p.2.1, p.2.2) else (fresh, 0)

/-- The tenant after a step of log `k` that changed what it sees from `old` to `new`. Code:
trace_log.cc:36, trace_log.cc:220-225, trace_log.cc:303-309. -/
def Holder.after (h : Holder) (k : Nat) (old new : Tenant) : Holder where
  lock := new.lock
  initialised := new.initialised
  chunk := if new.chunk = old.chunk then h.chunk else new.chunk.map fun p => (k, p.1, p.2)

/-- Log `k` together with the tenants of all threads. Code: trace_log.cc:36. -/
def Many.view (m : Many ε) (k : Nat) : St ε :=
  { m.logs k with tenant := fun u => (m.tenant u).seen k (m.logs k).nextBuf }

/-- Log `k` made a step to `s`. Code: trace_log.cc:36. -/
def Many.put (m : Many ε) (k : Nat) (s : St ε) : Many ε where
  logs := setf m.logs k s
  tenant := fun u => (m.tenant u).after k ((m.view k).tenant u) (s.tenant u)

/-- A step that uses nothing but log `k` and the tenants. Code: trace_log.cc:46-317. -/
def Many.own (pol : Bool) (tid : Nat → Nat) (m : Many ε) (k t : Nat) (c : Choice ε) : Out (Many ε) :=
  match (m.view k).next pol tid t c with
  | .to s => .to (m.put k s)
  | .ub => .ub
  | .blocked => .blocked

/-- The thread goes on with what it is doing. Code: trace_log.cc:46-317. -/
def Choice.goesOn : Choice ε → Bool
  | .step => true
  | .spurious => true
  | _ => false

/-- One step of thread `t` in a function of log `k`. Where the thread follows its pointer to a
chunk (`isFull`, trace_log.cc:285; `addEvent`, 132, 146-147) the chunk may belong to another
log; returning it to the buffer of `k` (222, 305) is then undefined, as in `St.next`. -/
def Many.next (pol : Bool) (tid : Nat → Nat) (m : Many ε) (k t : Nat) (c : Choice ε) : Out (Many ε) :=
  if c.goesOn = true then
    match (m.logs k).pc t, (m.tenant t).chunk with
    | .checkChunk e, some (j, b, i) =>
      if j = k then m.own pol tid k t c
      else if (m.logs j).mapped b then
        match ((m.logs j).heap b).chunkAt i with
        | .ok x => .to { m with
            logs := setf m.logs k ((m.logs k).goto t (if x.isFull then .recheck e else .store e)) }
        | _ => .ub
      else .ub
    | .store e, some (j, b, i) =>
      if j = k then m.own pol tid k t c
      else if (m.logs j).mapped b then
        match ((m.logs j).heap b).pushAt i e with
        | (x, .ok ()) => .to { m with
            logs := setf (setf m.logs j (((m.logs j).setBuf b x).recorded t b i e)) k
              ((m.logs k).goto t .unlock) }
        | _ => .ub
      else .ub
    | _, _ => m.own pol tid k t c
  else m.own pol tid k t c

/-- Runs a list of steps: log, thread, choice. Code: trace_log.cc:46-317. -/
def Many.run (pol : Bool) (tid : Nat → Nat) (m : Many ε) : List (Nat × Nat × Choice ε) → Out (Many ε)
  | [] => .to m
  | (k, t, c) :: l =>
    match m.next pol tid k t c with
    | .to m' => m'.run pol tid l
    | .ub => .ub
    | .blocked => .blocked

end
end Phosphor.TLog
