import Verif.Model.Mpmc
import Verif.Model.TraceBuffer
/-
Model of RingTraceBuffer (src/trace_buffer.cc:193-311) together with its return queue
(thirdparty/dvyukov/include/dvyukov/mpmc_bounded_queue.h) as one small-step system: any number of
threads call getChunk and returnChunk; one step is one access to shared memory, inside the queue as
well. Memory is sequentially consistent and counters are unbounded, as in Model/Mpmc. Of a chunk
only the thread id that `reset` writes is modelled here; Model/TraceBuffer has the rest of it.
-/
namespace Phosphor.RingConc

/-- Program counter of a thread with respect to the buffer. Code: trace_buffer.cc:205-228. -/
inductive Pc
  | idle
  /-- about to increment `actual_count` (trace_buffer.cc:208) -/
  | count
  /-- in the loop around `dequeue` (trace_buffer.cc:213-214); where exactly says the queue -/
  | take
  /-- about to `reset` the chunk (trace_buffer.cc:219); `none`: the pointer was never stored -/
  | reset (i : Option Nat)
  /-- about to increment `on_loan` (trace_buffer.cc:220) -/
  | lend (i : Nat)
  /-- in the loop around `enqueue` (trace_buffer.cc:225-226) -/
  | give (i : Nat)
  /-- about to decrement `on_loan` (trace_buffer.cc:227) -/
  | unlend
  deriving DecidableEq, Repr

/-- Shared memory, program counters and who holds which chunk. Code: trace_buffer.cc:285-293. -/
structure St where
  /-- `buffer.size()` -/
  size : Nat
  /-- `return_queue`; its items are the indices of the chunks -/
  q : Mpmc.St Nat
  /-- `actual_count` -/
  counter : Nat
  /-- `on_loan` -/
  onLoan : Int
  /-- `buffer[i].thread_id`, by the last `reset` -/
  owner : Nat → Option Nat
  pc : Nat → Pc
  /-- history: the chunks `getChunk` has returned and the thread has not passed to `returnChunk` -/
  holds : List (Nat × Nat)

/-- Capacity of the return queue. Code: trace_buffer.cc:199. -/
def capacity (size : Nat) : Nat := (upperPowerOfTwo (BitVec.ofNat 64 size)).toNat

/-- Constructor (trace_buffer.cc:195-201). -/
def St.init (size : Nat) : St where
  size := size
  q := .init
  counter := 0
  onLoan := 0
  owner := fun _ => none
  pc := fun _ => .idle
  holds := []

/-- What a thread does next. Code: trace_buffer.cc:205-228. -/
inductive Choice
  /-- call `getChunk` -/
  | get
  /-- call `returnChunk` with a chunk -/
  | ret (i : Nat)
  /-- go on -/
  | step
  /-- go on; a compare-exchange fails spuriously -/
  | spurious
  deriving DecidableEq, Repr

/-- Result of a step; `ub` is a chunk that does not exist. Code: trace_buffer.cc:205-228. -/
inductive Out
  | blocked
  | ub
  | to (s : St)

/-- One access of thread `t` inside a call of `enqueue` or `dequeue` on a queue of capacity `n`.
Code: mpmc_bounded_queue.h:84-140. -/
def qnext (n : Nat) (q : Mpmc.St Nat) (t : Nat) (spurious : Bool) : Mpmc.St Nat :=
  match q.pc t with
  | .idle => q
  | .enqSeq x pos => q.goto t (Mpmc.enqNext x pos (q.seq (Mpmc.idx n pos)))
  | .enqReload x => q.goto t (.enqSeq x q.enqPos)
  | .enqCas x pos =>
    if q.enqPos = pos ∧ spurious = false then
      { q.goto t (.enqWrite x pos) with enqPos := pos + 1, log := q.log ++ [x] }
    else q.goto t (.enqSeq x q.enqPos)
  | .enqWrite x pos => { q.goto t (.enqPub x pos) with data := setf q.data (Mpmc.idx n pos) (some x) }
  | .enqPub _ pos =>
    { q.goto t .idle with seq := setf q.seq (Mpmc.idx n pos) (pos + 1), pub := setf q.pub pos true }
  | .deqSeq pos => q.goto t (Mpmc.deqNext pos (q.seq (Mpmc.idx n pos)))
  | .deqReload => q.goto t (.deqSeq q.deqPos)
  | .deqCas pos =>
    if q.deqPos = pos ∧ spurious = false then { q.goto t (.deqRead pos) with deqPos := pos + 1 }
    else q.goto t (.deqSeq q.deqPos)
  | .deqRead pos => q.goto t (.deqPub pos (q.data (Mpmc.idx n pos)))
  | .deqPub pos v =>
    { q.goto t .idle with
      seq := setf q.seq (Mpmc.idx n pos) (pos + (n - 1) + 1), rel := setf q.rel pos true
      got := q.got ++ [(pos, v)] }

/-- `s` with thread `t` at `p`. Code: trace_buffer.cc:205-228. -/
def St.goto (s : St) (t : Nat) (p : Pc) : St := { s with pc := setf s.pc t p }

/-- One access to shared memory by thread `t`. Code: trace_buffer.cc:205-228. -/
def St.access (s : St) (t : Nat) (spurious : Bool) : Out :=
  match s.pc t with
  | .idle => .blocked
  | .count =>
    .to { s.goto t (if s.counter ≥ s.size then .take else .reset (some s.counter)) with
      counter := s.counter + 1 }
  | .take =>
    match s.q.pc t with
    | .idle => .to { s with q := s.q.goto t (.deqSeq s.q.deqPos) }
    | .deqPub _ v => .to { s.goto t (.reset v) with q := qnext (capacity s.size) s.q t spurious }
    | _ => .to { s with q := qnext (capacity s.size) s.q t spurious }
  | .reset none => .ub
  | .reset (some i) =>
    if i < s.size then .to { s.goto t (.lend i) with owner := setf s.owner i (some t) } else .ub
  | .lend i => .to { s.goto t .idle with onLoan := s.onLoan + 1, holds := (t, i) :: s.holds }
  | .give i =>
    match s.q.pc t with
    | .idle => .to { s with q := s.q.goto t (.enqSeq i s.q.enqPos) }
    | .enqPub _ _ => .to { s.goto t .unlend with q := qnext (capacity s.size) s.q t spurious }
    | _ => .to { s with q := qnext (capacity s.size) s.q t spurious }
  | .unlend => .to { s.goto t .idle with onLoan := s.onLoan - 1 }

/-- One step of thread `t`. A thread returns only chunks it holds. Code: trace_buffer.cc:205-228;
callers trace_log.cc:222, trace_log.cc:305, trace_log.cc:308. -/
def St.next (s : St) (t : Nat) : Choice → Out
  | .get => if s.pc t = .idle then .to (s.goto t .count) else .blocked
  | .ret i =>
    if s.pc t = .idle ∧ (t, i) ∈ s.holds then
      .to { s.goto t (.give i) with holds := s.holds.erase (t, i) }
    else .blocked
  | .step => s.access t false
  | .spurious => s.access t true

/-- Several steps. Code: trace_buffer.cc:205-228. -/
def St.run (s : St) : List (Nat × Choice) → Out
  | [] => .to s
  | (t, c) :: l =>
    match s.next t c with
    | .to s' => s'.run l
    | o => o

/-- States reachable by any interleaving. Code: trace_buffer.cc:193-311. -/
inductive Reachable (size : Nat) : St → Prop
  | init : Reachable size (St.init size)
  | step {s s' t c} : Reachable size s → s.next t c = .to s' → Reachable size s'

end Phosphor.RingConc
