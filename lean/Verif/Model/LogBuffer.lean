import Verif.Model.CustomBuffer
import Verif.Model.RingConc
/-
The TraceLog together with the code of its buffers: the log of Model/CustomBuffer (every function of
a buffer is a call with a beginning and an end) over buffers whose functions are themselves sequences
of accesses to shared memory (FixedTraceBuffer below; RingTraceBuffer with its lock-free queue,
Model/RingConc). What a buffer answers is computed here, no longer assumed.

Simplifications:
* Sequentially consistent memory; unbounded counters.
* Buffers have at most 2^32 chunks (beyond that the return queue is too small: C20).
* `getStats` is one call without effect on the buffer (it only reads counters).
* Mode `custom` behaves as `fixed` (a user's own buffer: Model/CustomBuffer, C92).
* As in Model/CustomBuffer: no event is logged under the mutex; a callback run by a `start` that
  restarts tracing does not itself start tracing.
-/
namespace Phosphor.LogBuf
open TLog

/-- Program counter of a thread with respect to a fixed buffer. Code: trace_buffer.cc:110-124. -/
inductive FPc
  | idle
  /-- about to increment `issued` (trace_buffer.cc:111) -/
  | count
  /-- about to `reset` the chunk (trace_buffer.cc:116) -/
  | reset (i : Nat)
  /-- about to increment `on_loan` (trace_buffer.cc:117) -/
  | lend (i : Nat)
  /-- about to decrement `on_loan` (trace_buffer.cc:122) -/
  | unlend
  deriving DecidableEq, Repr

/-- Shared memory of a fixed buffer, program counters and who holds which chunk. Code:
trace_buffer.cc:103-190. -/
structure FSt where
  /-- `buffer.size()` -/
  size : Nat
  issued : Nat
  onLoan : Int
  /-- `buffer[i].thread_id`, by the last `reset` -/
  owner : Nat → Option Nat
  pc : Nat → FPc
  /-- history: the chunks `getChunk` has returned and the thread has not passed to `returnChunk` -/
  holds : List (Nat × Nat)

/-- Constructor (trace_buffer.cc:104-106). -/
def FSt.init (size : Nat) : FSt where
  size := size
  issued := 0
  onLoan := 0
  owner := fun _ => none
  pc := fun _ => .idle
  holds := []

/-- What one access of a thread inside a function of a buffer leads to: nothing (it is in no
function), undefined behaviour, the thread is still inside, `getChunk` returns, or `returnChunk`
returns. Code: trace_buffer.h:176, trace_buffer.h:187. -/
inductive Ev (σ : Type)
  | blocked
  | ub
  | inside (s : σ)
  | got (s : σ) (r : Option Nat)
  | gave (s : σ)

/-- A call of `getChunk` begins (trace_buffer.cc:110). -/
def FSt.get (s : FSt) (t : Nat) : Option FSt :=
  if s.pc t = .idle then some { s with pc := setf s.pc t .count } else none

/-- A call of `returnChunk` begins (trace_buffer.cc:121), with a chunk the thread holds. -/
def FSt.ret (s : FSt) (t i : Nat) : Option FSt :=
  if s.pc t = .idle ∧ (t, i) ∈ s.holds then
    some { s with pc := setf s.pc t .unlend, holds := s.holds.erase (t, i) }
  else none

/-- One access to shared memory by thread `t` (trace_buffer.cc:110-124). -/
def FSt.step (s : FSt) (t : Nat) : Ev FSt :=
  match s.pc t with
  | .idle => .blocked
  | .count =>
    if s.issued ≥ s.size then .got { s with issued := s.issued + 1, pc := setf s.pc t .idle } none
    else .inside { s with issued := s.issued + 1, pc := setf s.pc t (.reset s.issued) }
  | .reset i =>
    if i < s.size then .inside { s with owner := setf s.owner i (some t), pc := setf s.pc t (.lend i) }
    else .ub
  | .lend i =>
    .got { s with onLoan := s.onLoan + 1, pc := setf s.pc t .idle, holds := (t, i) :: s.holds } (some i)
  | .unlend => .gave { s with onLoan := s.onLoan - 1, pc := setf s.pc t .idle }

/-- A built-in buffer. Code: trace_buffer.cc:184-187, trace_buffer.cc:313-316. -/
inductive Buf
  | fixed (s : FSt)
  | ring (s : RingConc.St)

/-- The buffer that the factory of the configuration makes, with `n` chunks. Code:
trace_config.cc:81-93, trace_buffer.cc:184-187, trace_buffer.cc:313-316. -/
def Buf.init (cfg : TraceConfig) (n : Nat) : Buf :=
  match cfg.mode with
  | .ring => .ring (RingConc.St.init n)
  | _ => .fixed (FSt.init n)

/-- The state after a step of the ring, if there is one. Code: trace_buffer.cc:205-228. -/
def Buf.ringTo : RingConc.Out → Option Buf
  | .to s => some (.ring s)
  | _ => none

/-- A call of `getChunk` begins (trace_buffer.h:176). -/
def Buf.get (b : Buf) (t : Nat) : Option Buf :=
  match b with
  | .fixed s => (s.get t).map .fixed
  | .ring s => ringTo (s.next t .get)

/-- A call of `returnChunk` begins (trace_buffer.h:187). -/
def Buf.ret (b : Buf) (t i : Nat) : Option Buf :=
  match b with
  | .fixed s => (s.ret t i).map .fixed
  | .ring s => ringTo (s.next t (.ret i))

/-- An access of the ring, with what it means for the caller: `getChunk` returns after line 220,
`returnChunk` after line 227. Code: trace_buffer.cc:205-228. -/
def Buf.ringEv (p : RingConc.Pc) : RingConc.Out → Ev Buf
  | .to s =>
    match p with
    | .lend i => .got (.ring s) (some i)
    | .unlend => .gave (.ring s)
    | _ => .inside (.ring s)
  | .ub => .ub
  | .blocked => .blocked

/-- An access of the fixed buffer. Code: trace_buffer.cc:110-124. -/
def Buf.fixedEv : Ev FSt → Ev Buf
  | .blocked => .blocked
  | .ub => .ub
  | .inside s => .inside (.fixed s)
  | .got s r => .got (.fixed s) r
  | .gave s => .gave (.fixed s)

/-- One access to shared memory by thread `t`. Code: trace_buffer.cc:110-124,
trace_buffer.cc:205-228. -/
def Buf.step (b : Buf) (t : Nat) (spurious : Bool) : Ev Buf :=
  match b with
  | .fixed s => fixedEv (s.step t)
  | .ring s => ringEv (s.pc t) (s.access t spurious)

/-- The log and its buffers, by the address the log knows them by. Code: trace_log.h:321-380. -/
structure XSt (ε : Type) where
  c : Custom.CSt ε
  buf : Nat → Buf

/-- Nothing has happened; there is no buffer yet. Code: trace_log.cc:38-44. -/
def XSt.init {ε : Type} : XSt ε where
  c := Custom.CSt.init
  buf := fun _ => .fixed (FSt.init 0)

/-- What a thread does next: something of the log; an access inside a function of the buffer; or it
calls `getStats`. Code: trace_log.cc:38-317, trace_buffer.cc:103-311. -/
inductive XAct (ε : Type)
  | log (c : Choice ε)
  | access (spurious : Bool)
  | stats

section
variable {ε : Type}

/-- The call that a step of the log has made, if any. Code: trace_log.cc:117, trace_log.cc:222,
trace_log.cc:305-308. -/
def called (c c' : Custom.CSt ε) : Option Custom.Call :=
  if c'.calls.length = c.calls.length then none else c'.calls.head?

/-- The buffers after the beginning of a call; `none`: the buffer cannot be called like that. Code:
trace_buffer.h:176, trace_buffer.h:187. -/
def enter (buf : Nat → Buf) : Option Custom.Call → Option (Nat → Buf)
  | some (.getBegin t p) => ((buf p).get t).map (setf buf p)
  | some (.retBegin t p i) => ((buf p).ret t i).map (setf buf p)
  | _ => some buf

/-- The number of chunks of the buffer that a thread is about to create. Code: trace_log.cc:113-117. -/
def toCreate : Pc ε → Option Nat
  | .held (.startCreate n) _ => some n
  | _ => none

/-- The buffers after a step of the log from `c` to `c'`: a buffer is created (trace_log.cc:117), a
call begins, or nothing. -/
def XSt.bufs (x : XSt ε) (t : Nat) (c' : Custom.CSt ε) : Option (Nat → Buf) :=
  if c'.log.nextBuf = x.c.log.nextBuf then enter x.buf (called x.c c')
  else
    match toCreate (x.c.log.pc t) with
    | some n =>
      if n ≤ 2 ^ 32 then some (setf x.buf x.c.log.nextBuf (Buf.init x.c.log.config n)) else none
    | none => none

/-- A step of the log. Code: trace_log.cc:38-317. -/
def XSt.logged (x : XSt ε) (t : Nat) : Out (Custom.CSt ε) → Out (XSt ε)
  | .to c' =>
    match x.bufs t c' with
    | some b => .to ⟨c', b⟩
    | none => .blocked
  | .ub => .ub
  | .blocked => .blocked

/-- The log goes on after a function of the buffer. Code: trace_log.cc:222-224,
trace_log.cc:305-308. -/
def XSt.back (buf : Nat → Buf) : Out (Custom.CSt ε) → Out (XSt ε)
  | .to c' => .to ⟨c', buf⟩
  | .ub => .ub
  | .blocked => .blocked

/-- An access of thread `t` inside a function of buffer `p`. Code: trace_buffer.cc:103-311. -/
def XSt.access (tid : Nat → Nat) (x : XSt ε) (t p : Nat) (spurious : Bool) : Out (XSt ε) :=
  match x.c.log.pc t with
  | .held _ _ => XSt.back x.buf (x.c.next tid t (.act .step))
  | _ =>
    match (x.buf p).step t spurious with
    | .blocked => .blocked
    | .ub => .ub
    | .inside b => .to ⟨x.c, setf x.buf p b⟩
    | .got b r => XSt.back (setf x.buf p b) (x.c.next tid t (.result r))
    | .gave b => XSt.back (setf x.buf p b) (x.c.next tid t (.act .step))

/-- One step of thread `t`. Code: trace_log.cc:38-317, trace_buffer.cc:103-311. -/
def XSt.next (tid : Nat → Nat) (x : XSt ε) (t : Nat) : XAct ε → Out (XSt ε)
  | .log a =>
    if x.c.inCall t = none then x.logged t (x.c.next tid t (.act a)) else .blocked
  | .stats =>
    if x.c.inCall t = none then x.logged t (x.c.next tid t .stats) else .blocked
  | .access sp =>
    match x.c.inCall t with
    | some p => x.access tid t p sp
    | none => .blocked

/-- States reachable by any interleaving of any threads. Code: trace_log.cc:38-317,
trace_buffer.cc:103-311. -/
inductive Reachable (tid : Nat → Nat) : XSt ε → Prop
  | init : Reachable tid XSt.init
  | step {x x' : XSt ε} {t a} : Reachable tid x → x.next tid t a = .to x' → Reachable tid x'

/-- Runs a list of steps from a state. Code: trace_log.cc:38-317. -/
def XSt.run (tid : Nat → Nat) (x : XSt ε) : List (Nat × XAct ε) → Out (XSt ε)
  | [] => .to x
  | (t, a) :: l =>
    match x.next tid t a with
    | .to x' => x'.run tid l
    | .ub => .ub
    | .blocked => .blocked

end
end Phosphor.LogBuf
