import Verif.Model.TraceBuffer
/-
Histories of buffer calls. For the ring buffer, `getChunk` is split at its waiting loop so
that calls of other threads can happen while one waits.
-/
namespace Phosphor
variable {ε : Type}

/-! ### Fixed buffer histories -/

/-- A call on a buffer: `getChunk` by a thread, or `returnChunk` of any chunk. Code:
trace_buffer.cc:110-124, trace_buffer.h:176-187. -/
inductive BufOp
  | get (tid : Nat)
  | ret (i : Nat)
  deriving DecidableEq, Repr

/-- Run calls on a fixed buffer; results of the `getChunk` calls in order. Code:
trace_buffer.cc:110-124. -/
def Buffer.runFixed (b : Buffer ε) : List BufOp → Buffer ε × List GetChunk
  | [] => (b, [])
  | .get tid :: ops =>
    let (b, r) := b.getChunkFixed tid
    let (b, rs) := b.runFixed ops
    (b, r :: rs)
  | .ret i :: ops => (b.returnChunkFixed i).runFixed ops

/-! ### Ring buffer transition system -/

/-- Ring buffer with its users: which thread holds which chunk, which threads wait in the
`dequeue` loop, and (history) the chunks returned and reused so far. Code: trace_buffer.cc:193-311.
-/
structure RingSys (ε : Type) where
  b : Buffer ε
  holds : List (Nat × Nat)
  waiting : List Nat
  returned : List Nat
  reused : List Nat

/-- A step of some thread `h`. Code: trace_buffer.cc:205-228. -/
inductive RingOp
  /-- enter `getChunk` (trace_buffer.cc:206-216) -/
  | claim (h : Nat)
  /-- a waiting thread's `dequeue` succeeds (trace_buffer.cc:213-221) -/
  | take (h : Nat)
  /-- `returnChunk` of a chunk the thread holds (trace_buffer.cc:224-228) -/
  | ret (h i : Nat)
  deriving DecidableEq, Repr

/-- Initial state: nothing handed out. Code: trace_buffer.cc:195-201. -/
def RingSys.init (generation size : Nat) : RingSys ε :=
  { b := Buffer.makeRing generation size, holds := [], waiting := [], returned := [], reused := [] }

/-- One step; `none` if the step is not possible in this state. The precondition of `ret`
is the rule that users of `returnChunk` follow: only a chunk on loan is returned. Code:
trace_buffer.cc:205-228; callers trace_log.cc:222, trace_log.cc:305, trace_log.cc:308. -/
def RingSys.step (s : RingSys ε) : RingOp → Option (RingSys ε)
  | .claim h =>
    match s.b.ringClaim h with
    | (b, some i) => some { s with b, holds := (h, i) :: s.holds }
    | (b, none) => some { s with b, waiting := h :: s.waiting }
  | .take h =>
    if h ∈ s.waiting then
      match s.b.ringTake h with
      | some (b, i) =>
        some { s with b, holds := (h, i) :: s.holds, waiting := s.waiting.erase h,
                      reused := s.reused ++ [i] }
      | none => none
    else none
  | .ret h i =>
    if (h, i) ∈ s.holds then
      some { s with b := s.b.returnChunkRing i, holds := s.holds.erase (h, i),
                    returned := s.returned ++ [i] }
    else none

/-- States reachable by any sequence of steps. Code: trace_buffer.cc:193-311. -/
inductive RingSys.Reachable (generation size : Nat) : RingSys ε → Prop
  | init : Reachable generation size (RingSys.init generation size)
  | step {s s' : RingSys ε} {op : RingOp} : Reachable generation size s → s.step op = some s' →
      Reachable generation size s'

end Phosphor
