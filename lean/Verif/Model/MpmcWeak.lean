import Verif.Model.Mpmc
import Verif.Model.Weak
/-
Model of thirdparty/dvyukov/include/dvyukov/mpmc_bounded_queue.h with the memory orders of
the source (Verif/Model/Weak.lean): positions are loaded and exchanged relaxed, sequence
numbers are loaded acquire and stored release, `data_` is plain memory. Program counters and
the decisions taken on a sequence number are those of Verif/Model/Mpmc.lean. Positions are
unbounded naturals (the source uses size_t). The constructor is finished before any thread
uses the queue.
-/
namespace Phosphor.Mpmc.W
open Phosphor.Weak

variable {α : Type}

/-- The atomic members: `enqueue_pos_`, `dequeue_pos_`, `buffer_[i].sequence_`. Code:
mpmc_bounded_queue.h:144, mpmc_bounded_queue.h:155-157. -/
inductive Loc
  | enq | deq
  | seq (i : Nat)
  deriving DecidableEq

/-- Shared memory, program counters and history variables. Code: mpmc_bounded_queue.h:142-158. -/
structure St (α : Type) where
  /-- the atomics, and the accesses to `buffer_[i].data_` -/
  mem : Mem Loc Nat Nat
  /-- value last written to `buffer_[i].data_`; `none` before the first store -/
  data : Nat → Option α
  pc : Nat → Pc α
  /-- history: items in the order in which their positions were claimed -/
  log : List α
  /-- history: position `p` has been published -/
  pub : Nat → Bool
  /-- history: position `p` has been read and its cell released -/
  rel : Nat → Bool
  /-- history: finished successful dequeues, with the position each one claimed -/
  got : List (Nat × Option α)
  /-- history: what had happened before the item of position `p` was published -/
  sent : Nat → Clock

/-- Constructor (mpmc_bounded_queue.h:64-75). -/
def St.init : St α where
  mem := Mem.init fun
    | .enq => 0
    | .deq => 0
    | .seq i => i
  data := fun _ => none
  pc := fun _ => .idle
  log := []
  pub := fun _ => false
  rel := fun _ => false
  got := []
  sent := fun _ _ => 0

/-- Thread `t` goes to `p` with memory `μ`. Code: mpmc_bounded_queue.h:84-140. -/
def St.goto (s : St α) (t : Nat) (p : Pc α) (μ : Mem Loc Nat Nat) : St α :=
  { s with pc := setf s.pc t p, mem := μ }

/-- One step of some thread of a queue of capacity `n`. Code: mpmc_bounded_queue.h:84-140. -/
inductive Step (n : Nat) : St α → St α → Prop
  /-- a thread that is not using the queue does something else -/
  | other {s t} : s.pc t = .idle → Step n s { s with mem := s.mem.other t }
  /-- call `enqueue(x)` and load the position (line 86) -/
  | callEnq {s t x ts m} : s.pc t = .idle → s.mem.readable t .enq ts m →
      Step n s (s.goto t (.enqSeq x m.val) (s.mem.loadRlx t .enq ts))
  /-- line 89 and the branches of lines 90-100 -/
  | enqSeq {s t x pos ts m} : s.pc t = .enqSeq x pos →
      s.mem.readable t (.seq (idx n pos)) ts m →
      Step n s (s.goto t (enqNext x pos m.val) (s.mem.loadAcq t (.seq (idx n pos)) ts m))
  /-- line 99 -/
  | enqReload {s t x ts m} : s.pc t = .enqReload x → s.mem.readable t .enq ts m →
      Step n s (s.goto t (.enqSeq x m.val) (s.mem.loadRlx t .enq ts))
  /-- line 92 succeeds: the position is claimed -/
  | enqCasOk {s t x pos ts m} : s.pc t = .enqCas x pos → s.mem.readable t .enq ts m →
      m.val = pos → s.mem.free t .enq (ts + 1) →
      Step n s { s.goto t (.enqWrite x pos) (s.mem.rmwRlx t .enq ts m (pos + 1)) with
        log := s.log ++ [x] }
  /-- line 92 fails, possibly spuriously, and loads the position it found -/
  | enqCasFail {s t x pos ts m} : s.pc t = .enqCas x pos → s.mem.readable t .enq ts m →
      Step n s (s.goto t (.enqSeq x m.val) (s.mem.loadRlx t .enq ts))
  /-- line 103 -/
  | enqWrite {s t x pos} : s.pc t = .enqWrite x pos →
      Step n s { s.goto t (.enqPub x pos) (s.mem.write t (idx n pos)) with
        data := setf s.data (idx n pos) (some x) }
  /-- lines 104-106 -/
  | enqPub {s t x pos ts} : s.pc t = .enqPub x pos → s.mem.free t (.seq (idx n pos)) ts →
      Step n s { s.goto t .idle (s.mem.storeRel t (.seq (idx n pos)) ts (pos + 1)) with
        pub := setf s.pub pos true, sent := setf s.sent pos (s.mem.view t).clk }
  /-- call `dequeue` and load the position (line 118) -/
  | callDeq {s t ts m} : s.pc t = .idle → s.mem.readable t .deq ts m →
      Step n s (s.goto t (.deqSeq m.val) (s.mem.loadRlx t .deq ts))
  /-- line 121 and the branches of lines 122-132 -/
  | deqSeq {s t pos ts m} : s.pc t = .deqSeq pos →
      s.mem.readable t (.seq (idx n pos)) ts m →
      Step n s (s.goto t (deqNext pos m.val) (s.mem.loadAcq t (.seq (idx n pos)) ts m))
  /-- line 131 -/
  | deqReload {s t ts m} : s.pc t = .deqReload → s.mem.readable t .deq ts m →
      Step n s (s.goto t (.deqSeq m.val) (s.mem.loadRlx t .deq ts))
  /-- line 124 succeeds -/
  | deqCasOk {s t pos ts m} : s.pc t = .deqCas pos → s.mem.readable t .deq ts m →
      m.val = pos → s.mem.free t .deq (ts + 1) →
      Step n s (s.goto t (.deqRead pos) (s.mem.rmwRlx t .deq ts m (pos + 1)))
  /-- line 124 fails -/
  | deqCasFail {s t pos ts m} : s.pc t = .deqCas pos → s.mem.readable t .deq ts m →
      Step n s (s.goto t (.deqSeq m.val) (s.mem.loadRlx t .deq ts))
  /-- line 135 -/
  | deqRead {s t pos} : s.pc t = .deqRead pos →
      Step n s (s.goto t (.deqPub pos (s.data (idx n pos))) (s.mem.read t (idx n pos)))
  /-- lines 136-139: the new sequence number is `pos + buffer_mask_ + 1` -/
  | deqPub {s t pos v ts} : s.pc t = .deqPub pos v → s.mem.free t (.seq (idx n pos)) ts →
      Step n s { s.goto t .idle
          (s.mem.storeRel t (.seq (idx n pos)) ts (pos + (n - 1) + 1)) with
        rel := setf s.rel pos true, got := s.got ++ [(pos, v)] }

/-- States reachable by any interleaving. Code: mpmc_bounded_queue.h:64-140. -/
inductive Reachable (n : Nat) : St α → Prop
  | init : Reachable n St.init
  | step {s s'} : Reachable n s → Step n s s' → Reachable n s'

end Phosphor.Mpmc.W
