import Verif.Model.Basic
/-
Model of thirdparty/dvyukov/include/dvyukov/mpmc_bounded_queue.h as a small-step system:
any number of threads call enqueue and dequeue; one step is one access to shared memory.
Memory is sequentially consistent (the source uses relaxed positions and acquire/release
sequence numbers), positions are unbounded naturals (the source uses size_t; MpmcWrap.lean has
machine words).
-/
namespace Phosphor.Mpmc

variable {α : Type}

/-- Program counter of a thread inside `enqueue` / `dequeue`. Code: mpmc_bounded_queue.h:84-140. -/
inductive Pc (α : Type)
  | idle
  /-- about to load the cell's sequence number (mpmc_bounded_queue.h:89) -/
  | enqSeq (x : α) (pos : Nat)
  /-- about to reload `enqueue_pos_` (line 99) -/
  | enqReload (x : α)
  /-- about to compare-exchange `enqueue_pos_` (line 92) -/
  | enqCas (x : α) (pos : Nat)
  /-- about to store the data (line 103) -/
  | enqWrite (x : α) (pos : Nat)
  /-- about to publish the sequence number (line 104) -/
  | enqPub (x : α) (pos : Nat)
  /-- about to load the cell's sequence number (line 121) -/
  | deqSeq (pos : Nat)
  /-- about to reload `dequeue_pos_` (line 131) -/
  | deqReload
  /-- about to compare-exchange `dequeue_pos_` (line 124) -/
  | deqCas (pos : Nat)
  /-- about to read the data (line 135) -/
  | deqRead (pos : Nat)
  /-- about to release the cell (line 136) -/
  | deqPub (pos : Nat) (v : Option α)

/-- Shared memory, program counters and history variables. Code: mpmc_bounded_queue.h:142-158. -/
structure St (α : Type) where
  /-- `buffer_[i].sequence_` -/
  seq : Nat → Nat
  /-- `buffer_[i].data_`; `none` before the first store -/
  data : Nat → Option α
  /-- `enqueue_pos_` -/
  enqPos : Nat
  /-- `dequeue_pos_` -/
  deqPos : Nat
  pc : Nat → Pc α
  /-- history: items in the order in which their positions were claimed -/
  log : List α
  /-- history: position `p` has been published -/
  pub : Nat → Bool
  /-- history: position `p` has been read and its cell released -/
  rel : Nat → Bool
  /-- history: finished successful dequeues, with the position each one claimed -/
  got : List (Nat × Option α)

/-- Constructor (mpmc_bounded_queue.h:64-75). -/
def St.init : St α where
  seq := fun i => i
  data := fun _ => none
  enqPos := 0
  deqPos := 0
  pc := fun _ => .idle
  log := []
  pub := fun _ => false
  rel := fun _ => false
  got := []

/-- `pos & buffer_mask_` with `buffer_mask_ = buffer_size - 1` (lines 66, 88, 120). Code:
mpmc_bounded_queue.h:66, mpmc_bounded_queue.h:88, mpmc_bounded_queue.h:120. -/
def idx (n pos : Nat) : Nat := pos &&& (n - 1)

/-- `s` with thread `t` at `p`. Code: mpmc_bounded_queue.h:84-140. -/
def St.goto (s : St α) (t : Nat) (p : Pc α) : St α := { s with pc := setf s.pc t p }

/-- What `enqueue` does with a loaded sequence number (lines 90-100). Code:
mpmc_bounded_queue.h:90-100. -/
def enqNext (x : α) (pos seq : Nat) : Pc α :=
  let dif : Int := (seq : Int) - (pos : Int)
  if dif = 0 then .enqCas x pos
  else if dif < 0 then .idle -- return false
  else .enqReload x

/-- What `dequeue` does with a loaded sequence number (lines 122-132). Code:
mpmc_bounded_queue.h:122-132. -/
def deqNext (pos seq : Nat) : Pc α :=
  let dif : Int := (seq : Int) - ((pos + 1 : Nat) : Int)
  if dif = 0 then .deqCas pos
  else if dif < 0 then .idle -- return false
  else .deqReload

/-- One step of some thread of a queue of capacity `n`. Code: mpmc_bounded_queue.h:84-140. -/
inductive Step (n : Nat) : St α → St α → Prop
  /-- call `enqueue(x)` and load the position (line 86) -/
  | callEnq {s t x} : s.pc t = .idle → Step n s (s.goto t (.enqSeq x s.enqPos))
  /-- line 89 and the branches of lines 90-100 -/
  | enqSeq {s t x pos} : s.pc t = .enqSeq x pos →
      Step n s (s.goto t (enqNext x pos (s.seq (idx n pos))))
  /-- line 99 -/
  | enqReload {s t x} : s.pc t = .enqReload x → Step n s (s.goto t (.enqSeq x s.enqPos))
  /-- line 92 succeeds: the position is claimed -/
  | enqCasOk {s t x pos} : s.pc t = .enqCas x pos → s.enqPos = pos →
      Step n s { s.goto t (.enqWrite x pos) with enqPos := pos + 1, log := s.log ++ [x] }
  /-- line 92 fails, possibly spuriously, and loads the current position -/
  | enqCasFail {s t x pos} : s.pc t = .enqCas x pos → Step n s (s.goto t (.enqSeq x s.enqPos))
  /-- line 103 -/
  | enqWrite {s t x pos} : s.pc t = .enqWrite x pos →
      Step n s { s.goto t (.enqPub x pos) with data := setf s.data (idx n pos) (some x) }
  /-- lines 104-106 -/
  | enqPub {s t x pos} : s.pc t = .enqPub x pos →
      Step n s { s.goto t .idle with
        seq := setf s.seq (idx n pos) (pos + 1), pub := setf s.pub pos true }
  /-- call `dequeue` and load the position (line 118) -/
  | callDeq {s t} : s.pc t = .idle → Step n s (s.goto t (.deqSeq s.deqPos))
  /-- line 121 and the branches of lines 122-132 -/
  | deqSeq {s t pos} : s.pc t = .deqSeq pos →
      Step n s (s.goto t (deqNext pos (s.seq (idx n pos))))
  /-- line 131 -/
  | deqReload {s t} : s.pc t = .deqReload → Step n s (s.goto t (.deqSeq s.deqPos))
  /-- line 124 succeeds -/
  | deqCasOk {s t pos} : s.pc t = .deqCas pos → s.deqPos = pos →
      Step n s { s.goto t (.deqRead pos) with deqPos := pos + 1 }
  /-- line 124 fails -/
  | deqCasFail {s t pos} : s.pc t = .deqCas pos → Step n s (s.goto t (.deqSeq s.deqPos))
  /-- line 135 -/
  | deqRead {s t pos} : s.pc t = .deqRead pos →
      Step n s (s.goto t (.deqPub pos (s.data (idx n pos))))
  /-- lines 136-139: the new sequence number is `pos + buffer_mask_ + 1` -/
  | deqPub {s t pos v} : s.pc t = .deqPub pos v →
      Step n s { s.goto t .idle with
        seq := setf s.seq (idx n pos) (pos + (n - 1) + 1), rel := setf s.rel pos true
        got := s.got ++ [(pos, v)] }

/-- States reachable by any interleaving. Code: mpmc_bounded_queue.h:64-140. -/
inductive Reachable (n : Nat) : St α → Prop
  | init : Reachable n St.init
  | step {s s'} : Reachable n s → Step n s s' → Reachable n s'

end Phosphor.Mpmc
