import Verif.Model.Mpmc
/-
Model of thirdparty/dvyukov/include/dvyukov/mpmc_bounded_queue.h with positions and sequence
numbers of `w` bits (`size_t`, `intptr_t`; w = 64 on the platforms the project builds for) that
wrap around, in place of the unbounded naturals of Verif/Model/Mpmc.lean. The signed
subtraction of lines 90 and 122 is undefined behaviour in C++ when it overflows; `strict = true`
makes that overflow a distinct program counter, `strict = false` is the result that the
machine's subtraction (or -fwrapv) gives.

Fields and parameters called history or ticket are not part of the program: no step of the
program depends on them.
-/
namespace Phosphor.MpmcWord

variable {α : Type}

/-- Program counter of a thread inside `enqueue` / `dequeue`, as `Mpmc.Pc` with machine words.
The last number is history: at a load of a position the number of claims so far, at a claimed
position the number of claims before it. Code: mpmc_bounded_queue.h:84-140. -/
inductive Pc (w : Nat) (α : Type)
  | idle
  /-- about to load the cell's sequence number (line 89) -/
  | enqSeq (x : α) (pos : BitVec w) (born : Nat)
  /-- about to reload `enqueue_pos_` (line 99) -/
  | enqReload (x : α)
  /-- about to compare-exchange `enqueue_pos_` (line 92) -/
  | enqCas (x : α) (pos : BitVec w) (born : Nat)
  /-- about to store the data (line 103) -/
  | enqWrite (x : α) (pos : BitVec w) (ticket : Nat)
  /-- about to publish the sequence number (line 104) -/
  | enqPub (x : α) (pos : BitVec w) (ticket : Nat)
  /-- about to load the cell's sequence number (line 121) -/
  | deqSeq (pos : BitVec w) (born : Nat)
  /-- about to reload `dequeue_pos_` (line 131) -/
  | deqReload
  /-- about to compare-exchange `dequeue_pos_` (line 124) -/
  | deqCas (pos : BitVec w) (born : Nat)
  /-- about to read the data (line 135) -/
  | deqRead (pos : BitVec w) (ticket : Nat)
  /-- about to release the cell (line 136) -/
  | deqPub (pos : BitVec w) (ticket : Nat) (v : Option α)
  /-- the subtraction of line 90 or 122 has overflowed: undefined behaviour -/
  | undef

/-- Shared memory, program counters and history. Code: mpmc_bounded_queue.h:142-158. -/
structure St (w : Nat) (α : Type) where
  /-- `buffer_[i].sequence_` -/
  seq : Nat → BitVec w
  /-- `buffer_[i].data_`; `none` before the first store -/
  data : Nat → Option α
  /-- `enqueue_pos_` -/
  enqPos : BitVec w
  /-- `dequeue_pos_` -/
  deqPos : BitVec w
  pc : Nat → Pc w α
  /-- history: items in the order in which their positions were claimed -/
  log : List α
  /-- history: number of claims by `dequeue` -/
  taken : Nat
  /-- history: the enqueue claim with this ticket has been published -/
  pub : Nat → Bool
  /-- history: the dequeue claim with this ticket has released its cell -/
  rel : Nat → Bool
  /-- history: finished successful dequeues with their tickets -/
  got : List (Nat × Option α)

/-- Constructor. Code: mpmc_bounded_queue.h:64-75. -/
def St.init (w : Nat) : St w α where
  seq := fun i => BitVec.ofNat w i
  data := fun _ => none
  enqPos := 0
  deqPos := 0
  pc := fun _ => .idle
  log := []
  taken := 0
  pub := fun _ => false
  rel := fun _ => false
  got := []

/-- `buffer_mask_` of a queue of capacity `n`. Code: mpmc_bounded_queue.h:66. -/
def mask (w n : Nat) : BitVec w := BitVec.ofNat w n - 1

/-- `pos & buffer_mask_`. Code: mpmc_bounded_queue.h:88, mpmc_bounded_queue.h:120. -/
def idx {w : Nat} (n : Nat) (pos : BitVec w) : Nat := (pos &&& mask w n).toNat

/-- `(intptr_t) a - (intptr_t) b`; `none` is undefined behaviour.
Code: mpmc_bounded_queue.h:90, mpmc_bounded_queue.h:122. -/
def dif {w : Nat} (strict : Bool) (a b : BitVec w) : Option Int :=
  let d := a.toInt - b.toInt
  if strict = true ∧ (d < -(2 ^ (w - 1)) ∨ 2 ^ (w - 1) ≤ d) then none else some (d.bmod (2 ^ w))

/-- `s` with thread `t` at `p`. Code: mpmc_bounded_queue.h:84-140. -/
def St.goto {w : Nat} (s : St w α) (t : Nat) (p : Pc w α) : St w α :=
  { s with pc := setf s.pc t p }

/-- What `enqueue` does with a loaded sequence number. Code: mpmc_bounded_queue.h:90-100. -/
def enqNext {w : Nat} (strict : Bool) (x : α) (pos : BitVec w) (born : Nat) (seq : BitVec w) :
    Pc w α :=
  match dif strict seq pos with
  | none => .undef
  | some d => if d = 0 then .enqCas x pos born else if d < 0 then .idle else .enqReload x

/-- What `dequeue` does with a loaded sequence number. Code: mpmc_bounded_queue.h:122-132. -/
def deqNext {w : Nat} (strict : Bool) (pos : BitVec w) (born : Nat) (seq : BitVec w) : Pc w α :=
  match dif strict seq (pos + 1) with
  | none => .undef
  | some d => if d = 0 then .deqCas pos born else if d < 0 then .idle else .deqReload

/-- One step of some thread of a queue of capacity `n`. Code: mpmc_bounded_queue.h:84-140. -/
inductive Step {w : Nat} (strict : Bool) (n : Nat) : St w α → St w α → Prop
  /-- call `enqueue(x)` and load the position (line 86) -/
  | callEnq {s t x} : s.pc t = .idle →
      Step strict n s (s.goto t (.enqSeq x s.enqPos s.log.length))
  /-- line 89 and the branches of lines 90-100 -/
  | enqSeq {s t x pos b} : s.pc t = .enqSeq x pos b →
      Step strict n s (s.goto t (enqNext strict x pos b (s.seq (idx n pos))))
  /-- line 99 -/
  | enqReload {s t x} : s.pc t = .enqReload x →
      Step strict n s (s.goto t (.enqSeq x s.enqPos s.log.length))
  /-- line 92 succeeds: the position is claimed -/
  | enqCasOk {s t x pos b} : s.pc t = .enqCas x pos b → s.enqPos = pos →
      Step strict n s { s.goto t (.enqWrite x pos s.log.length) with
        enqPos := pos + 1, log := s.log ++ [x] }
  /-- line 92 fails, possibly spuriously, and loads the current position -/
  | enqCasFail {s t x pos b} : s.pc t = .enqCas x pos b →
      Step strict n s (s.goto t (.enqSeq x s.enqPos s.log.length))
  /-- line 103 -/
  | enqWrite {s t x pos k} : s.pc t = .enqWrite x pos k →
      Step strict n s { s.goto t (.enqPub x pos k) with data := setf s.data (idx n pos) (some x) }
  /-- lines 104-106 -/
  | enqPub {s t x pos k} : s.pc t = .enqPub x pos k →
      Step strict n s { s.goto t .idle with
        seq := setf s.seq (idx n pos) (pos + 1), pub := setf s.pub k true }
  /-- call `dequeue` and load the position (line 118) -/
  | callDeq {s t} : s.pc t = .idle → Step strict n s (s.goto t (.deqSeq s.deqPos s.taken))
  /-- line 121 and the branches of lines 122-132 -/
  | deqSeq {s t pos b} : s.pc t = .deqSeq pos b →
      Step strict n s (s.goto t (deqNext strict pos b (s.seq (idx n pos))))
  /-- line 131 -/
  | deqReload {s t} : s.pc t = .deqReload → Step strict n s (s.goto t (.deqSeq s.deqPos s.taken))
  /-- line 124 succeeds -/
  | deqCasOk {s t pos b} : s.pc t = .deqCas pos b → s.deqPos = pos →
      Step strict n s { s.goto t (.deqRead pos s.taken) with
        deqPos := pos + 1, taken := s.taken + 1 }
  /-- line 124 fails -/
  | deqCasFail {s t pos b} : s.pc t = .deqCas pos b →
      Step strict n s (s.goto t (.deqSeq s.deqPos s.taken))
  /-- line 135 -/
  | deqRead {s t pos k} : s.pc t = .deqRead pos k →
      Step strict n s (s.goto t (.deqPub pos k (s.data (idx n pos))))
  /-- lines 136-139 -/
  | deqPub {s t pos k v} : s.pc t = .deqPub pos k v →
      Step strict n s { s.goto t .idle with
        seq := setf s.seq (idx n pos) (pos + mask w n + 1), rel := setf s.rel k true
        got := s.got ++ [(k, v)] }

/-- States reachable by any interleaving. Code: mpmc_bounded_queue.h:64-140. -/
inductive Reachable {w : Nat} (strict : Bool) (n : Nat) : St w α → Prop
  | init : Reachable strict n (St.init w)
  | step {s s'} : Reachable strict n s → Step strict n s s' → Reachable strict n s'

/-- No thread is working with a position that has been overtaken by more than about half of the
range of a word since the thread loaded it: between a thread's load of a position and its use
of it at most `2^(w-1) - 2n` positions have been claimed on the same side of the queue. -/
def Fresh {w : Nat} (n : Nat) (s : St w α) : Prop :=
  ∀ t, match s.pc t with
    | .enqSeq _ _ b | .enqCas _ _ b => s.log.length + 2 * n ≤ b + 2 ^ (w - 1)
    | .deqSeq _ b | .deqCas _ b => s.taken + 2 * n ≤ b + 2 ^ (w - 1)
    | _ => True

/-- States reachable by interleavings in which no thread is delayed for that long. The number
of operations, and so the number of times the positions wrap around, is not limited.
Code: mpmc_bounded_queue.h:64-140. -/
inductive ReachableFresh {w : Nat} (strict : Bool) (n : Nat) : St w α → Prop
  | init : ReachableFresh strict n (St.init w)
  | step {s s'} : ReachableFresh strict n s → Fresh n s → Step strict n s s' →
      ReachableFresh strict n s'

end Phosphor.MpmcWord
