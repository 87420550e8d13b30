import Verif.Model.Basic
/-
Model of src/chunk_lock.cc: one ChunkLock used by any number of threads; one step is one
atomic operation on `state`. Sequentially consistent memory.
-/
namespace Phosphor.ChunkLock

/-- `ChunkLock::State` (chunk_lock.h, `enum class State`). Code: chunk_lock.h:126-131. -/
inductive State
  | unlocked
  | slaveLocked
  | masterLocked
  deriving DecidableEq, Repr

/-- `state.compare_exchange_weak(expected, desired)`: new state, new value of `expected`, and
the result. A weak exchange may fail spuriously even if the state equals `expected`. Code:
chunk_lock.cc:31, chunk_lock.cc:38, chunk_lock.cc:65. -/
def casWeak (state expected desired : State) (spurious : Bool) : State × State × Bool :=
  if state = expected ∧ spurious = false then (desired, expected, true)
  else (state, state, false)

/-- Program counter of a thread with respect to the lock. Code: chunk_lock.cc:29-80. -/
inductive Pc
  /-- not using the lock -/
  | idle
  /-- in the loop of `lockSlave` (chunk_lock.cc:31-33) -/
  | lockS
  /-- in the loop of `tryLockSlave` (chunk_lock.cc:38-43) -/
  | tryS
  /-- in the loop of `lockMaster` (chunk_lock.cc:65-67) -/
  | lockM
  /-- returned from `lockSlave`, or `true` from `tryLockSlave`; not yet unlocked -/
  | heldS
  /-- returned from `lockMaster`; not yet unlocked -/
  | heldM
  deriving DecidableEq, Repr

/-- The lock word, thread program counters, and (history) the results of the finished
`tryLockSlave` calls, each with the values the lock word had during the call. Code:
chunk_lock.h:133. -/
structure St where
  state : State
  pc : Nat → Pc
  /-- ghost: values of the lock word since the current `tryLockSlave` call of a thread began -/
  seen : Nat → List State
  /-- ghost: finished `tryLockSlave` calls: thread, result, values seen -/
  tries : List (Nat × Bool × List State)

/-- Constructor / zero initialisation (chunk_lock.cc:18-19). -/
def St.init : St := { state := .unlocked, pc := fun _ => .idle, seen := fun _ => [], tries := [] }

/-- Outcome of one round of the loop of `lockSlave` (chunk_lock.cc:29-34) or `lockMaster`
(chunk_lock.cc:63-68): expected is `Unlocked` at the start of every round. -/
def lockRound (state desired : State) (spurious : Bool) : State × Bool :=
  let (state, _, ok) := casWeak state .unlocked desired spurious
  (state, ok)

/-- Outcome of one round of the loop of `tryLockSlave` (chunk_lock.cc:36-45): new state and
the returned value if the call returns. -/
def tryRound (state : State) (spurious : Bool) : State × Option Bool :=
  let (state, expected, ok) := casWeak state .unlocked .slaveLocked spurious
  if ok then (state, some true)
  else if expected = .masterLocked then (state, some false)
  else (state, none)

/-- One atomic step of thread `t`. Only a holder unlocks (the rule that the assertions of
chunk_lock.cc:51-55 and 74-78 check in debug builds). -/
inductive Step : St → St → Prop
  | callLockS {s t} : s.pc t = .idle → Step s { s with pc := setf s.pc t .lockS }
  | callLockM {s t} : s.pc t = .idle → Step s { s with pc := setf s.pc t .lockM }
  | callTryS {s t} : s.pc t = .idle →
      Step s { s with pc := setf s.pc t .tryS, seen := setf s.seen t [s.state] }
  | lockS {s t sp} : s.pc t = .lockS →
      Step s { s with
        state := (lockRound s.state .slaveLocked sp).1
        pc := if (lockRound s.state .slaveLocked sp).2 then setf s.pc t .heldS else s.pc
        seen := fun u => (lockRound s.state .slaveLocked sp).1 :: s.seen u }
  | lockM {s t sp} : s.pc t = .lockM →
      Step s { s with
        state := (lockRound s.state .masterLocked sp).1
        pc := if (lockRound s.state .masterLocked sp).2 then setf s.pc t .heldM else s.pc
        seen := fun u => (lockRound s.state .masterLocked sp).1 :: s.seen u }
  /-- the loop goes round again -/
  | tryAgain {s t sp} : s.pc t = .tryS → (tryRound s.state sp).2 = none →
      Step s { s with
        state := (tryRound s.state sp).1
        seen := fun u => (tryRound s.state sp).1 :: s.seen u }
  /-- the call returns `r` -/
  | tryRet {s t sp r} : s.pc t = .tryS → (tryRound s.state sp).2 = some r →
      Step s { s with
        state := (tryRound s.state sp).1
        pc := setf s.pc t (if r then .heldS else .idle)
        seen := fun u => (tryRound s.state sp).1 :: s.seen u
        tries := (t, r, (tryRound s.state sp).1 :: s.seen t) :: s.tries }
  /-- `unlockSlave` (chunk_lock.cc:47-57), release build: an unconditional store -/
  | unlockS {s t} : s.pc t = .heldS →
      Step s { s with
        state := .unlocked
        pc := setf s.pc t .idle
        seen := fun u => .unlocked :: s.seen u }
  /-- `unlockMaster` (chunk_lock.cc:70-80), release build -/
  | unlockM {s t} : s.pc t = .heldM →
      Step s { s with
        state := .unlocked
        pc := setf s.pc t .idle
        seen := fun u => .unlocked :: s.seen u }

/-- States reachable by any interleaving. Code: chunk_lock.cc:18-80. -/
inductive Reachable : St → Prop
  | init : Reachable St.init
  | step {s s'} : Reachable s → Step s s' → Reachable s'

end Phosphor.ChunkLock
