import Verif.Model.ChunkLock
import Verif.Model.Weak
/-
Model of src/chunk_lock.cc with the memory orders of the source: the compare-exchanges are
sequentially consistent (the default), the unlocks are release stores. One step is one access
to memory. The lock protects one plain location (in the trace log `ChunkTenant::chunk` and,
through it, a chunk); the threads also use other atomics and other plain locations.
-/
namespace Phosphor.ChunkLock.W
open Phosphor.Weak

/-- Atomic locations: the lock word (chunk_lock.h:133) and any others. Code: chunk_lock.h:133. -/
inductive Loc
  | lock
  | other (n : Nat)
  deriving DecidableEq

/-- Memory and where the threads are. Code: chunk_lock.h:126-133. -/
structure St where
  mem : Mem Loc State Unit
  pc : Nat → Pc

/-- Constructor / zero initialisation. Code: chunk_lock.cc:18-19. -/
def St.init : St := ⟨Mem.init fun _ => .unlocked, fun _ => .idle⟩

/-- What a thread in a loop does after a failed exchange that read `v`: `tryLockSlave` returns
false if it read MasterLocked, otherwise the loop goes round again. Code: chunk_lock.cc:31-33,
chunk_lock.cc:38-43, chunk_lock.cc:65-67. -/
def afterFail (p : Pc) (v : State) : Pc :=
  if p = .tryS ∧ v = .masterLocked then .idle else p

/-- The exchange a thread in a loop makes: the value it stores and where it continues if it
succeeds. Code: chunk_lock.cc:31, chunk_lock.cc:38, chunk_lock.cc:65. -/
def exchange : Pc → Option (State × Pc)
  | .lockS => some (.slaveLocked, .heldS)
  | .tryS => some (.slaveLocked, .heldS)
  | .lockM => some (.masterLocked, .heldM)
  | _ => none

/-- The thread is between acquiring and releasing the lock. Not code: ownership. -/
def Holds (w : St) (t : Nat) : Prop := w.pc t = .heldS ∨ w.pc t = .heldM

/-- The value `unlockSlave` and `unlockMaster` expect in a debug build. Code: chunk_lock.cc:51,
chunk_lock.cc:74. -/
def heldState : Pc → Option State
  | .heldS => some .slaveLocked
  | .heldM => some .masterLocked
  | _ => none

/-- One step of thread `t`. Only a holder unlocks or uses the protected location. Code:
chunk_lock.cc:29-80. -/
inductive Step : St → St → Prop
  /-- a plain access to some other location -/
  | other {w t} : Step w { w with mem := w.mem.other t }
  /-- accesses to other atomics -/
  | otherLoad {w t n ts m} : w.mem.readable t (.other n) ts m →
      Step w { w with mem := w.mem.loadAcq t (.other n) ts m }
  | otherStore {w t n ts v} : w.mem.free t (.other n) ts →
      Step w { w with mem := w.mem.storeRel t (.other n) ts v }
  | otherRmw {w t n ts m v} : w.mem.readable t (.other n) ts m →
      w.mem.hist (.other n) (ts + 1) = none →
      Step w { w with mem := w.mem.rmwAcqRel t (.other n) ts m v }
  /-- `lockSlave`, `tryLockSlave`, `lockMaster` are called -/
  | callLockS {w t} : w.pc t = .idle → Step w { w with pc := setf w.pc t .lockS }
  | callTryS {w t} : w.pc t = .idle → Step w { w with pc := setf w.pc t .tryS }
  | callLockM {w t} : w.pc t = .idle → Step w { w with pc := setf w.pc t .lockM }
  /-- `state.compare_exchange_weak(expected, desired)` with `expected == Unlocked` succeeds
  (chunk_lock.cc:31, 38, 65) -/
  | casOk {w t d q ts m} : exchange (w.pc t) = some (d, q) → w.mem.readable t .lock ts m →
      m.val = .unlocked → w.mem.hist .lock (ts + 1) = none →
      Step w ⟨w.mem.rmwAcqRel t .lock ts m d, setf w.pc t q⟩
  /-- it fails, perhaps spuriously -/
  | casFail {w t d q ts m} : exchange (w.pc t) = some (d, q) → w.mem.readable t .lock ts m →
      Step w ⟨w.mem.loadAcq t .lock ts m, setf w.pc t (afterFail (w.pc t) m.val)⟩
  /-- the holder reads or writes the protected location -/
  | read {w t} : Holds w t → Step w { w with mem := w.mem.read t () }
  | write {w t} : Holds w t → Step w { w with mem := w.mem.write t () }
  /-- `unlockSlave`, `unlockMaster`: `state.store(Unlocked, memory_order_release)`
  (chunk_lock.cc:49, 72) -/
  | unlock {w t ts} : Holds w t → w.mem.free t .lock ts →
      Step w ⟨w.mem.storeRel t .lock ts .unlocked, setf w.pc t .idle⟩
  /-- `unlockSlave`, `unlockMaster` in a debug build: a compare-exchange that the assertion
  requires to succeed (chunk_lock.cc:51-55, 74-78) -/
  | unlockDebug {w t ts m} : Holds w t → w.mem.readable t .lock ts m →
      some m.val = heldState (w.pc t) → w.mem.hist .lock (ts + 1) = none →
      Step w ⟨w.mem.rmwAcqRel t .lock ts m .unlocked, setf w.pc t .idle⟩

/-- States reachable by any execution. Code: chunk_lock.cc:18-80. -/
inductive Reachable : St → Prop
  | init : Reachable St.init
  | step {w w'} : Reachable w → Step w w' → Reachable w'

end Phosphor.ChunkLock.W
