import Verif.Model.TraceLogWeak
/-
The trace log over a release/acquire memory (Model/TraceLogWeak) with the chunk locks opened up: in
place of an object that passes on what was known at its release, a chunk lock is the atomic word
`state` of src/chunk_lock.cc, in the same memory as `enabled`, and locking and unlocking are the
compare-exchanges and stores of the code. A load in a compare-exchange that fails may return an old
value. Both ways to unlock are there, that of a build with `NDEBUG` and the other. The fields `lk` and `lview` of the state are not used.
-/
namespace Phosphor.TLog.W
open Phosphor.Weak

/-- The word `state` of the chunk lock of thread `u`: 0 is `Unlocked`, 1 `SlaveLocked`, 2
`MasterLocked`. Code: chunk_lock.h:126-133. -/
def lockAt (u : Nat) : Loc := .ext (2 * u)

/-- One step. The steps that have nothing to do with the chunk locks are those of Model/TraceLogWeak
that can be made whatever the lock objects are, and leave them alone; they do not store in the lock
words, and do not go on from `try_lock`. Code: trace_log.cc:63-317, chunk_lock.cc:29-80. -/
inductive LStep : St → St → Prop
  | other {w w'} : (∀ lk lview, Step true { w with lk := lk, lview := lview } { w' with lk := lk, lview := lview }) →
      (∀ u, w'.mem.hist (lockAt u) = w.mem.hist (lockAt u)) → (∀ t, w.pc t = .tryLock → w'.pc t = .tryLock) →
      w'.lk = w.lk → w'.lview = w.lview → LStep w w'
  /-- `tryLockSlave`: the compare-exchange succeeds (chunk_lock.cc:38) -/
  | tryOk {w t ts m} : w.pc t = .tryLock → w.mem.readable t (lockAt t) ts m →
      w.mem.hist (lockAt t) (ts + 1) = none → m.val = 0 →
      LStep w (w.goto t .locked (w.mem.rmwAcqRel t (lockAt t) ts m 1))
  /-- it fails, and not because of `MasterLocked` (chunk_lock.cc:38-43) -/
  | tryAgain {w t ts m} : w.pc t = .tryLock → w.mem.readable t (lockAt t) ts m → m.val ≠ 2 →
      LStep w (w.goto t .tryLock (w.mem.loadAcq t (lockAt t) ts m))
  /-- it fails because of `MasterLocked` (chunk_lock.cc:38-40) -/
  | tryFail {w t ts m} : w.pc t = .tryLock → w.mem.readable t (lockAt t) ts m → m.val = 2 →
      LStep w (w.goto t .idle (w.mem.loadAcq t (lockAt t) ts m))
  /-- `unlockSlave` (chunk_lock.cc:47-49; with `NDEBUG`) -/
  | unlock {w t ts} : w.pc t = .unlock → w.mem.free t (lockAt t) ts →
      LStep w (w.goto t .idle (w.mem.storeRel t (lockAt t) ts 0))
  /-- without `NDEBUG` it is a compare-exchange, in an assertion that it succeeds (chunk_lock.cc:50-56) -/
  | unlockD {w t ts m} : w.pc t = .unlock → w.mem.readable t (lockAt t) ts m →
      w.mem.hist (lockAt t) (ts + 1) = none → m.val = 1 →
      LStep w (w.goto t .idle (w.mem.rmwAcqRel t (lockAt t) ts m 0))
  /-- `lockMaster`: the compare-exchange succeeds (chunk_lock.cc:66) -/
  | evLock {w t k d u ts m} : w.pc t = .evict k d → w.pend u = true → w.mem.readable t (lockAt u) ts m →
      w.mem.hist (lockAt u) (ts + 1) = none → m.val = 0 →
      LStep w (w.goto t (.evClear k d u) (w.mem.rmwAcqRel t (lockAt u) ts m 2))
  /-- it fails (chunk_lock.cc:66-68) -/
  | evAgain {w t k d u ts m} : w.pc t = .evict k d → w.pend u = true → w.mem.readable t (lockAt u) ts m →
      LStep w (w.goto t (.evict k d) (w.mem.loadAcq t (lockAt u) ts m))
  /-- `unlockMaster` (chunk_lock.cc:71-73; with `NDEBUG`) -/
  | evUnlock {w t k d u ts} : w.pc t = .evUnlock k d u → w.mem.free t (lockAt u) ts →
      LStep w { w.goto t (.evict k d) (w.mem.storeRel t (lockAt u) ts 0) with pend := setf w.pend u false }
  /-- without `NDEBUG` (chunk_lock.cc:74-80) -/
  | evUnlockD {w t k d u ts m} : w.pc t = .evUnlock k d u → w.mem.readable t (lockAt u) ts m →
      w.mem.hist (lockAt u) (ts + 1) = none → m.val = 2 →
      LStep w { w.goto t (.evict k d) (w.mem.rmwAcqRel t (lockAt u) ts m 0) with pend := setf w.pend u false }

/-- States reachable by any execution. Code: trace_log.cc:37-317, chunk_lock.cc:29-80. -/
inductive LReachable : St → Prop
  | init : LReachable St.init
  | step {w w'} : LReachable w → LStep w w' → LReachable w'

end Phosphor.TLog.W
