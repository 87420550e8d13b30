import Verif.Model.TraceLog
/-
Threads that end. The `ChunkTenant` of a thread is thread-local (trace_log.cc:36), so it is gone when
the thread has ended, but `registered_chunk_tenants` keeps its address until `deregisterThread`
(trace_log.cc:199, 226); `ChunkTenant` has no destructor that would remove it.

Simplification: a thread that begins later has storage of its own, it does not get the address of a
tenant that is gone.
-/
namespace Phosphor.TLog
variable {ε : Type}

/-- The tenant that the next step of thread `t` accesses: its own, or the one to be evicted. Code:
trace_log.cc:191-226, trace_log.cc:257-308, trace_log.cc:312-316. -/
def St.touches (s : St ε) (t : Nat) (c : Choice ε) : Option Nat :=
  match c, s.pc t with
  | .step, .held (.evict (u :: _) _) _ => some u
  | .step, .held (.evictClear u _ _) _ => some u
  | .step, .held (.evictUnlock u _ _) _ => some u
  | .spurious, .held (.evictClear u _ _) _ => some u
  | .spurious, .held (.evictUnlock u _ _) _ => some u
  | .spurious, .tryLock _ => some t
  | .step, .tryLock _ | .step, .checkInit _ | .step, .checkChunk _ | .step, .recheck _ | .step, .retDo _ _
  | .step, .getDo _ _ | .step, .getWait _ _ | .step, .failUnlock _ _ | .step, .store _ | .step, .unlock
  | .step, .regBody _ | .step, .deregBody => some t
  | _, _ => none

/-- The log, and the threads that have ended. Code: trace_log.cc:36. -/
structure Life (ε : Type) where
  log : St ε
  ended : Nat → Bool

/-- No thread has ended. Code: trace_log.cc:36-44. -/
def Life.init : Life ε := ⟨St.init, fun _ => false⟩

/-- A thread makes a step of the log, or ends. Code: trace_log.cc:46-317. -/
inductive Life.Choice (ε : Type)
  | log (c : TLog.Choice ε)
  | finish

/-- One step of thread `t`, which must not have ended. Accessing the tenant of a thread that has
ended is undefined. A thread ends outside of every call of the log. Code: trace_log.cc:36,
trace_log.cc:46-317. -/
def Life.next (pol : Bool) (tid : Nat → Nat) (s : Life ε) (t : Nat) : Life.Choice ε → Out (Life ε)
  | .finish =>
    if s.ended t = false ∧ s.log.isIdle t = true then .to { s with ended := setf s.ended t true } else .blocked
  | .log c =>
    if s.ended t then .blocked
    else if (s.log.touches t c).any s.ended then .ub
    else
      match s.log.next pol tid t c with
      | .to l => .to { s with log := l }
      | .ub => .ub
      | .blocked => .blocked

/-- Runs a list of steps. Code: trace_log.cc:46-317. -/
def Life.run (pol : Bool) (tid : Nat → Nat) (s : Life ε) : List (Nat × Life.Choice ε) → Out (Life ε)
  | [] => .to s
  | (t, c) :: l =>
    match s.next pol tid t c with
    | .to s' => s'.run pol tid l
    | .ub => .ub
    | .blocked => .blocked

/-- States reachable by any interleaving of threads that may end at any time. Code:
trace_log.cc:38-317. -/
inductive Life.Reachable (pol : Bool) (tid : Nat → Nat) : Life ε → Prop
  | init : Life.Reachable pol tid Life.init
  | step {s s' : Life ε} {t c} : Life.Reachable pol tid s → s.next pol tid t c = .to s' →
      Life.Reachable pol tid s'

end Phosphor.TLog
