import Verif.Model.Guards
/-
Programs made of traced scopes and lock guards, with exceptions: what the guards of Model/Guards do
when they are nested, and when a scope is left by an exception instead of by reaching its end.
A program is a finite execution of one thread (loops and calls unfolded).
Simplification: as in Model/Guards, `logEvent` does not throw (C78 says when it does).
-/
namespace Phosphor.Scopes

/-- What a thread does. Code: phosphor.h:168-216, phosphor.h:272-325. -/
inductive Prog
  /-- anything else -/
  | other (n : Nat)
  /-- `throw` -/
  | raise
  /-- one statement after the other -/
  | seq (p q : Prog)
  /-- `try { p } catch (...) { q }` -/
  | attempt (p q : Prog)
  /-- `{ TRACE_EVENT2(...); p }` -/
  | scope (tpi : TracepointInfo) (a1 a2 : CVal) (p : Prog)
  /-- `{ TRACE_LOCKGUARD_TIMED(...); p }` -/
  | locked (tpiWait tpiHeld : TracepointInfo) (m : BitVec 64) (threshold : Int) (p : Prog)

/-- What the rest of the world decides: the category status a guard's macro finds, for each guard
constructed, and whether `mutex.lock()` returns or throws, for each call.
Code: phosphor.h:181, phosphor.h:290-297, scoped_event_guard.h:85-90. -/
structure Env where
  enabled : Nat → Bool
  lockOk : Nat → Bool

/-- The world of Model/Guards, the category statuses found so far and the number of calls of
`mutex.lock()`. Code: scoped_event_guard.h:27-125. -/
structure St where
  world : World
  asked : List Bool
  locks : Nat

/-- A program ends, or leaves by an exception, or is undefined. Not code: ways to leave a scope. -/
inductive Out
  | ends (s : St)
  | raises (s : St)
  | ub

/-- The destructor of a guard runs, however its scope is left. Code: scoped_event_guard.h:39-45,
scoped_event_guard.h:95-115. -/
def Out.leave (dtor : World → Res World) : Out → Out
  | .ends s => match dtor s.world with
    | .ok w => .ends { s with world := w }
    | _ => .ub
  | .raises s => match dtor s.world with
    | .ok w => .raises { s with world := w }
    | _ => .ub
  | .ub => .ub

/-- Runs a program. Code: scoped_event_guard.h:27-125, phosphor.h:168-216, phosphor.h:272-325. -/
def exec (env : Env) : Prog → St → Out
  | .other n, s => .ends { s with world := s.world.act (.other n) }
  | .raise, s => .raises s
  | .seq p q, s => match exec env p s with
    | .ends s => exec env q s
    | o => o
  | .attempt p q, s => match exec env p s with
    | .raises s => exec env q s
    | o => o
  | .scope tpi a1 a2 p, s =>
    let on := env.enabled s.asked.length
    let (g, w) := ScopedGuard.ctor tpi on a1 a2 s.world
    (exec env p { s with world := w, asked := s.asked ++ [on] }).leave g.dtor
  | .locked tpiWait tpiHeld m threshold p, s =>
    let on := env.enabled s.asked.length
    match MutexGuard.ctor tpiWait tpiHeld on m threshold (env.lockOk s.locks) s.world with
    | (some g, w) =>
      (exec env p { world := w, asked := s.asked ++ [on], locks := s.locks + 1 }).leave g.dtor
    | (none, w) => .raises { world := w, asked := s.asked ++ [on], locks := s.locks + 1 }

/-- Runs a program compiled with `PHOSPHOR_DISABLED`: scopes have no guard, lock guards are
`std::lock_guard`. Code: phosphor.h:569-580. -/
def execOut (env : Env) : Prog → St → Out
  | .other n, s => .ends { s with world := s.world.act (.other n) }
  | .raise, s => .raises s
  | .seq p q, s => match execOut env p s with
    | .ends s => execOut env q s
    | o => o
  | .attempt p q, s => match execOut env p s with
    | .raises s => execOut env q s
    | o => o
  | .scope _ _ _ p, s => execOut env p s
  | .locked _ _ m _ p, s =>
    if env.lockOk s.locks then
      (execOut env p { s with world := s.world.act (.lock m), locks := s.locks + 1 }).leave
        (fun w => .ok (w.act (.unlock m)))
    else .raises { s with world := s.world.act (.lockFailed m), locks := s.locks + 1 }

end Phosphor.Scopes
