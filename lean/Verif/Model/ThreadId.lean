import Verif.Model.Basic
/-
Thread ids: `getCurrentThreadID` and its cached version, over an operating system that starts, ends
and forks threads and reuses ids.
-/
namespace Phosphor.Tid

/-- How a thread came to be. Not code: the operating system. -/
inductive Origin
  | created
  | forked (parent : Nat)
  deriving DecidableEq, Repr

/-- The operating system and the thread-local variables. `live t`: process and system id of thread
`t`, a name for it that is never reused. `cache t`: its `thread_id` (thread.h:57), which is zero
when a thread is created. -/
structure Os where
  live : Nat → Option (Nat × Nat)
  born : Nat → Option Origin
  cache : Nat → Nat

/-- No live thread has the system id. Not code: ids are unique among live threads. -/
def Os.unused (o : Os) (id : Nat) : Prop := ∀ t p i, o.live t = some (p, i) → i ≠ id

/-- `getCurrentThreadID` (thread.cc:32-47): the system call. -/
def Os.current (o : Os) (t : Nat) : Nat :=
  match o.live t with
  | some (_, i) => i
  | none => 0

/-- `getCurrentThreadIDCached` (thread.h:56-64): the id returned and the variable afterwards. -/
def Os.cached (o : Os) (t : Nat) : Nat × Os :=
  let o' := if o.cache t = 0 then { o with cache := setf o.cache t (o.current t) } else o
  (o'.cache t, o')

/-- One process with one thread. Not code: the operating system. -/
def Os.start (id : Nat) : Os where
  live := fun t => if t = 0 then some (0, id) else none
  born := fun t => if t = 0 then some .created else none
  cache := fun _ => 0

/-- What can happen. `some (t, r)`: thread `t` asked for its cached id and got `r`. System ids are
positive and fit 32 bits (the `static_assert` of thread.cc:44-45). -/
inductive Step : Os → Option (Nat × Nat) → Os → Prop
  | create {o t p i n k} : o.live t = some (p, i) → o.born n = none → 0 < k → k < 2 ^ 32 → o.unused k →
      Step o none { live := setf o.live n (some (p, k)), born := setf o.born n (some .created), cache := setf o.cache n 0 }
  | exit {o t p i} : o.live t = some (p, i) → Step o none { o with live := setf o.live t none }
  /-- `fork`: the memory of the thread that calls it is copied, thread-local variables included. -/
  | fork {o t p i n q k} : o.live t = some (p, i) → o.born n = none → 0 < k → k < 2 ^ 32 → o.unused k →
      Step o none { live := setf o.live n (some (q, k)), born := setf o.born n (some (.forked t)),
                    cache := setf o.cache n (o.cache t) }
  | cached {o t p i} : o.live t = some (p, i) → Step o (some (t, (o.cached t).1)) (o.cached t).2

/-- Executions, with the ids returned, oldest first. Not code. -/
inductive Run : Os → List (Nat × Nat) → Os → Prop
  | refl {o} : Run o [] o
  | step {o l o' r o''} : Run o l o' → Step o' r o'' → Run o (l ++ r.toList) o''

end Phosphor.Tid
