import Verif.Model.Scopes
/-
What C82 says of traces of nested code: the events of a thread, with their times, form the tree of
the traced scopes the thread went through. Nothing here mentions guards or how they work.
-/
namespace Phosphor.Scopes

/-- A Complete event. Not code: used to state C82. -/
structure Ev where
  tpi : TracepointInfo
  start : Int
  duration : Int
  argA : TraceArg
  argB : TraceArg
  deriving DecidableEq

/-- When the event is over. Not code. -/
def Ev.stop (e : Ev) : Int := e.start + e.duration

/-- The call of `logEvent` with that event. Not code. -/
def Ev.logged (e : Ev) : Act := .log e.tpi e.start e.duration e.argA e.argB

/-- A list of trees of events: the first event, those inside it, and those after it. Not code. -/
inductive Forest
  | nil
  | node (e : Ev) (inside after : Forest)

/-- One list of trees after the other. Not code. -/
def Forest.append : Forest → Forest → Forest
  | .nil, g => g
  | .node e i a, g => .node e i (a.append g)

/-- All events of a forest. Not code. -/
def Forest.events : Forest → List Ev
  | .nil => []
  | .node e i a => e :: (i.events ++ a.events)

/-- In time: the events lie between `lo` and `hi`, one after the other, and what is inside an event
lies between its start and its end. Not code. -/
def Forest.Nested : Forest → Int → Int → Prop
  | .nil, _, _ => True
  | .node e i a, lo, hi => lo ≤ e.start ∧ e.start ≤ e.stop ∧ e.stop ≤ hi ∧
      i.Nested e.start e.stop ∧ a.Nested e.stop hi

/-- The same with a clock that never shows the same time twice: events last some time, and what is
inside an event begins after it and ends before it. Not code. -/
def Forest.Strict : Forest → Int → Int → Prop
  | .nil, _, _ => True
  | .node e i a, lo, hi => lo ≤ e.start ∧ e.start < e.stop ∧ e.stop ≤ hi ∧
      i.Strict (e.start + 1) (e.stop - 1) ∧ a.Strict e.stop hi

/-- `Runs p asked f raised`: an execution of `p` whose guards find the category statuses `asked`, in
this order, goes through the traced scopes `f`, and ends by an exception or not. A scope is traced
exactly if its category is enabled on entry; a lock whose category is enabled has a "wait" followed
by a "held" event around what is done while holding it, or neither. Not code: how C++ executes
nested blocks. -/
inductive Runs : Prog → List Bool → Forest → Bool → Prop
  | other (n) : Runs (.other n) [] .nil false
  | raise : Runs .raise [] .nil true
  | seq {p q as bs f g b} : Runs p as f false → Runs q bs g b →
      Runs (.seq p q) (as ++ bs) (f.append g) b
  | seqRaise {p q as f} : Runs p as f true → Runs (.seq p q) as f true
  | attempt {p q as f} : Runs p as f false → Runs (.attempt p q) as f false
  | caught {p q as bs f g b} : Runs p as f true → Runs q bs g b →
      Runs (.attempt p q) (as ++ bs) (f.append g) b
  | scopeOff {tpi a1 a2 p as f b} : Runs p as f b → Runs (.scope tpi a1 a2 p) (false :: as) f b
  | scopeOn {tpi a1 a2 p as f b s d} : Runs p as f b →
      Runs (.scope tpi a1 a2 p) (true :: as) (.node ⟨tpi, s, d, a1.asArgument, a2.asArgument⟩ f .nil) b
  | lockFails {w h m th p x} : Runs (.locked w h m th p) [x] .nil true
  | lockOff {w h m th p as f b} : Runs p as f b → Runs (.locked w h m th p) (false :: as) f b
  | lockShort {w h m th p as f b} : Runs p as f b → Runs (.locked w h m th p) (true :: as) f b
  | lockOn {w h m th p as f b s d d'} : Runs p as f b → (d > th ∨ d' > th) →
      Runs (.locked w h m th p) (true :: as)
        (.node ⟨w, s, d, .word m, .none⟩ .nil (.node ⟨h, s + d, d', .word m, .none⟩ f .nil)) b

/-- How often a program reads the clock, at most. Not code. -/
def Prog.readings : Prog → Nat
  | .other _ => 0
  | .raise => 0
  | .seq p q => p.readings + q.readings
  | .attempt p q => p.readings + q.readings
  | .scope _ _ _ p => p.readings + 2
  | .locked _ _ _ _ p => p.readings + 3

/-- The clock during a program: times are in the range of `steady_clock`, which starts at 0. Not
code. -/
def InRange (p : Prog) (s : St) : Prop :=
  ∀ i, i < s.world.reads + p.readings → 0 ≤ s.world.clock i ∧ s.world.clock i < 2 ^ 63

/-- The clock does not go back during a program. Not code. -/
def Steady (p : Prog) (s : St) : Prop :=
  ∀ i, i + 1 < s.world.reads + p.readings → s.world.clock i ≤ s.world.clock (i + 1)

/-- No two readings of the clock during a program are the same. Not code. -/
def Ticking (p : Prog) (s : St) : Prop :=
  ∀ i, i + 1 < s.world.reads + p.readings → s.world.clock i < s.world.clock (i + 1)

/-- Locks and unlocks are paired like brackets, everything else does not matter. Not code. -/
inductive Balanced : List Act → Prop
  | nil : Balanced []
  | other {a l} : (∀ m, a ≠ .lock m) → (∀ m, a ≠ .unlock m) → Balanced l → Balanced (a :: l)
  | pair {m l l'} : Balanced l → Balanced l' → Balanced (.lock m :: (l ++ .unlock m :: l'))

/-- What a program does apart from tracing: its own actions and its operations on mutexes. Not
code. -/
def own (l : List Act) : List Act :=
  l.filter fun a => match a with | .now _ | .log .. => false | _ => true

end Phosphor.Scopes
