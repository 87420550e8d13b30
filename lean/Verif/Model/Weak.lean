import Verif.Model.Basic
/-
The part of the C++ memory model the source relies on: relaxed, acquire and release accesses
to atomics, read-modify-writes, and data races on everything else. Operational and
view-based: an atomic location keeps all messages ever stored to it, in modification order
(timestamps); a thread knows the oldest message it may still read of every location and how
many plain accesses of every thread happened before; a release store passes that knowledge
on, an acquire load takes it over. A read-modify-write takes the timestamp right after the
message it reads, so nothing comes in between, and continues the release sequence of that
message (C++20 [intro.races]).

Simplifications:
* A load returns a message that has already been stored: executions with a cycle of program
  order and reads-from (load buffering, out-of-thin-air values) are left out, as in RC11.
* `seq_cst` accesses are treated as acquire/release accesses, which allows more executions.
* There are no fences in the source, so fences are left out.
-/
namespace Phosphor.Weak

/-- For every thread a number of its plain accesses. Not code: C++20 [intro.races]. -/
abbrev Clock := Nat → Nat

/-- What a thread (or a message) knows: for every atomic location the oldest message that may
still be read, and the plain accesses that happened before. Not code: C++20 [intro.races]. -/
structure View (L : Type) where
  ts : L → Nat
  clk : Clock

/-- A stored value, with the knowledge it passes on to an acquire load. Not code: C++20
[intro.races]. -/
structure Msg (L V : Type) where
  val : V
  view : View L

/-- Memory: messages of the atomic locations `L`, views of the threads, and for every plain
location in `N` and every thread its last write and its last read. Not code: C++20
[intro.races]. -/
structure Mem (L V N : Type) where
  hist : L → Nat → Option (Msg L V)
  view : Nat → View L
  wr : N → Clock
  rd : N → Clock

variable {L V N : Type}

/-- Nothing is known. -/
def View.bot : View L := ⟨fun _ => 0, fun _ => 0⟩

/-- The knowledge of both. -/
def View.join (v w : View L) : View L :=
  ⟨fun l => max (v.ts l) (w.ts l), fun t => max (v.clk t) (w.clk t)⟩

variable [DecidableEq L] [DecidableEq N]

/-- The message with timestamp `ts` of `l` has been seen. -/
def View.see (v : View L) (l : L) (ts : Nat) : View L :=
  { v with ts := fun k => if k = l then max (v.ts l) ts else v.ts k }

/-- Thread `t` may read the message `m` with timestamp `ts` of `l`. -/
def Mem.readable (μ : Mem L V N) (t : Nat) (l : L) (ts : Nat) (m : Msg L V) : Prop :=
  μ.hist l ts = some m ∧ (μ.view t).ts l ≤ ts

/-- `l` can get a message with timestamp `ts` from thread `t`. -/
def Mem.free (μ : Mem L V N) (t : Nat) (l : L) (ts : Nat) : Prop :=
  μ.hist l ts = none ∧ (μ.view t).ts l < ts

/-- `l.load(memory_order_relaxed)` of the message with timestamp `ts`. -/
def Mem.loadRlx (μ : Mem L V N) (t : Nat) (l : L) (ts : Nat) : Mem L V N :=
  { μ with view := setf μ.view t ((μ.view t).see l ts) }

/-- `l.load(memory_order_acquire)` of the message `m` with timestamp `ts`. -/
def Mem.loadAcq (μ : Mem L V N) (t : Nat) (l : L) (ts : Nat) (m : Msg L V) : Mem L V N :=
  { μ with view := setf μ.view t (((μ.view t).see l ts).join m.view) }

/-- Adds a message. -/
def Mem.add (μ : Mem L V N) (l : L) (ts : Nat) (m : Msg L V) : Mem L V N :=
  { μ with hist := fun k i => if k = l ∧ i = ts then some m else μ.hist k i }

/-- `l.store(v, memory_order_release)` with timestamp `ts`. -/
def Mem.storeRel (μ : Mem L V N) (t : Nat) (l : L) (ts : Nat) (v : V) : Mem L V N :=
  let w := (μ.view t).see l ts
  { μ with view := setf μ.view t w }.add l ts ⟨v, w⟩

/-- `l.store(v, memory_order_relaxed)` with timestamp `ts`. -/
def Mem.storeRlx (μ : Mem L V N) (t : Nat) (l : L) (ts : Nat) (v : V) : Mem L V N :=
  { μ with view := setf μ.view t ((μ.view t).see l ts) }.add l ts ⟨v, View.bot⟩

/-- A relaxed read-modify-write of the message `m` with timestamp `ts`. -/
def Mem.rmwRlx (μ : Mem L V N) (t : Nat) (l : L) (ts : Nat) (m : Msg L V) (v : V) : Mem L V N :=
  { μ with view := setf μ.view t ((μ.view t).see l (ts + 1)) }.add l (ts + 1) ⟨v, m.view⟩

/-- A release read-modify-write of the message `m` with timestamp `ts`. -/
def Mem.rmwRel (μ : Mem L V N) (t : Nat) (l : L) (ts : Nat) (m : Msg L V) (v : V) : Mem L V N :=
  let w := (μ.view t).see l (ts + 1)
  { μ with view := setf μ.view t w }.add l (ts + 1) ⟨v, w.join m.view⟩

/-- An acquire and release read-modify-write of the message `m` with timestamp `ts`. -/
def Mem.rmwAcqRel (μ : Mem L V N) (t : Nat) (l : L) (ts : Nat) (m : Msg L V) (v : V) :
    Mem L V N :=
  let w := ((μ.view t).see l (ts + 1)).join m.view
  { μ with view := setf μ.view t w }.add l (ts + 1) ⟨v, w⟩

/-- Thread `t` makes a plain access. -/
def View.tick (v : View L) (t : Nat) : View L :=
  { v with clk := setf v.clk t (v.clk t + 1) }

/-- A plain read of `d` by `t` would race with an earlier write. -/
def Mem.racyRead (μ : Mem L V N) (t : Nat) (d : N) : Prop :=
  ∃ u, (μ.view t).clk u < μ.wr d u

/-- A plain write of `d` by `t` would race with an earlier write or read. -/
def Mem.racyWrite (μ : Mem L V N) (t : Nat) (d : N) : Prop :=
  ∃ u, (μ.view t).clk u < μ.wr d u ∨ (μ.view t).clk u < μ.rd d u

/-- A plain read of `d`. -/
def Mem.read (μ : Mem L V N) (t : Nat) (d : N) : Mem L V N :=
  { μ with
    view := setf μ.view t ((μ.view t).tick t)
    rd := fun k => if k = d then setf (μ.rd d) t ((μ.view t).clk t + 1) else μ.rd k }

/-- A plain write of `d`. -/
def Mem.write (μ : Mem L V N) (t : Nat) (d : N) : Mem L V N :=
  { μ with
    view := setf μ.view t ((μ.view t).tick t)
    wr := fun k => if k = d then setf (μ.wr d) t ((μ.view t).clk t + 1) else μ.wr k }

/-- A plain access to some other location. -/
def Mem.other (μ : Mem L V N) (t : Nat) : Mem L V N :=
  { μ with view := setf μ.view t ((μ.view t).tick t) }

/-- Every atomic location `l` holds `v l`, stored before any thread can use it. -/
def Mem.init (v : L → V) : Mem L V N where
  hist := fun l ts => if ts = 0 then some ⟨v l, View.bot⟩ else none
  view := fun _ => View.bot
  wr := fun _ _ => 0
  rd := fun _ _ => 0

end Phosphor.Weak
