import Verif.Model.Weak
/-
`RelaxedAtomic` over the memory of Model/Weak. Values are 64-bit words (`size_t`, pointers).
-/
namespace Phosphor.RA
open Weak

/-- Memory with one atomic location for every `RelaxedAtomic` object. Code: relaxed_atomic.h:71, 74-89. -/
abbrev RMem := Mem Nat (BitVec 64) Unit

/-- Accesses a thread can make. `sync u`: the thread gets to know all that thread `u` has done, by
other means (a lock, a release store it reads). Code: relaxed_atomic.h:25-68. -/
inductive Act
  | load (l : Nat)
  | store (l : Nat) (v : BitVec 64)
  | preInc (l : Nat)
  | postInc (l : Nat)
  | preDec (l : Nat)
  | postDec (l : Nat)
  | sync (u : Nat)
  deriving DecidableEq, Repr

/-- One access by thread `t`, with its result. -/
inductive Step : RMem → Nat → Act → BitVec 64 → RMem → Prop
  /-- `operator T`, `load` (relaxed_atomic.h:36-42): any message not older than one seen. -/
  | load {μ t l ts m} : μ.readable t l ts m → Step μ t (.load l) m.val (μ.loadRlx t l ts)
  /-- Constructor and `operator=(T)` (relaxed_atomic.h:27-29, 49-52). -/
  | store {μ t l ts v} : μ.free t l ts → Step μ t (.store l v) v (μ.storeRlx t l ts v)
  /-- `operator++()` (relaxed_atomic.h:54-56): the new value. -/
  | preInc {μ t l ts m} : μ.readable t l ts m → μ.hist l (ts + 1) = none →
      Step μ t (.preInc l) (m.val + 1) (μ.rmwRlx t l ts m (m.val + 1))
  /-- `operator++(int)` (relaxed_atomic.h:58-60): the old value. -/
  | postInc {μ t l ts m} : μ.readable t l ts m → μ.hist l (ts + 1) = none →
      Step μ t (.postInc l) m.val (μ.rmwRlx t l ts m (m.val + 1))
  /-- `operator--()` (relaxed_atomic.h:62-64): the new value. -/
  | preDec {μ t l ts m} : μ.readable t l ts m → μ.hist l (ts + 1) = none →
      Step μ t (.preDec l) (m.val - 1) (μ.rmwRlx t l ts m (m.val - 1))
  /-- `operator--(int)` (relaxed_atomic.h:66-68): the old value. -/
  | postDec {μ t l ts m} : μ.readable t l ts m → μ.hist l (ts + 1) = none →
      Step μ t (.postDec l) m.val (μ.rmwRlx t l ts m (m.val - 1))
  /-- Happens-before from elsewhere. -/
  | sync {μ t u} : Step μ t (.sync u) 0 { μ with view := setf μ.view t ((μ.view t).join (μ.view u)) }

/-- Executions: the accesses, oldest first, with their threads and results. Not code. -/
inductive Run : RMem → List (Nat × Act × BitVec 64) → RMem → Prop
  | refl {μ} : Run μ [] μ
  | step {μ r μ' t a x μ''} : Run μ r μ' → Step μ' t a x μ'' → Run μ (r ++ [(t, a, x)]) μ''

/-- `operator=(const RelaxedAtomic&)` and the copy constructor (relaxed_atomic.h:31-34, 44-47, 82-84): a
load of one object and a store to the other, two accesses. -/
def copyActs (dst src : Nat) (v : BitVec 64) : List (Act × BitVec 64) := [(.load src, v), (.store dst v, v)]

end Phosphor.RA
