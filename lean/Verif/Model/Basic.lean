/-
Common vocabulary of the model: byte strings and C++ outcomes.
-/
namespace Phosphor

/-- A C++ `std::string`, `std::string_view` or `char*` contents: a list of bytes.
Each `Char` stands for one byte. -/
abbrev Str := List Char

/-- Exception classes thrown by the modelled code (`std::invalid_argument`,
`std::out_of_range`, `std::logic_error`, `std::runtime_error`, `std::system_error`). -/
inductive Exn
  | invalidArgument
  | outOfRange
  | logicError
  | runtimeError
  | systemError
  deriving DecidableEq, Repr

/-- Outcome of a C++ expression: a value, a thrown exception, or undefined behaviour. -/
inductive Res (α : Type u)
  | ok (a : α)
  | throw (e : Exn)
  | ub
  deriving DecidableEq, Repr

namespace Res

/-- Sequencing: an exception or undefined behaviour ends the computation. -/
def bind {α : Type u} {β : Type v} (x : Res α) (f : α → Res β) : Res β :=
  match x with
  | ok a => f a
  | throw e => throw e
  | ub => ub

instance : Monad Res where
  pure := Res.ok
  bind := Res.bind

@[simp] theorem bind_ok {α : Type u} {β : Type u} (a : α) (f : α → Res β) :
    (Res.ok a >>= f) = f a := rfl
@[simp] theorem bind_throw {α : Type u} {β : Type u} (e : Exn) (f : α → Res β) :
    ((Res.throw e : Res α) >>= f) = Res.throw e := rfl
@[simp] theorem bind_ub {α : Type u} {β : Type u} (f : α → Res β) :
    ((Res.ub : Res α) >>= f) = Res.ub := rfl
@[simp] theorem pure_eq {α : Type u} (a : α) : (pure a : Res α) = Res.ok a := rfl

end Res

/-- Point update of a function (per-thread or per-cell state). -/
def setf {α : Type u} (f : Nat → α) (i : Nat) (a : α) : Nat → α := fun j => if j = i then a else f j

@[simp] theorem setf_self {α : Type u} (f : Nat → α) (i : Nat) (a : α) : setf f i a i = a := by
  simp [setf]
theorem setf_ne {α : Type u} (f : Nat → α) {i j : Nat} (a : α) (h : j ≠ i) : setf f i a j = f j := by
  simp [setf, h]

end Phosphor
