import Verif.Model.Basic
/-
src/trace_context.cc and include/phosphor/trace_context.h: who owns a buffer once it has left the
log. Buffers, contexts and the `std::unique_ptr` variables of the user are numbered objects.
-/
namespace Phosphor.Ctx

/-- `TraceContext` (trace_context.h:68-81): the `unique_ptr` and the map, as the list of its
entries. -/
structure Obj where
  buffer : Option Nat
  names : List (Nat × Str)
  deriving DecidableEq, Repr

/-- `std::unordered_map::emplace`: does nothing if the key is there. Code: trace_context.cc:42-44. -/
def emplace (m : List (Nat × Str)) (id : Nat) (name : Str) : List (Nat × Str) :=
  if m.any (·.1 == id) then m else m ++ [(id, name)]

/-- The program: the `unique_ptr` variables (a variable that does not exist is a null pointer), the
contexts that exist, how many buffers have been made, and the buffers destroyed, newest first. Code:
trace_context.cc:19-44. -/
structure St where
  ptr : Nat → Option Nat
  ctx : Nat → Option Obj
  made : Nat
  destroyed : List Nat

/-- Before anything. Code: trace_context.cc:19-44. -/
def St.init : St := ⟨fun _ => none, fun _ => none, 0, []⟩

/-- What a `unique_ptr` does to the buffer it owns when it is reset or destroyed. Code:
trace_context.cc:19, trace_context.cc:37. -/
def free (destroyed : List Nat) : Option Nat → List Nat
  | none => destroyed
  | some b => b :: destroyed

/-- What a program does with contexts. -/
inductive Op
  /-- a buffer is made and put into the variable `p` (as `getBuffer()` of a log would) -/
  | make (p : Nat)
  /-- `p.reset()` -/
  | reset (p : Nat)
  /-- `TraceContext c(std::move(p))` -/
  | construct (c p : Nat)
  /-- `TraceContext c(std::move(p), names)` -/
  | constructNames (c p : Nat) (names : List (Nat × Str))
  /-- `TraceContext c(std::move(d))` -/
  | moveConstruct (c d : Nat)
  /-- `c = std::move(d)`; the library leaves `rest` in the map of `d` -/
  | moveAssign (c d : Nat) (rest : List (Nat × Str))
  /-- `c.addThreadName(id, name)` -/
  | addThreadName (c id : Nat) (name : Str)
  /-- `c` is destroyed -/
  | destroy (c : Nat)
  deriving Repr

/-- The steps; `none`: the program uses an object that does not exist, or constructs one twice. Code:
trace_context.cc:19-44. -/
def St.step (s : St) : Op → Option St
  | .make p =>
    some { s with
      ptr := setf s.ptr p (some s.made)
      made := s.made + 1
      destroyed := free s.destroyed (s.ptr p) }
  | .reset p =>
    some { s with ptr := setf s.ptr p none, destroyed := free s.destroyed (s.ptr p) }
  /- trace_context.cc:21-23 -/
  | .construct c p =>
    match s.ctx c with
    | some _ => none
    | none => some { s with ctx := setf s.ctx c (some ⟨s.ptr p, []⟩), ptr := setf s.ptr p none }
  /- trace_context.cc:25-28 -/
  | .constructNames c p names =>
    match s.ctx c with
    | some _ => none
    | none => some { s with ctx := setf s.ctx c (some ⟨s.ptr p, names⟩), ptr := setf s.ptr p none }
  /- trace_context.cc:30-33 -/
  | .moveConstruct c d =>
    match s.ctx c, s.ctx d with
    | none, some o =>
      some { s with ctx := setf (setf s.ctx d (some ⟨none, []⟩)) c (some o) }
    | _, _ => none
  /- trace_context.cc:35-39. `unique_ptr` assignment is `reset(other.release())`, so that moving a
  context into itself keeps the buffer; the map of such a context is whatever the library makes
  of it. -/
  | .moveAssign c d rest =>
    match s.ctx c, s.ctx d with
    | some o, some q =>
      if c = d then some { s with ctx := setf s.ctx c (some ⟨o.buffer, rest⟩) }
      else some { s with
        ctx := setf (setf s.ctx d (some ⟨none, rest⟩)) c (some q)
        destroyed := free s.destroyed o.buffer }
    | _, _ => none
  /- trace_context.cc:42-44 -/
  | .addThreadName c id name =>
    match s.ctx c with
    | some o => some { s with ctx := setf s.ctx c (some ⟨o.buffer, emplace o.names id name⟩) }
    | none => none
  /- trace_context.cc:19 -/
  | .destroy c =>
    match s.ctx c with
    | some o => some { s with ctx := setf s.ctx c none, destroyed := free s.destroyed o.buffer }
    | none => none

/-- A program. Code: trace_context.cc:19-44. -/
def St.run (s : St) : List Op → Option St
  | [] => some s
  | o :: os =>
    match s.step o with
    | some s => s.run os
    | none => none

/-- `getBuffer()` (trace_context.h:46-55) of the context `c`. -/
def St.getBuffer (s : St) (c : Nat) : Option Nat := (s.ctx c).bind (·.buffer)

/-- An exporter refers to a context (`const TraceContext& context`, export.h:92) and its iterators
refer to the buffer the context had when the exporter was made (export.cc:30-34). `read` uses both
(export.cc:55-88): it is defined as long as the context exists and still has that buffer. -/
structure Exporter where
  context : Nat
  buffer : Nat
  deriving DecidableEq, Repr

/-- `JSONExport(context)` (export.cc:30-34): dereferences the buffer. -/
def St.exporter (s : St) (c : Nat) : Res Exporter :=
  match s.getBuffer c with
  | some b => .ok ⟨c, b⟩
  | none => .ub

/-- `read` (export.cc:38-98) while there is something to export: it compares `it`, an iterator of the
buffer of construction, with `context.getBuffer()->end()`. -/
def St.read (s : St) (x : Exporter) : Res Unit :=
  match s.getBuffer x.context with
  | some b => if b = x.buffer ∧ b ∉ s.destroyed then .ok () else .ub
  | none => .ub

end Phosphor.Ctx
