import Verif.Model.Export
/-
What `JSONExport::read` (src/tools/export.cc:38-98) leaves behind when it throws. `Exporter.read`
(Model/Export.lean) returns no exporter in that case; here every step returns the exporter as it
is afterwards together with the outcome.
-/
namespace Phosphor
namespace Exporter.Ex

/-- Where a round of the `switch` throws: appending the comma (export.cc:64, 75), making the text
of the item (export.cc:66, 77), or appending the text to the cache (export.cc:68, 79). All three
allocate memory; `to_json` and `threadAssociationToString` can also throw for other reasons
(string_utils.cc:30-42, trace_event.cc:197-198, trace_argument.h:221). -/
inductive Place
  | comma | render | append
  deriving DecidableEq, Repr

/-- The place at which a round throws and the exception; `none` for a round that does not throw
on account of its surroundings. The class of the exception plays no role in the code
(export.cc:38-98 catches nothing); `std::bad_alloc` is represented by any of the classes. -/
abbrev Fault := Option (Place × Exn)

/-- A call that changes nothing when it does not succeed. Code: export.cc:66, export.cc:77. -/
def orKeep (x : Exporter) : Res Exporter → Exporter × Res Unit
  | .ok x' => (x', .ok ())
  | .throw e => (x, .throw e)
  | .ub => (x, .ub)

/-- `case State::first_event` (export.cc:65-73): `to_json` comes before `++it`, `++it` before the
text is appended, and the state is set last. -/
def addEvent (pid : Int) (f : Fault) (x : Exporter) : Exporter × Res Unit :=
  match f with
  | some (.render, e) => (x, .throw e)
  | some (.append, e) =>
    match x.it.next x.buffer with
    | .ok it => ({ x with it }, .throw e)
    | .throw e => (x, .throw e)
    | .ub => (x, .ub)
  | _ => orKeep x (x.addEvent pid)

/-- `case State::first_thread` (export.cc:76-88), in the same order. -/
def addThread (pid : Int) (f : Fault) (x : Exporter) : Exporter × Res Unit :=
  match x.tit with
  | [] => (x, .ub)
  | _ :: rest =>
    match f with
    | some (.render, e) => (x, .throw e)
    | some (.append, e) => ({ x with tit := rest }, .throw e)
    | _ => orKeep x (x.addThread pid)

/-- The `switch` of `read` (export.cc:52-95). The comma is appended first (lines 64, 75); the
states `opening` and `footer` assign the cache before they change anything else, so that an
exception there (taken to be at `append`) leaves the exporter as it was. -/
def fill (pid : Int) (f : Fault) (x : Exporter) : Exporter × Res Unit :=
  match x.state with
  | .opening | .footer =>
    match f with
    | some (.append, e) => (x, .throw e)
    | _ => orKeep x (x.fill pid)
  | .otherEvents =>
    match f with
    | some (.comma, e) => (x, .throw e)
    | _ => addEvent pid f { x with cache := x.cache ++ ",".toList }
  | .firstEvent => addEvent pid f x
  | .otherThreads =>
    match f with
    | some (.comma, e) => (x, .throw e)
    | _ => addThread pid f { x with cache := x.cache ++ ",".toList }
  | .firstThread => addThread pid f x
  | .dead => (x, .ok ())

/-- The `while` loop of `read` (export.cc:42-96), as `Exporter.readLoop`; `fail k` is what
happens in the `k`-th round of the `switch`, `k` the number of rounds so far. Returned are the
exporter, the bytes written to `out` and the outcome. -/
def readLoop (pid : Int) (fail : Nat → Fault) :
    Nat → Nat → Exporter → Nat → Str → Exporter × Str × Res Unit
  | 0, _, x, _, out => (x, out, .ub)
  | fuel + 1, k, x, room, out =>
    if room = 0 ∨ (x.state = .dead ∧ x.cache = []) then (x, out, .ok ())
    else
      let copied := x.cache.take room
      let x := { x with cache := x.cache.drop copied.length }
      let room := room - copied.length
      let out := out ++ copied
      if room = 0 then (x, out, .ok ())
      else match fill pid (fail k) x with
        | (x, .ok ()) => readLoop pid fail fuel (k + 1) x room out
        | (x, .throw e) => (x, out, .throw e)
        | (x, .ub) => (x, out, .ub)

/-- `read(char* out, size_t length)` (export.cc:38-98): the exporter afterwards, the bytes written
to `out` and the outcome. When the outcome is an exception the caller is not told how many bytes
were written. `read(size_t)` and `read()` (export.cc:100-122) write to a string of their own, which
an exception destroys. -/
def read (pid : Int) (fail : Nat → Fault) (x : Exporter) (length : Nat) : Exporter × Str × Res Unit :=
  readLoop pid fail (length + 2) 0 x length []

end Exporter.Ex
end Phosphor
