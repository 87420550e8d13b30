import Verif.Model.TraceEvent
import Verif.Model.TraceBuffer
/-
Model of src/tools/export.cc and include/phosphor/tools/export.h.
-/
namespace Phosphor

/-- `TraceContext` (trace_context.h:31-81): the buffer (possibly null) and the thread names in
the iteration order of the `std::unordered_map`. -/
structure TraceContext where
  buffer : Option (Buffer Event)
  threadNames : List (Nat × Str)
  deriving DecidableEq, Repr

/-- `threadAssociationToString` (export.cc:21-28). The `uint64_t` thread id is printed with `%d`:
its low 32 bits as a signed number. The name is cut at its first NUL (`c_str()`) and not
escaped. -/
def threadAssociationToString (pid : Int) (assoc : Nat × Str) : Str :=
  formatString ("{\"name\":\"thread_name\",\"ph\":\"M\",\"pid\":".toList ++ fmtInt pid
    ++ ",\"tid\":".toList ++ fmtInt (BitVec.ofNat 32 assoc.1).toInt
    ++ ",\"args\":{\"name\":\"".toList ++ cstr assoc.2 ++ "\"}}".toList)

/-- `JSONExport::State` (export.h:81-90). -/
inductive ExportState
  | opening | firstEvent | otherEvents | firstThread | otherThreads | footer | dead
  deriving DecidableEq, Repr

/-- `JSONExport` (export.h:92-97). The buffer is the one of the context; `tit` is given by
the associations it has still to visit. -/
structure Exporter where
  buffer : Buffer Event
  it : EventIter
  tit : List (Nat × Str)
  state : ExportState
  cache : Str
  deriving DecidableEq, Repr

namespace Exporter

/-- Constructor (export.cc:30-34); a context without buffer is undefined behaviour. -/
def make (ctx : TraceContext) : Res Exporter :=
  match ctx.buffer with
  | none => .ub
  | some b => do
    let it ← b.begin
    .ok { buffer := b, it, tit := ctx.threadNames, state := .opening, cache := [] }

/-- `it == context.getBuffer()->end()`. Code: export.cc:57, export.cc:70, export.cc:82. -/
def atEnd (x : Exporter) : Res Bool := do
  let fin ← x.buffer.end
  .ok (x.it.eq fin)

/-- `case State::first_event` (export.cc:65-73). -/
def addEvent (pid : Int) (x : Exporter) : Res Exporter := do
  let e ← x.it.deref x.buffer
  let c ← x.it.getParent x.buffer
  let json ← e.toJson pid (BitVec.ofNat 32 c.threadId)
  let it ← x.it.next x.buffer
  let x := { x with it, cache := x.cache ++ json, state := .otherEvents }
  let fin ← x.atEnd
  .ok (if fin then { x with state := .footer } else x)

/-- `case State::first_thread` (export.cc:76-88); dereferencing the past-the-end iterator is
undefined. -/
def addThread (pid : Int) (x : Exporter) : Res Exporter :=
  match x.tit with
  | [] => .ub
  | a :: rest => do
    let x := { x with tit := rest, cache := x.cache ++ threadAssociationToString pid a,
                      state := .otherThreads }
    if rest = [] then
      let fin ← x.atEnd
      .ok { x with state := if fin then .footer else .otherEvents }
    else .ok x

/-- The `switch` of `read` (export.cc:52-95), with its fall-throughs. -/
def fill (pid : Int) (x : Exporter) : Res Exporter :=
  match x.state with
  | .opening => do
    let x := { x with cache := "{\"traceEvents\":[".toList }
    if x.tit ≠ [] then .ok { x with state := .firstThread }
    else
      let fin ← x.atEnd
      .ok { x with state := if fin then .footer else .firstEvent }
  | .otherEvents => addEvent pid { x with cache := x.cache ++ ",".toList }
  | .firstEvent => addEvent pid x
  | .otherThreads => addThread pid { x with cache := x.cache ++ ",".toList }
  | .firstThread => addThread pid x
  | .footer => .ok { x with cache := "]}".toList, state := .dead }
  | .dead => .ok x

/-- The `while` loop of `read` (export.cc:42-96): `room = length - cursor`, `out` the bytes
written so far. The fuel bounds the number of rounds; `read` passes `length + 2`, which is
always enough (part of `readLoop_spec`). -/
def readLoop (pid : Int) : Nat → Exporter → Nat → Str → Res (Str × Exporter)
  | 0, _, _, _ => .ub
  | fuel + 1, x, room, out =>
    if room = 0 ∨ (x.state = .dead ∧ x.cache = []) then .ok (out, x)
    else if x.cache ≠ [] then
      let copied := x.cache.take room
      let x := { x with cache := x.cache.drop copied.length }
      let room := room - copied.length
      let out := out ++ copied
      if room = 0 then .ok (out, x)
      else do
        let x ← x.fill pid
        readLoop pid fuel x room out
    else do
      let x ← x.fill pid
      readLoop pid fuel x room out

/-- `read(char* out, size_t length)` (export.cc:38-98) and `read(size_t length)`
(export.cc:100-105): the bytes written and the exporter afterwards. -/
def read (pid : Int) (x : Exporter) (length : Nat) : Res (Str × Exporter) :=
  readLoop pid (length + 2) x length []

/-- `done()` (export.cc:107-109). -/
def done (x : Exporter) : Bool := decide (x.state = .dead)

/-- The `do … while (!done())` loop of `read()` (export.cc:115-118): `out` grows by 4096 bytes
per round, of which the first `last_wrote` are written. `none`: not finished within `fuel`
rounds. -/
def readAllLoop (pid : Int) : Nat → Exporter → Str → Option (Res (Str × Nat × Exporter))
  | 0, _, _ => none
  | fuel + 1, x, out =>
    match x.read pid 4096 with
    | .ok (got, x') =>
      let out' := out ++ got ++ List.replicate (4096 - got.length) '\x00'
      if x'.done then some (.ok (out', got.length, x')) else readAllLoop pid fuel x' out'
    | .throw e => some (.throw e)
    | .ub => some .ub

/-- `read()` (export.cc:111-122). -/
def readAll (pid : Int) (fuel : Nat) (x : Exporter) : Option (Res (Str × Exporter)) :=
  match readAllLoop pid fuel x [] with
  | none => none
  | some (.ok (out, lastWrote, x')) => some (.ok (out.take (out.length - (4096 - lastWrote)), x'))
  | some (.throw e) => some (.throw e)
  | some .ub => some .ub

end Exporter

/-! ### Saving to a file -/

/-- What the C library and the file system do: whether the file can be opened, how many bytes
the `n`-th `fwrite` accepts, and how many of the accepted bytes have reached the file once it
is closed. Code: export.cc:130-155, memory.h:32-36. -/
structure FileEnv where
  canOpen : Bool
  accepts : Nat → Str → Nat
  keeps : Str → Nat

/-- The `while` loop of `FileStopCallback::operator()` (export.cc:146-154): `n` is the number of
`fwrite` calls made so far, `written` the bytes accepted so far. `none`: not finished within
`fuel` rounds. -/
def saveLoop (pid : Int) (env : FileEnv) : Nat → Exporter → Nat → Str → Option (Res Unit × Str)
  | 0, _, _, _ => none
  | fuel + 1, x, n, written =>
    match x.read pid 4096 with
    | .ok (got, x') =>
      if got.length = 0 then some (.ok (), written)
      else
        let ret := min (env.accepts n got) got.length
        let written := written ++ got.take ret
        if ret ≠ got.length then some (.throw .runtimeError, written)
        else saveLoop pid env fuel x' (n + 1) written
    | .throw e => some (.throw e, written)
    | .ub => some (.ub, written)

/-- `FileStopCallback::operator()` (export.cc:130-155): outcome and contents of the file
afterwards (`none` if it was not opened). `ctx` is what `log.getTraceContext(lh)` returns.
The file is closed by the deleter of `unique_FILE` (memory.h:32-36), which ignores the result
of `fclose`. -/
def fileStop (pid : Int) (env : FileEnv) (fuel : Nat) (ctx : TraceContext) :
    Option (Res Unit × Option Str) :=
  if env.canOpen then
    match Exporter.make ctx with
    | .ok x =>
      match saveLoop pid env fuel x 0 [] with
      | none => none
      | some (r, written) => some (r, some (written.take (env.keeps written)))
    | .throw e => some (.throw e, some [])
    | .ub => some (.ub, some [])
  else some (.throw .systemError, none)

/-- A broken-down UTC time (`gmtime`), month and day counted from 1. Code: export.cc:157-174. -/
structure Tm where
  year : Nat
  month : Nat
  day : Nat
  hour : Nat
  min : Nat
  sec : Nat
  deriving DecidableEq, Repr

/-- `strftime(…, "%Y.%m.%dT%H.%M.%SZ", …)` into 21 bytes, then `resize(20)`
(export.cc:165-171), for years of four digits (for others the contents of the buffer are
unspecified and not modelled). -/
def timestamp (t : Tm) : Str :=
  padZero 4 (fmtNat t.year) ++ ".".toList ++ padZero 2 (fmtNat t.month) ++ ".".toList
    ++ padZero 2 (fmtNat t.day) ++ "T".toList ++ padZero 2 (fmtNat t.hour) ++ ".".toList
    ++ padZero 2 (fmtNat t.min) ++ ".".toList ++ padZero 2 (fmtNat t.sec) ++ "Z".toList

/-- `FileStopCallback::generateFilePath` (export.cc:157-174). -/
def generateFilePath (filePath : Str) (pid : Int) (now : Tm) : Str :=
  let target := stringReplace filePath "%p".toList (fmtInt pid)
  stringReplace target "%d".toList (timestamp now)

end Phosphor
