import Verif.Model.TraceEvent
import Verif.Model.TraceConfig
/-
The error paths of `format_string` (src/utils/string_utils.cc:22-47), and events whose enumerations
hold a value that is not an enumerator (src/trace_event.cc, include/phosphor/trace_argument.h).
-/
namespace Phosphor
namespace Fmt

/-- What one `vsnprintf` does (standard library, assumed): it fails and returns a negative number,
or the format expands to a text whose length it returns. Code: string_utils.cc:29,
string_utils.cc:36. -/
inductive Call
  | fails (ret : Int) (neg : ret < 0)
  | expands (text : Str)

/-- The returned `int`. Code: string_utils.cc:29, string_utils.cc:36. -/
def Call.ret : Call → Int
  | .fails r _ => r
  | .expands t => t.length

/-- The C string in the buffer of `size > 0` bytes after the call: as much of the text as fits
beside the terminating NUL. Code: string_utils.cc:35-36. -/
def Call.stored (size : Nat) : Call → Str
  | .fails _ _ => []
  | .expands t => cstr (t.take (size - 1))

/-- `format_string` (string_utils.cc:22-47) given its two calls of `vsnprintf`. Adding one to
`INT_MAX` (line 29) is undefined, as is making a `std::string` of the null pointer that `data()` of
an empty vector is (line 46). `unsigned(len) > buffer.size()` (line 37) is the comparison of the
numbers, `len` not being negative there. -/
def formatString (first second : Call) : Res Str :=
  if first.ret = intMax then .ub
  else
    let len := first.ret + 1
    if len < 0 then .throw .runtimeError
    else
      let size := len.toNat
      if second.ret < 0 ∨ (size : Int) < second.ret then .throw .runtimeError
      else if size = 0 then .ub
      else .ok (second.stored size)

/-! ### Values that are not enumerators -/

/-- The enumerator with the given value of the underlying `char` (tracepoint_info.h:40-48). -/
def eventType (c : BitVec 8) : Option EventType :=
  match c.toNat with
  | 0 => some .asyncStart
  | 1 => some .asyncEnd
  | 2 => some .syncStart
  | 3 => some .syncEnd
  | 4 => some .instant
  | 5 => some .globalInstant
  | 6 => some .complete
  | _ => none

/-- The enumerator with the given value of the underlying `char` (tracepoint_info.h:26-35). -/
def argType (c : BitVec 8) : Option ArgType :=
  match c.toNat with
  | 0 => some .isBool
  | 1 => some .isUint
  | 2 => some .isInt
  | 3 => some .isDouble
  | 4 => some .isPointer
  | 5 => some .isString
  | 6 => some .isIstring
  | 7 => some .isNone
  | _ => none

/-- `TraceEvent` with its `tracepoint_info`, the enumerations being any `char` (trace_event.h:147-157,
tracepoint_info.h:54-60). -/
structure RawEvent where
  category : Str
  name : Str
  type : BitVec 8
  argNames : Option Str × Option Str
  argTypes : BitVec 8 × BitVec 8
  args : TraceArg × TraceArg
  time : BitVec 64
  duration : BitVec 64
  deriving DecidableEq, Repr

/-- The event with the given enumerators. Code: trace_event.h:147-157, tracepoint_info.h:54-60. -/
def RawEvent.typed (e : RawEvent) (t : EventType) (a b : ArgType) : Event :=
  { tpi := { category := e.category, name := e.name, type := t, argNames := e.argNames,
             argTypes := (a, b) },
    args := e.args, time := e.time, duration := e.duration }

/-- `TraceEvent::typeToString` (trace_event.cc:105-126): no `case` applies to other values. -/
def typeToString (c : BitVec 8) : Res Str :=
  match eventType c with
  | some t => .ok t.toStr
  | none => .throw .invalidArgument

/-- `TraceEvent::typeToJSON` (trace_event.cc:160-199). The argument types play no role in it. -/
def RawEvent.typeToJson (e : RawEvent) : Res (Str × Str) :=
  match eventType e.type with
  | some t => (e.typed t .isNone .isNone).typeToJson
  | none => .throw .invalidArgument

/-- `TraceArgument::to_string` (trace_argument.h:200-222): no `case` applies to other values. -/
def argToString (a : TraceArg) (c : BitVec 8) : Res Str :=
  match argType c with
  | some t => a.toStr t
  | none => .throw .invalidArgument

/-- The argument loop of `to_json` (trace_event.cc:88-98) over the remaining arguments. -/
def argsLoop : Nat → List (Option Str × TraceArg × BitVec 8) → Res Str
  | _, [] => .ok []
  | i, (name, a, c) :: rest =>
    if argType c = some .isNone then .ok []
    else
      match name with
      | none => .ub
      | some n => do
        let v ← argToString a c
        let r ← argsLoop (i + 1) rest
        .ok ((if i ≠ 0 then ",".toList else []) ++ (toJson n ++ ":".toList ++ v) ++ r)

/-- `TraceEvent::to_json` (trace_event.cc:73-103). -/
def RawEvent.toJson (e : RawEvent) (pid : Int) (threadId : BitVec 32) : Res Str := do
  let t ← e.typeToJson
  let args ← argsLoop 0 [(e.argNames.1, e.args.1, e.argTypes.1), (e.argNames.2, e.args.2, e.argTypes.2)]
  .ok ("{\"name\":".toList ++ Phosphor.toJson e.name
    ++ ",\"cat\":".toList ++ Phosphor.toJson e.category
    ++ ",\"ph\":\"".toList ++ t.1 ++ "\"".toList ++ t.2
    ++ ",\"ts\":".toList ++ fmtMicros e.time
    ++ ",\"pid\":".toList ++ fmtInt pid
    ++ ",\"tid\":".toList ++ fmtNat threadId.toNat
    ++ ",\"args\":{".toList ++ args ++ "}".toList ++ "}".toList)

/-- `TraceEvent::to_string` (trace_event.cc:41-71), its arguments evaluated from left to right. -/
def RawEvent.toStr (e : RawEvent) : Res Str := do
  let ty ← typeToString e.type
  let a ← argToString e.args.1 e.argTypes.1
  let b ← argToString e.args.2 e.argTypes.2
  match splitTime e.time.toInt with
  | (d, h, m, s, n) =>
    .ok (Phosphor.formatString ("TraceEvent<".toList ++ fmtInt d ++ "d ".toList ++ fmtIntPad 2 h
      ++ ":".toList ++ fmtIntPad 2 m ++ ":".toList ++ fmtIntPad 2 s
      ++ ".".toList ++ fmtIntPad 9 n
      ++ ", ".toList ++ e.category ++ ", ".toList ++ e.name
      ++ ", type=".toList ++ ty ++ ", arg1=".toList ++ cstr a
      ++ ", arg2=".toList ++ cstr b ++ ">".toList))

end Fmt
end Phosphor
