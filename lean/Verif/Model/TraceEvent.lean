import Verif.Model.StringUtils
import Verif.Model.InlineZString
/-
Model of include/phosphor/trace_argument.h, tracepoint_info.h and src/trace_event.cc.
-/
namespace Phosphor

/-! ### Arguments -/

/-- `TraceArgumentType` (tracepoint_info.h:26-35). -/
inductive ArgType
  | isBool | isUint | isInt | isDouble | isPointer | isString | isIstring | isNone
  deriving DecidableEq, Repr

/-- `union TraceArgument` (trace_argument.h:40-90), by what was stored in it. `word` is any of
`as_uint`, `as_int`, `as_double`, `as_pointer`: eight bytes that the code reads back through
any of these members. `str` is `as_string`: the address and the C string it points to
(without its terminating NUL). `istr` is the storage of `as_istring`. -/
inductive TraceArg
  | bool (b : Bool)
  | word (w : BitVec 64)
  | str (addr : BitVec 64) (s : Str)
  | istr (storage : Str)
  | none
  deriving DecidableEq, Repr

/-- Conversion of a `float` to `double` (exact), on the IEEE 754 bits: exponents are rebiased,
subnormals normalised by `k` positions, infinities and NaNs keep their kind. Code:
trace_argument.h:122-126, trace_argument.h:142-179. -/
def fltToDbl (f : BitVec 32) : BitVec 64 :=
  let s : Nat := if f.msb then 2 ^ 63 else 0
  let e := f.toNat / 2 ^ 23 % 2 ^ 8
  let m := f.toNat % 2 ^ 23
  if e = 255 then BitVec.ofNat 64 (s + 2047 * 2 ^ 52 + m * 2 ^ 29)
  else if e = 0 then
    if m = 0 then BitVec.ofNat 64 s
    else
      -- `m = 1.xxx * 2^(log2 m)`; its value is `m * 2^-149`
      BitVec.ofNat 64 (s + (m.log2 + 874) * 2 ^ 52 + (m - 2 ^ m.log2) * 2 ^ (52 - m.log2))
  else BitVec.ofNat 64 (s + (e + 896) * 2 ^ 52 + m * 2 ^ 29)

/-- A C++ value of one of the argument types for which a conversion exists
(trace_argument.h:142-198), on the LP64 platforms where `char` is signed. A `T*` other than
`char*` is a `ptr`. -/
inductive CVal
  | bool (b : Bool)
  | char (x : BitVec 8)
  | short (x : BitVec 16)
  | int (x : BitVec 32)
  | long (x : BitVec 64)
  | longLong (x : BitVec 64)
  | uchar (x : BitVec 8)
  | ushort (x : BitVec 16)
  | uint (x : BitVec 32)
  | ulong (x : BitVec 64)
  | ulongLong (x : BitVec 64)
  | float (x : BitVec 32)
  | double (x : BitVec 64)
  | ptr (p : BitVec 64)
  | nullptr
  | cstring (addr : BitVec 64) (s : Str)
  | istring (storage : Str)
  | none
  deriving DecidableEq, Repr

/-- `TraceArgumentConversion<T>::getType()` (trace_argument.h:128-132, 142-179, 189-191). -/
def CVal.getType : CVal → ArgType
  | .bool _ => .isBool
  | .char _ | .short _ | .int _ | .long _ | .longLong _ => .isInt
  | .uchar _ | .ushort _ | .uint _ | .ulong _ | .ulongLong _ => .isUint
  | .float _ | .double _ => .isDouble
  | .ptr _ | .nullptr => .isPointer
  | .cstring _ _ => .isString
  | .istring _ => .isIstring
  | .none => .isNone

/-- `TraceArgumentConversion<T>::asArgument` (trace_argument.h:122-126, 134-136, 142-179,
193-197): integers are converted to `long long` / `unsigned long long`. -/
def CVal.asArgument : CVal → TraceArg
  | .bool b => .bool b
  | .char x => .word (x.signExtend 64)
  | .short x => .word (x.signExtend 64)
  | .int x => .word (x.signExtend 64)
  | .long x => .word (x.signExtend 64)
  | .longLong x => .word (x.signExtend 64)
  | .uchar x => .word (x.zeroExtend 64)
  | .ushort x => .word (x.zeroExtend 64)
  | .uint x => .word (x.zeroExtend 64)
  | .ulong x => .word (x.zeroExtend 64)
  | .ulongLong x => .word (x.zeroExtend 64)
  | .float x => .word (fltToDbl x)
  | .double x => .word x
  | .ptr p => .word p
  | .nullptr => .word 0#64
  | .cstring addr s => .str addr s
  | .istring st => .istr st
  | .none => .none

/-- The `as_int`/`as_uint`/`as_double`/`as_pointer` member: reading eight bytes that were not
stored as such is treated as undefined, except the address of a string. Code:
trace_argument.h:40-50, trace_argument.h:200-222. -/
def TraceArg.asWord : TraceArg → Res (BitVec 64)
  | .word w => .ok w
  | .str addr _ => .ok addr
  | _ => .ub

/-! ### `std::to_string(double)` -/

/-- Biased exponent field of an IEEE 754 binary64 number. Code: trace_argument.h:210. -/
def dblExp (d : BitVec 64) : Nat := d.toNat / 2 ^ 52 % 2 ^ 11

/-- Fraction field. Code: trace_argument.h:210. -/
def dblFrac (d : BitVec 64) : Nat := d.toNat % 2 ^ 52

/-- Sign bit. Code: trace_argument.h:210. -/
def dblSign (d : BitVec 64) : Bool := d.msb

/-- Rounding of `a / b` to the nearest integer, ties to even (the default rounding of
`printf` in glibc). Code: trace_argument.h:210. -/
def roundHalfEven (a b : Nat) : Nat :=
  let q := a / b
  let r := a % b
  if 2 * r < b then q
  else if b < 2 * r then q + 1
  else if q % 2 = 0 then q else q + 1

/-- Magnitude of a finite double in millionths, rounded: the magnitude is
`m * 2^(e - 1075)` with `m` the significand including the implicit bit and `e` the exponent
(1 for subnormals). Code: trace_argument.h:210. -/
def dblMicros (d : BitVec 64) : Nat :=
  let m := if dblExp d = 0 then dblFrac d else 2 ^ 52 + dblFrac d
  let e := if dblExp d = 0 then 1 else dblExp d
  if 1075 ≤ e then m * 2 ^ (e - 1075) * 1000000
  else roundHalfEven (m * 1000000) (2 ^ (1075 - e))

/-- `std::to_string(double)`, i.e. printf `%f`. Code: trace_argument.h:210. -/
def fmtDouble (d : BitVec 64) : Str :=
  let sign := if dblSign d then ['-'] else []
  if dblExp d = 2047 then
    sign ++ (if dblFrac d = 0 then "inf".toList else "nan".toList)
  else
    let n := dblMicros d
    sign ++ fmtNat (n / 1000000) ++ '.' :: padZero 6 (fmtNat (n % 1000000))

/-- `ostream << const void*` (libstdc++): hexadecimal with the `0x` base prefix, which the
library omits for zero. Code: trace_argument.h:212. -/
def fmtPointer (p : BitVec 64) : Str :=
  if p.toNat = 0 then ['0'] else '0' :: 'x' :: fmtHex p.toNat

/-- `TraceArgument::to_string` (trace_argument.h:200-222). -/
def TraceArg.toStr (a : TraceArg) (type : ArgType) : Res Str :=
  match type with
  | .isBool => match a with
    | .bool b => .ok (if b then "true".toList else "false".toList)
    | _ => .ub
  | .isInt => do let w ← a.asWord; .ok (fmtInt w.toInt)
  | .isUint => do let w ← a.asWord; .ok (fmtNat w.toNat)
  | .isDouble => do let w ← a.asWord; .ok (fmtDouble w)
  | .isPointer => do let w ← a.asWord; .ok ("\"".toList ++ fmtPointer w ++ "\"".toList)
  | .isString => match a with
    | .str _ s => .ok ("\"".toList ++ s ++ "\"".toList)
    | _ => .ub
  | .isIstring => match a with
    | .istr st => do let s ← izToString 8 st; .ok ("\"".toList ++ s ++ "\"".toList)
    | _ => .ub
  | .isNone => .ok "\"Type::is_none\"".toList

/-! ### Events -/

/-- `TraceEventType` (tracepoint_info.h:40-48). Other values of the underlying `char` are in
Model/Format (they make `typeToJSON` throw, trace_event.cc:197-198). -/
inductive EventType
  | asyncStart | asyncEnd | syncStart | syncEnd | instant | globalInstant | complete
  deriving DecidableEq, Repr

/-- `tracepoint_info` (tracepoint_info.h:54-60): C strings without their terminating NUL; an
argument name may be a null pointer (`{}` in phosphor.h:424, 429). -/
structure TracepointInfo where
  category : Str
  name : Str
  type : EventType
  argNames : Option Str × Option Str
  argTypes : ArgType × ArgType
  deriving DecidableEq, Repr

/-- `TraceEvent` (trace_event.h, private members): `time` and `duration` are `uint64_t`. Code:
trace_event.h:147-157. -/
structure Event where
  tpi : TracepointInfo
  args : TraceArg × TraceArg
  time : BitVec 64
  duration : BitVec 64
  deriving DecidableEq, Repr

/-- First constructor (trace_event.cc:22-29); `now` is the clock reading in nanoseconds. -/
def Event.mkNow (tpi : TracepointInfo) (now : BitVec 64) (a b : TraceArg) : Event :=
  { tpi, args := (a, b), time := now, duration := 0#64 }

/-- Second constructor (trace_event.cc:31-39). -/
def Event.mkComplete (tpi : TracepointInfo) (start duration : BitVec 64) (a b : TraceArg) : Event :=
  { tpi, args := (a, b), time := start, duration }

/-- `const auto [us, ns] = std::lldiv(x, 1000)` and the printf format `%lld.%03lld`
(trace_event.cc:82-83, 192-194). The `uint64_t` is converted to `long long`. -/
def fmtMicros (x : BitVec 64) : Str :=
  fmtInt (x.toInt.tdiv 1000) ++ '.' :: fmtIntPad 3 (x.toInt.tmod 1000)

/-- `TraceEvent::typeToJSON` (trace_event.cc:160-199): phase letter and extra members. -/
def Event.typeToJson (e : Event) : Res (Str × Str) :=
  match e.tpi.type with
  | .asyncStart => do
    let p ← e.args.1.asWord
    .ok (['b'], ",\"id\": \"0x".toList ++ fmtHex p.toNat ++ "\"".toList)
  | .asyncEnd => do
    let p ← e.args.1.asWord
    .ok (['e'], ",\"id\": \"0x".toList ++ fmtHex p.toNat ++ "\"".toList)
  | .syncStart => .ok (['B'], [])
  | .syncEnd => .ok (['E'], [])
  | .instant => .ok (['i'], ",\"s\":\"t\"".toList)
  | .globalInstant => .ok (['i'], ",\"s\":\"g\"".toList)
  | .complete => .ok (['X'], ",\"dur\":".toList ++ fmtMicros e.duration)

/-- One round of the argument loop (trace_event.cc:92-97) after the `is_none` test:
`utils::to_json(name)` of a null pointer is undefined. -/
def argJson (name : Option Str) (a : TraceArg) (type : ArgType) : Res Str :=
  match name with
  | none => .ub
  | some n => do
    let v ← a.toStr type
    .ok (toJson n ++ ":".toList ++ v)

/-- The argument loop (trace_event.cc:88-98) over the remaining arguments, `i` being the
index of the next one. -/
def argsLoop : Nat → List (Option Str × TraceArg × ArgType) → Res Str
  | _, [] => .ok []
  | i, (name, a, type) :: rest =>
    if type = .isNone then .ok []
    else do
      let s ← argJson name a type
      let r ← argsLoop (i + 1) rest
      .ok ((if i ≠ 0 then ",".toList else []) ++ s ++ r)

/-- `TraceEvent::typeToString` (trace_event.cc:105-126). -/
def EventType.toStr : EventType → Str
  | .asyncStart => "AsyncStart".toList
  | .asyncEnd => "AsyncEnd".toList
  | .syncStart => "SyncStart".toList
  | .syncEnd => "SyncEnd".toList
  | .instant => "Instant".toList
  | .globalInstant => "GlobalInstant".toList
  | .complete => "Complete".toList

/-- The `duration_cast` cascade of `to_string` (trace_event.cc:47-56): truncating division by
the length of a day, hour, minute and second in nanoseconds, keeping the remainder. -/
def splitTime (t : Int) : Int × Int × Int × Int × Int :=
  let d := t.tdiv 86400000000000
  let t := t - d * 86400000000000
  let h := t.tdiv 3600000000000
  let t := t - h * 3600000000000
  let m := t.tdiv 60000000000
  let t := t - m * 60000000000
  let s := t.tdiv 1000000000
  let t := t - s * 1000000000
  (d, h, m, s, t)

/-- `TraceEvent::to_string` (trace_event.cc:41-71). Both arguments are printed, whatever their
type. -/
def Event.toStr (e : Event) : Res Str := do
  let a ← e.args.1.toStr e.tpi.argTypes.1
  let b ← e.args.2.toStr e.tpi.argTypes.2
  match splitTime e.time.toInt with
  | (d, h, m, s, n) =>
    .ok (formatString ("TraceEvent<".toList ++ fmtInt d ++ "d ".toList ++ fmtIntPad 2 h
      ++ ":".toList ++ fmtIntPad 2 m ++ ":".toList ++ fmtIntPad 2 s
      ++ ".".toList ++ fmtIntPad 9 n
      ++ ", ".toList ++ e.tpi.category ++ ", ".toList ++ e.tpi.name
      ++ ", type=".toList ++ e.tpi.type.toStr ++ ", arg1=".toList ++ cstr a
      ++ ", arg2=".toList ++ cstr b ++ ">".toList))

/-- `TraceEvent::to_json` (trace_event.cc:73-103). `pid` is the process id. -/
def Event.toJson (e : Event) (pid : Int) (threadId : BitVec 32) : Res Str := do
  let t ← e.typeToJson
  let args ← argsLoop 0 [(e.tpi.argNames.1, e.args.1, e.tpi.argTypes.1),
    (e.tpi.argNames.2, e.args.2, e.tpi.argTypes.2)]
  .ok ("{\"name\":".toList ++ Phosphor.toJson e.tpi.name
    ++ ",\"cat\":".toList ++ Phosphor.toJson e.tpi.category
    ++ ",\"ph\":\"".toList ++ t.1 ++ "\"".toList ++ t.2
    ++ ",\"ts\":".toList ++ fmtMicros e.time
    ++ ",\"pid\":".toList ++ fmtInt pid
    ++ ",\"tid\":".toList ++ fmtNat threadId.toNat
    ++ ",\"args\":{".toList ++ args ++ "}".toList ++ "}".toList)

end Phosphor
