import Verif.Model.StringUtils
/-
Model of src/trace_config.cc and of the buffer mode names in src/trace_buffer.cc.
-/
namespace Phosphor

/-- `BufferMode` (trace_buffer.h:130-134); `invalid` stands for any other value of the
underlying `char`. -/
inductive BufferMode
  | custom
  | fixed
  | ring
  | invalid (raw : Nat)
  deriving DecidableEq, Repr

/-- `to_string(BufferMode)` (trace_buffer.cc:333-345). -/
def modeToString : BufferMode → Res Str
  | .custom => .ok "custom".toList
  | .fixed => .ok "fixed".toList
  | .ring => .ok "ring".toList
  | .invalid _ => .throw .invalidArgument

/-- `parseBufferMode` (trace_buffer.cc:318-330). -/
def parseBufferMode (mode : Str) : Res BufferMode :=
  if mode = "custom".toList then .ok .custom
  else if mode = "fixed".toList then .ok .fixed
  else if mode = "ring".toList then .ok .ring
  else .throw .invalidArgument

/-- A tracing-stopped callback: the file saving one with its path, or a user's own. Code:
trace_config.h:52-58, trace_config.h:292. -/
inductive Callback
  | file (path : Str)
  | user (id : Nat)
  deriving DecidableEq, Repr

/-- `TraceConfig` data members (trace_config.h, `protected` section). The factory of
`BufferFactoryContainer` is determined by `mode`, except for `custom` where it is the
user's; `factory` identifies that user factory. Code: trace_config.h:268-297. -/
structure TraceConfig where
  mode : BufferMode
  factory : Nat := 0
  size : Nat
  callback : Option Callback := none
  stopTracing : Bool := false
  enabled : List Str := []
  disabled : List Str := []
  deriving DecidableEq, Repr

/-- `TraceConfig(BufferMode, size_t)` (trace_config.cc:68-72); `modeToFactory`
(trace_config.cc:81-96) rejects `custom` and invalid modes. -/
def TraceConfig.make (mode : BufferMode) (size : Nat) : Res TraceConfig :=
  match mode with
  | .fixed => .ok { mode := .fixed, size, enabled := [['*']] }
  | .ring => .ok { mode := .ring, size, enabled := [['*']] }
  | _ => .throw .invalidArgument

/-- `TraceConfig(trace_buffer_factory, size_t)` (trace_config.cc:74-79). -/
def TraceConfig.makeCustom (factory size : Nat) : TraceConfig :=
  { mode := .custom, factory, size, enabled := [['*']] }

/-! ### `std::stoi` (standard library, assumed: strtol in base 10, C locale) -/

/-- `isspace` in the C locale. Code: `std::stoi` of trace_config.cc:172-191. -/
def isSpaceC (c : Char) : Bool :=
  c = ' ' || c = '\t' || c = '\n' || c = '\x0b' || c = '\x0c' || c = '\r'

/-- Optional sign of strtol. Code: `std::stoi` of trace_config.cc:172-191. -/
def takeSign : Str → Bool × Str
  | '-' :: s => (true, s)
  | '+' :: s => (false, s)
  | s => (false, s)

/-- `INT_MAX`. Code: `std::stoi` of trace_config.cc:172-191. -/
def intMax : Int := 2147483647
/-- `INT_MIN`. Code: `std::stoi` of trace_config.cc:172-191. -/
def intMin : Int := -2147483648

/-- `std::stoi(s)`: invalid_argument without digits, out_of_range outside `int`. Code:
trace_config.cc:172-191. -/
def stoi (s : Str) : Res Int :=
  let (neg, body) := takeSign ((cstr s).dropWhile isSpaceC)
  let digits := body.takeWhile Char.isDigit
  if digits = [] then .throw .invalidArgument
  else
    let n : Int := Nat.ofDigitChars 10 digits 0
    let v := if neg then -n else n
    if intMin ≤ v ∧ v ≤ intMax then .ok v else .throw .outOfRange

/-- The `buffer-size` branch (trace_config.cc:172-191): the value to store. -/
def parseSize (value : Str) : Res Nat :=
  match stoi value with
  | .ok n => if n < 0 then .throw .invalidArgument else .ok n.toNat
  | .throw .invalidArgument => .throw .invalidArgument
  | .throw .outOfRange => .throw .invalidArgument
  | .throw e => .throw e
  | .ub => .ub

/-- The branches on the key (trace_config.cc:162-200). -/
def TraceConfig.applyKV (c : TraceConfig) (key value : Str) : Res TraceConfig :=
  if key = "buffer-mode".toList then
    if value = "fixed".toList then .ok { c with mode := .fixed, factory := 0 }
    else if value = "ring".toList then .ok { c with mode := .ring, factory := 0 }
    else .throw .invalidArgument
  else if key = "buffer-size".toList then do
    let n ← parseSize value
    pure { c with size := n }
  else if key = "save-on-stop".toList then
    .ok { c with callback := some (.file value), stopTracing := true }
  else if key = "enabled-categories".toList then
    .ok { c with enabled := splitString value ',' }
  else if key = "disabled-categories".toList then
    .ok { c with disabled := splitString value ',' }
  else .ok c

/-- One iteration of the loop (trace_config.cc:148-201). -/
def TraceConfig.applyArg (c : TraceConfig) (argument : Str) : Res TraceConfig :=
  match splitString argument ':' with
  | [key, value] => c.applyKV key value
  | _ => .throw .invalidArgument

/-- The loop: the object as left behind, and how the call ended. Code: trace_config.cc:148-201. -/
def TraceConfig.applyArgs (c : TraceConfig) : List Str → TraceConfig × Res Unit
  | [] => (c, .ok ())
  | a :: as =>
    match c.applyArg a with
    | .ok c' => c'.applyArgs as
    | .throw e => (c, .throw e)
    | .ub => (c, .ub)

/-- `updateFromString` (trace_config.cc:145-202): the object afterwards and the outcome. -/
def TraceConfig.updateFromString (c : TraceConfig) (config : Str) : TraceConfig × Res Unit :=
  c.applyArgs (splitString config ';')

/-- The object `fromString` starts from (trace_config.cc:205-207). -/
def TraceConfig.default : TraceConfig :=
  { mode := .fixed, size := 1024 * 1024 * 8, enabled := [['*']], disabled := [] }

/-- `fromString` (trace_config.cc:204-210). -/
def TraceConfig.fromString (config : Str) : Res TraceConfig :=
  match TraceConfig.default.updateFromString config with
  | (c, .ok _) => .ok c
  | (_, .throw e) => .throw e
  | (_, .ub) => .ub

/-- `toString` (trace_config.cc:212-225). -/
def TraceConfig.toString (c : TraceConfig) : Res Str := do
  let m ← modeToString c.mode
  pure ("buffer-mode:".toList ++ m ++ ";".toList
    ++ "buffer-size:".toList ++ fmtNat c.size ++ ";".toList
    ++ "enabled-categories:".toList ++ joinString c.enabled ',' ++ ";".toList
    ++ "disabled-categories:".toList ++ joinString c.disabled ',')

/-- `TraceLogConfig().fromEnvironment()` (trace_config.cc:46-53): the start-up trace, if any,
given the value of `PHOSPHOR_TRACING_START` (`none` when unset). -/
def fromEnvironment (env : Option Str) : Res (Option TraceConfig) :=
  match env with
  | none => .ok none
  | some v =>
    if (cstr v).length = 0 then .ok none
    else do
      let c ← TraceConfig.fromString (cstr v)
      pure (some c)

end Phosphor
