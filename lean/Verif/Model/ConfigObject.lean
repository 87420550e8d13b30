import Verif.Model.TraceBuffer
/-
`TraceConfig` and `TraceLogConfig` as objects: the buffer factory is a member of its own, objects
are changed by their setters and copied. Model/TraceConfig describes the same configuration with the
factory left out.
-/
namespace Phosphor.Cfg

/-- A `trace_buffer_factory`: one of the two of the library or one of the user's. Code:
trace_buffer.h:381-386, trace_buffer.cc:184-187, trace_buffer.cc:313-316. -/
inductive Factory
  | makeFixed
  | makeRing
  | user (id : Nat)
  deriving DecidableEq, Repr

/-- `BufferFactoryContainer` (trace_config.h:270-287). -/
structure Container where
  mode : BufferMode
  factory : Factory
  deriving DecidableEq, Repr

/-- `modeToFactory` (trace_config.cc:81-96). -/
def modeToFactory : BufferMode → Res Factory
  | .fixed => .ok .makeFixed
  | .ring => .ok .makeRing
  | .custom => .throw .invalidArgument
  | .invalid _ => .throw .invalidArgument

/-- `BufferFactoryContainer(BufferMode)` (trace_config.cc:227-229). -/
def Container.ofMode (m : BufferMode) : Res Container := do
  let f ← modeToFactory m
  pure ⟨m, f⟩

/-- `BufferFactoryContainer(trace_buffer_factory)` (trace_config.cc:231-234). -/
def Container.ofFactory (f : Factory) : Container := ⟨.custom, f⟩

/-- The members of `TraceConfig` (trace_config.h:289-296). -/
structure Obj where
  container : Container
  size : Nat
  callback : Option Callback
  stopTracing : Bool
  enabled : List Str
  disabled : List Str
  deriving DecidableEq, Repr

/-- `TraceConfig()` (trace_config.cc:64, trace_config.h:289-296). -/
def Obj.new : Obj := ⟨⟨.fixed, .makeFixed⟩, 0, none, false, [], []⟩

/-- `TraceConfig(BufferMode, size_t)` (trace_config.cc:68-72). -/
def Obj.ofMode (m : BufferMode) (size : Nat) : Res Obj := do
  let c ← Container.ofMode m
  pure ⟨c, size, none, false, [['*']], []⟩

/-- `TraceConfig(trace_buffer_factory, size_t)` (trace_config.cc:74-79). -/
def Obj.ofFactory (f : Factory) (size : Nat) : Obj := ⟨.ofFactory f, size, none, false, [['*']], []⟩

/-- `getBufferMode` (trace_config.cc:98-100). -/
def Obj.getBufferMode (c : Obj) : BufferMode := c.container.mode

/-- `getBufferFactory` (trace_config.cc:102-104). -/
def Obj.getBufferFactory (c : Obj) : Factory := c.container.factory

/-- `getBufferSize` (trace_config.cc:106-108). -/
def Obj.getBufferSize (c : Obj) : Nat := c.size

/-- `setStoppedCallback` (trace_config.cc:110-114). -/
def Obj.setStoppedCallback (c : Obj) (cb : Option Callback) : Obj := { c with callback := cb }

/-- `getStoppedCallback` (trace_config.cc:116-118). -/
def Obj.getStoppedCallback (c : Obj) : Option Callback := c.callback

/-- `setStopTracingOnDestruct` (trace_config.cc:120-123). -/
def Obj.setStopTracingOnDestruct (c : Obj) (b : Bool) : Obj := { c with stopTracing := b }

/-- `getStopTracingOnDestruct` (trace_config.cc:125-127). -/
def Obj.getStopTracingOnDestruct (c : Obj) : Bool := c.stopTracing

/-- `setCategories` (trace_config.cc:129-135). -/
def Obj.setCategories (c : Obj) (enabled disabled : List Str) : Obj := { c with enabled, disabled }

/-- `getEnabledCategories` (trace_config.cc:137-139). -/
def Obj.getEnabledCategories (c : Obj) : List Str := c.enabled

/-- `getDisabledCategories` (trace_config.cc:141-143). -/
def Obj.getDisabledCategories (c : Obj) : List Str := c.disabled

/-- The branches on the key (trace_config.cc:162-200): the object as left behind and the outcome.
The assignment to the container converts the mode first, so an exception would leave it as it was. -/
def Obj.applyKV (c : Obj) (key value : Str) : Obj × Res Unit :=
  let assign (m : BufferMode) : Obj × Res Unit :=
    match Container.ofMode m with
    | .ok k => ({ c with container := k }, .ok ())
    | .throw e => (c, .throw e)
    | .ub => (c, .ub)
  if key = "buffer-mode".toList then
    if value = "fixed".toList then assign .fixed
    else if value = "ring".toList then assign .ring
    else (c, .throw .invalidArgument)
  else if key = "buffer-size".toList then
    match parseSize value with
    | .ok n => ({ c with size := n }, .ok ())
    | .throw e => (c, .throw e)
    | .ub => (c, .ub)
  else if key = "save-on-stop".toList then
    (({ c with callback := some (.file value) } : Obj).setStopTracingOnDestruct true, .ok ())
  else if key = "enabled-categories".toList then
    ({ c with enabled := splitString value ',' }, .ok ())
  else if key = "disabled-categories".toList then
    ({ c with disabled := splitString value ',' }, .ok ())
  else (c, .ok ())

/-- The loop over the arguments (trace_config.cc:148-201). -/
def Obj.applyArgs (c : Obj) : List Str → Obj × Res Unit
  | [] => (c, .ok ())
  | a :: as =>
    match splitString a ':' with
    | [key, value] =>
      match c.applyKV key value with
      | (c', .ok _) => c'.applyArgs as
      | r => r
    | _ => (c, .throw .invalidArgument)

/-- `updateFromString` (trace_config.cc:145-202). -/
def Obj.updateFromString (c : Obj) (config : Str) : Obj × Res Unit := c.applyArgs (splitString config ';')

/-- `fromString` (trace_config.cc:204-210). -/
def Obj.fromString (config : Str) : Res Obj := do
  let c ← Obj.ofMode .fixed (1024 * 1024 * 8)
  match (c.setCategories [['*']] []).updateFromString config with
  | (c, .ok _) => pure c
  | (_, .throw e) => .throw e
  | (_, .ub) => .ub

/-- `operator<<` for modes (trace_config.cc:23-26). -/
def printMode (stream : Str) (m : BufferMode) : Res Str := do
  let s ← modeToString m
  pure (stream ++ s)

/-- What the factory makes; `custom` is the user's doing. Code: trace_buffer.cc:184-187,
trace_buffer.cc:313-316. -/
def Factory.make {ε : Type} (custom : Nat → Nat → Nat → Buffer ε) : Factory → Nat → Nat → Buffer ε
  | .makeFixed, generation, size => .makeFixed generation size
  | .makeRing, generation, size => .makeRing generation size
  | .user id, generation, size => custom id generation size

/-- A program's `TraceConfig` variables and one `TraceLogConfig` (trace_config.h:74-119). -/
structure World where
  var : Nat → Obj
  startup : Option Obj

/-- The operations of a program on them. Code: trace_config.h:90-115, trace_config.h:141-256. -/
inductive Op
  | new (x : Nat)
  | ofMode (x : Nat) (m : BufferMode) (size : Nat)
  | ofFactory (x : Nat) (id size : Nat)
  | fromString (x : Nat) (s : Str)
  | setStoppedCallback (x : Nat) (cb : Option Callback)
  | setStopTracingOnDestruct (x : Nat) (b : Bool)
  | setCategories (x : Nat) (enabled disabled : List Str)
  | updateFromString (x : Nat) (s : Str)
  | copy (x y : Nat)
  | copyStartup (x : Nat)
  | setStartupTrace (x : Nat)
  | clearStartupTrace
  | fromEnvironment (env : Option Str)
  deriving DecidableEq, Repr

/-- A new object takes the place of a variable; if its construction throws the variable is not
changed. Code: trace_config.cc:64-79, trace_config.cc:204-210. -/
def World.init (w : World) (x : Nat) : Res Obj → World
  | .ok c => { w with var := setf w.var x c }
  | _ => w

/-- One operation. Code: trace_config.cc:31-143, trace_config.cc:145-210. -/
def World.exec (w : World) : Op → World
  | .new x => w.init x (.ok .new)
  | .ofMode x m size => w.init x (Obj.ofMode m size)
  | .ofFactory x id size => w.init x (.ok (Obj.ofFactory (.user id) size))
  | .fromString x s => w.init x (Obj.fromString s)
  | .setStoppedCallback x cb => { w with var := setf w.var x ((w.var x).setStoppedCallback cb) }
  | .setStopTracingOnDestruct x b => { w with var := setf w.var x ((w.var x).setStopTracingOnDestruct b) }
  | .setCategories x e d => { w with var := setf w.var x ((w.var x).setCategories e d) }
  | .updateFromString x s => { w with var := setf w.var x ((w.var x).updateFromString s).1 }
  | .copy x y => { w with var := setf w.var x (w.var y) }
  | .copyStartup x => match w.startup with
    | some c => { w with var := setf w.var x c }
    | none => w
  | .setStartupTrace x => { w with startup := some (w.var x) }
  | .clearStartupTrace => { w with startup := none }
  | .fromEnvironment env => match env with
    | none => w
    | some v =>
      if (cstr v).length = 0 then w
      else match Obj.fromString (cstr v) with
        | .ok c => { w with startup := some c }
        | _ => w

/-- A program: a list of operations; exceptions are caught. Code: trace_config.cc:31-210. -/
def World.run (w : World) (ops : List Op) : World := ops.foldl World.exec w

end Phosphor.Cfg
