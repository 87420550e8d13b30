import Verif.Model.Guards
/-
Model of the trace macros of include/phosphor/phosphor.h and phosphor-internal.h: what a use of
a macro evaluates and which calls of `TraceLog::logEvent` it makes, given whether its category
is enabled (how the category is looked up and tested is Model/TracePoint). Macro arguments are
expressions of the user's program: every evaluation is recorded, and may give another value.
The arguments of `start` and `end` are modelled as the source text of sums, because the macros
paste them into a larger expression without parentheses.
Simplifications: the arguments of one call are evaluated from left to right (C++ leaves the
order open); evaluating an argument does not throw; `category`, `name` and argument names are
constant expressions (they initialise a `constexpr` variable).
-/
namespace Phosphor
namespace Macro

/-- A call of one of the two `logEvent` functions of the log (trace_log.h:125-145). -/
inductive LogCall
  | now (tpi : TracepointInfo) (a b : TraceArg)
  | timed (tpi : TracepointInfo) (start duration : Int) (a b : TraceArg)
  deriving DecidableEq, Repr

/-- The event such a call constructs (trace_event.cc:22-39); `now` is the clock at the call. -/
def LogCall.event (now : BitVec 64) : LogCall → Event
  | .now tpi a b => Event.mkNow tpi now a b
  | .timed tpi s d a b => Event.mkComplete tpi (BitVec.ofInt 64 s) (BitVec.ofInt 64 d) a b

/-- What happened so far: the argument expressions evaluated (by their number), and the calls,
both oldest first. Code: phosphor-internal.h:86-100, phosphor-internal.h:126-141. -/
structure MW where
  evals : List Nat
  calls : List LogCall
  deriving DecidableEq, Repr

/-- An argument expression of the user: its number, its static type `decltype(arg)`, and the
value of its k-th evaluation, which has this type. Code: phosphor-internal.h:93-95. -/
structure ArgE where
  id : Nat
  ty : ArgType
  val : Nat → CVal
  typed : ∀ k, (val k).getType = ty

/-- What stands in the place of an argument: an expression of the user, or
`phosphor::NoneType()`. Code: phosphor-internal.h:105-119. -/
inductive Src
  | user (e : ArgE)
  | noneType

/-- `TraceArgumentConversion<decltype(arg)>::getType()`. Code: phosphor-internal.h:55-56. -/
def Src.ty : Src → ArgType
  | .user e => e.ty
  | .noneType => .isNone

/-- Evaluation of an argument and its conversion to `TraceArgument`. Code:
phosphor-internal.h:99, trace_argument.h:122-126. -/
def Src.eval (s : Src) (w : MW) : TraceArg × MW :=
  match s with
  | .user e => ((e.val (w.evals.count e.id)).asArgument, { w with evals := w.evals ++ [e.id] })
  | .noneType => (CVal.none.asArgument, w)

/-- One call of `logEvent`. Code: phosphor-internal.h:99, phosphor-internal.h:139-140. -/
def MW.call (w : MW) (c : LogCall) : MW := { w with calls := w.calls ++ [c] }

/-- `PHOSPHOR_INTERNAL_INITIALIZE_TPI` (phosphor-internal.h:41-56). -/
def mkTpi (category name : Str) (type : EventType) (nA : Option Str) (tA : ArgType)
    (nB : Option Str) (tB : ArgType) : TracepointInfo where
  category
  name
  type
  argNames := (nA, nB)
  argTypes := (tA, tB)

/-- `PHOSPHOR_INTERNAL_TRACE_EVENT2` (phosphor-internal.h:86-100). `enabled`: the status of the
category is not `Disabled`. -/
def event2 (enabled : Bool) (category name : Str) (type : EventType) (nA : Str) (a : Src)
    (nB : Str) (b : Src) (w : MW) : MW :=
  let tpi := mkTpi category name type (some nA) a.ty (some nB) b.ty
  if enabled then
    let (x, w) := a.eval w
    let (y, w) := b.eval w
    w.call (.now tpi x y)
  else w

/-- `PHOSPHOR_INTERNAL_TRACE_EVENT1` (phosphor-internal.h:105-107). -/
def event1 (enabled : Bool) (category name : Str) (type : EventType) (nA : Str) (a : Src) : MW → MW :=
  event2 enabled category name type nA a [] .noneType

/-- `PHOSPHOR_INTERNAL_TRACE_EVENT0` (phosphor-internal.h:112-119). -/
def event0 (enabled : Bool) (category name : Str) (type : EventType) : MW → MW :=
  event2 enabled category name type [] .noneType [] .noneType

/-! ### Time expressions -/

/-- A value of a time expression: a `time_point` or a `duration`, in nanoseconds. Code:
trace_log.h:141-145. -/
inductive TVal
  | point (t : Int)
  | dur (d : Int)
  deriving DecidableEq, Repr

/-- The count of nanoseconds. Code: trace_log.h:141-145. -/
def TVal.count : TVal → Int
  | .point t => t
  | .dur d => d

/-- An operand of a sum: a variable, a call, or anything in parentheses. Its number, whether it
is a time point, and its k-th value. Code: phosphor.h:531-557. -/
structure TTerm where
  id : Nat
  isPoint : Bool
  val : Nat → Int

/-- The text of a sum, `t op t op t …`. Code: phosphor.h:531-557. -/
structure TimeExpr where
  head : TTerm
  rest : List (Bool × TTerm)

/-- Evaluation of an operand. Code: phosphor.h:531-557. -/
def TTerm.eval (t : TTerm) (w : MW) : TVal × MW :=
  let v := t.val (w.evals.count t.id)
  (if t.isPoint then .point v else .dur v, { w with evals := w.evals ++ [t.id] })

/-- The range of the 64-bit counts; overflow is undefined. Code: phosphor.h:536. -/
def inRange (x : Int) : Bool := -2 ^ 63 ≤ x ∧ x < 2 ^ 63

/-- The operators of std::chrono (`true` is `+`); `ub` also stands for a program
that does not compile. Code: phosphor.h:536. -/
def chronoOp (plus : Bool) (x y : TVal) : Res TVal :=
  match plus, x, y with
  | true, .point a, .dur b => if inRange (a + b) then .ok (.point (a + b)) else .ub
  | true, .dur a, .point b => if inRange (a + b) then .ok (.point (a + b)) else .ub
  | true, .dur a, .dur b => if inRange (a + b) then .ok (.dur (a + b)) else .ub
  | true, .point _, .point _ => .ub
  | false, .point a, .point b => if inRange (a - b) then .ok (.dur (a - b)) else .ub
  | false, .point a, .dur b => if inRange (a - b) then .ok (.point (a - b)) else .ub
  | false, .dur a, .dur b => if inRange (a - b) then .ok (.dur (a - b)) else .ub
  | false, .dur _, .point _ => .ub

/-- The operators of a sum apply from left to right. Code: phosphor.h:536. -/
def evalRest : TVal → List (Bool × TTerm) → MW → Res (TVal × MW)
  | x, [], w => .ok (x, w)
  | x, (op, t) :: rest, w =>
    match t.eval w with
    | (y, w') => match chronoOp op x y with
      | .ok z => evalRest z rest w'
      | .throw e => .throw e
      | .ub => .ub

/-- Evaluation of a sum. Code: phosphor.h:536. -/
def TimeExpr.eval (e : TimeExpr) (w : MW) : Res (TVal × MW) :=
  let (x, w) := e.head.eval w
  evalRest x e.rest w

/-- The text `(end - start)` of the macros: the texts of the two arguments with a minus sign
between them (phosphor.h:536, 543, 553). -/
def pasteMinus (e s : TimeExpr) : TimeExpr := ⟨e.head, e.rest ++ (false, s.head) :: s.rest⟩

/-- Conversion to the parameter `start` of `logEvent`; a `duration` does not convert. Code:
trace_log.h:141-145. -/
def TVal.toPoint : TVal → Res Int
  | .point t => .ok t
  | .dur _ => .ub

/-- Conversion to the parameter `duration` of `logEvent`. Code: trace_log.h:141-145. -/
def TVal.toDur : TVal → Res Int
  | .point _ => .ub
  | .dur d => .ok d

/-- `PHOSPHOR_INTERNAL_TRACE_COMPLETE2` (phosphor-internal.h:126-141). -/
def complete2 (enabled : Bool) (category name : Str) (type : EventType) (start duration : TimeExpr)
    (nA : Str) (a : Src) (nB : Str) (b : Src) (w : MW) : Res MW :=
  let tpi := mkTpi category name type (some nA) a.ty (some nB) b.ty
  if enabled then do
    let (s, w) ← start.eval w
    let s ← s.toPoint
    let (d, w) ← duration.eval w
    let d ← d.toDur
    let (x, w) := a.eval w
    let (y, w) := b.eval w
    .ok (w.call (.timed tpi s d x y))
  else .ok w

/-- `PHOSPHOR_INTERNAL_TRACE_COMPLETE1` (phosphor-internal.h:146-156). -/
def complete1 (enabled : Bool) (category name : Str) (type : EventType) (start duration : TimeExpr)
    (nA : Str) (a : Src) : MW → Res MW :=
  complete2 enabled category name type start duration nA a [] .noneType

/-- `PHOSPHOR_INTERNAL_TRACE_COMPLETE0` (phosphor-internal.h:161-171). -/
def complete0 (enabled : Bool) (category name : Str) (type : EventType)
    (start duration : TimeExpr) : MW → Res MW :=
  complete2 enabled category name type start duration [] .noneType [] .noneType

/-! ### The macros of the interface -/

/-- `TRACE_EVENT_START0` (phosphor.h:100-102). -/
def TRACE_EVENT_START0 (en : Bool) (category name : Str) := event0 en category name .syncStart
/-- `TRACE_EVENT_END0` (phosphor.h:104-106). -/
def TRACE_EVENT_END0 (en : Bool) (category name : Str) := event0 en category name .syncEnd
/-- `TRACE_EVENT_START1` (phosphor.h:108-113). -/
def TRACE_EVENT_START1 (en : Bool) (category name n1 : Str) (a1 : ArgE) :=
  event1 en category name .syncStart n1 (.user a1)
/-- `TRACE_EVENT_END1` (phosphor.h:115-120). -/
def TRACE_EVENT_END1 (en : Bool) (category name n1 : Str) (a1 : ArgE) :=
  event1 en category name .syncEnd n1 (.user a1)
/-- `TRACE_EVENT_START2` (phosphor.h:122-129). -/
def TRACE_EVENT_START2 (en : Bool) (category name n1 : Str) (a1 : ArgE) (n2 : Str) (a2 : ArgE) :=
  event2 en category name .syncStart n1 (.user a1) n2 (.user a2)
/-- `TRACE_EVENT_END2` (phosphor.h:131-138). -/
def TRACE_EVENT_END2 (en : Bool) (category name n1 : Str) (a1 : ArgE) (n2 : Str) (a2 : ArgE) :=
  event2 en category name .syncEnd n1 (.user a1) n2 (.user a2)

/-- `TRACE_ASYNC_START0` (phosphor.h:358-360). -/
def TRACE_ASYNC_START0 (en : Bool) (category name : Str) (id : ArgE) :=
  event1 en category name .asyncStart "id".toList (.user id)
/-- `TRACE_ASYNC_START1` (phosphor.h:362-369). -/
def TRACE_ASYNC_START1 (en : Bool) (category name : Str) (id : ArgE) (n1 : Str) (a1 : ArgE) :=
  event2 en category name .asyncStart "id".toList (.user id) n1 (.user a1)
/-- `TRACE_ASYNC_END0` (phosphor.h:371-376). -/
def TRACE_ASYNC_END0 (en : Bool) (category name : Str) (id : ArgE) :=
  event1 en category name .asyncEnd "id_end".toList (.user id)
/-- `TRACE_ASYNC_END1` (phosphor.h:378-385). -/
def TRACE_ASYNC_END1 (en : Bool) (category name : Str) (id : ArgE) (n1 : Str) (a1 : ArgE) :=
  event2 en category name .asyncEnd "id_end".toList (.user id) n1 (.user a1)

/-- `TRACE_INSTANT0` (phosphor.h:445-447). -/
def TRACE_INSTANT0 (en : Bool) (category name : Str) := event0 en category name .instant
/-- `TRACE_INSTANT1` (phosphor.h:449-454). -/
def TRACE_INSTANT1 (en : Bool) (category name n1 : Str) (a1 : ArgE) :=
  event1 en category name .instant n1 (.user a1)
/-- `TRACE_INSTANT2` (phosphor.h:456-463). -/
def TRACE_INSTANT2 (en : Bool) (category name n1 : Str) (a1 : ArgE) (n2 : Str) (a2 : ArgE) :=
  event2 en category name .instant n1 (.user a1) n2 (.user a2)

/-- `TRACE_GLOBAL0` (phosphor.h:479-481). -/
def TRACE_GLOBAL0 (en : Bool) (category name : Str) := event0 en category name .globalInstant
/-- `TRACE_GLOBAL1` (phosphor.h:483-488). -/
def TRACE_GLOBAL1 (en : Bool) (category name n1 : Str) (a1 : ArgE) :=
  event1 en category name .globalInstant n1 (.user a1)
/-- `TRACE_GLOBAL2` (phosphor.h:490-497). -/
def TRACE_GLOBAL2 (en : Bool) (category name n1 : Str) (a1 : ArgE) (n2 : Str) (a2 : ArgE) :=
  event2 en category name .globalInstant n1 (.user a1) n2 (.user a2)

/-- `TRACE_COMPLETE0` (phosphor.h:531-536). -/
def TRACE_COMPLETE0 (en : Bool) (category name : Str) (start «end» : TimeExpr) :=
  complete0 en category name .complete start (pasteMinus «end» start)
/-- `TRACE_COMPLETE1` (phosphor.h:538-545). -/
def TRACE_COMPLETE1 (en : Bool) (category name : Str) (start «end» : TimeExpr) (n1 : Str)
    (a1 : ArgE) :=
  complete1 en category name .complete start (pasteMinus «end» start) n1 (.user a1)
/-- `TRACE_COMPLETE2` (phosphor.h:547-557). -/
def TRACE_COMPLETE2 (en : Bool) (category name : Str) (start «end» : TimeExpr) (n1 : Str)
    (a1 : ArgE) (n2 : Str) (a2 : ArgE) :=
  complete2 en category name .complete start (pasteMinus «end» start) n1 (.user a1) n2 (.user a2)

/-- `TRACE_ASYNC_COMPLETE2` (phosphor.h:387-414); `{}` as the argument `duration` is zero, and
`{}` as an argument name is a null pointer. -/
def asyncComplete2 (en : Bool) (category name : Str) (id : ArgE) (start «end» : TimeExpr)
    (n1 : Option Str) (a1 : Src) (n2 : Option Str) (a2 : Src) (w : MW) : Res MW :=
  let tpiStart := mkTpi category name .asyncStart (some "id".toList) .isPointer n1 a1.ty
  let tpiEnd := mkTpi category name .asyncEnd (some "id_end".toList) .isPointer n2 a2.ty
  if en then do
    let (s, w) ← start.eval w
    let s ← s.toPoint
    let (i, w) := (Src.user id).eval w
    let (x, w) := a1.eval w
    let w := w.call (.timed tpiStart s 0 i x)
    let (e, w) ← «end».eval w
    let e ← e.toPoint
    let (i, w) := (Src.user id).eval w
    let (y, w) := a2.eval w
    .ok (w.call (.timed tpiEnd e 0 i y))
  else .ok w

/-- `TRACE_ASYNC_COMPLETE2` with two arguments (phosphor.h:387-414). -/
def TRACE_ASYNC_COMPLETE2 (en : Bool) (category name : Str) (id : ArgE) (start «end» : TimeExpr)
    (n1 : Str) (a1 : ArgE) (n2 : Str) (a2 : ArgE) :=
  asyncComplete2 en category name id start «end» (some n1) (.user a1) (some n2) (.user a2)
/-- `TRACE_ASYNC_COMPLETE1` (phosphor.h:416-425). -/
def TRACE_ASYNC_COMPLETE1 (en : Bool) (category name : Str) (id : ArgE) (start «end» : TimeExpr)
    (n1 : Str) (a1 : ArgE) :=
  asyncComplete2 en category name id start «end» (some n1) (.user a1) none .noneType
/-- `TRACE_ASYNC_COMPLETE0` (phosphor.h:427-429). -/
def TRACE_ASYNC_COMPLETE0 (en : Bool) (category name : Str) (id : ArgE) (start «end» : TimeExpr) :=
  asyncComplete2 en category name id start «end» none .noneType none .noneType

/-- Evaluation of an argument without conversion: the constructor of a guard takes it by its
own type. Code: scoped_event_guard.h:29-33. -/
def Src.evalC (s : Src) (w : MW) : CVal × MW :=
  match s with
  | .user e => (e.val (w.evals.count e.id), { w with evals := w.evals ++ [e.id] })
  | .noneType => (CVal.none, w)

/-- What a scoped macro passes to the constructor of its guard (`ScopedGuard.ctor`): the
tracepoint, whether the category is enabled, and the arguments, which are evaluated in either
case. Code: phosphor.h:168-223. -/
def scopedMacro (en : Bool) (category name nA : Str) (a : Src) (nB : Str) (b : Src) (w : MW) :
    (TracepointInfo × Bool × CVal × CVal) × MW :=
  let tpi := mkTpi category name .complete (some nA) a.ty (some nB) b.ty
  let (x, w) := a.evalC w
  let (y, w) := b.evalC w
  ((tpi, en, x, y), w)

/-- `TRACE_EVENT0` (phosphor.h:168-185). -/
def TRACE_EVENT0 (en : Bool) (category name : Str) :=
  scopedMacro en category name [] .noneType [] .noneType
/-- `TRACE_EVENT1` (phosphor.h:187-204). -/
def TRACE_EVENT1 (en : Bool) (category name n1 : Str) (a1 : ArgE) :=
  scopedMacro en category name n1 (.user a1) [] .noneType
/-- `TRACE_EVENT2` (phosphor.h:206-223). -/
def TRACE_EVENT2 (en : Bool) (category name n1 : Str) (a1 : ArgE) (n2 : Str) (a2 : ArgE) :=
  scopedMacro en category name n1 (.user a1) n2 (.user a2)
/-- `TRACE_FUNCTION0` (phosphor.h:225); `func` is `__func__`, the name of the function. -/
def TRACE_FUNCTION0 (func : Str) (en : Bool) (category : Str) := TRACE_EVENT0 en category func
/-- `TRACE_FUNCTION1` (phosphor.h:227-228). -/
def TRACE_FUNCTION1 (func : Str) (en : Bool) (category n1 : Str) (a1 : ArgE) :=
  TRACE_EVENT1 en category func n1 a1
/-- `TRACE_FUNCTION2` (phosphor.h:230-231). -/
def TRACE_FUNCTION2 (func : Str) (en : Bool) (category n1 : Str) (a1 : ArgE) (n2 : Str)
    (a2 : ArgE) :=
  TRACE_EVENT2 en category func n1 a1 n2 a2

/-! ### The compiled-out interface -/

/-- The macros defined when `PHOSPHOR_DISABLED` is 0, with their number of parameters. Code:
phosphor.h:100-557. -/
def enabledMacros : List (String × Nat) :=
  [("TRACE_EVENT_START0", 2), ("TRACE_EVENT_END0", 2), ("TRACE_EVENT_START1", 4),
   ("TRACE_EVENT_END1", 4), ("TRACE_EVENT_START2", 6), ("TRACE_EVENT_END2", 6),
   ("TRACE_EVENT0", 2), ("TRACE_EVENT1", 4), ("TRACE_EVENT2", 6),
   ("TRACE_FUNCTION0", 1), ("TRACE_FUNCTION1", 3), ("TRACE_FUNCTION2", 5),
   ("TRACE_LOCKGUARD", 3), ("TRACE_LOCKGUARD_TIMED", 4),
   ("TRACE_ASYNC_START0", 3), ("TRACE_ASYNC_START1", 5), ("TRACE_ASYNC_END0", 3),
   ("TRACE_ASYNC_END1", 5), ("TRACE_ASYNC_COMPLETE2", 9), ("TRACE_ASYNC_COMPLETE1", 7),
   ("TRACE_ASYNC_COMPLETE0", 5), ("TRACE_INSTANT0", 2), ("TRACE_INSTANT1", 4),
   ("TRACE_INSTANT2", 6), ("TRACE_GLOBAL0", 2), ("TRACE_GLOBAL1", 4), ("TRACE_GLOBAL2", 6),
   ("TRACE_COMPLETE0", 4), ("TRACE_COMPLETE1", 6), ("TRACE_COMPLETE2", 8)]

/-- The macros defined when `PHOSPHOR_DISABLED` is not 0. Code: phosphor.h:562-598. -/
def disabledMacros : List (String × Nat) :=
  [("TRACE_EVENT_START0", 2), ("TRACE_EVENT_START1", 4), ("TRACE_EVENT_START2", 6),
   ("TRACE_EVENT_END0", 2), ("TRACE_EVENT_END1", 4), ("TRACE_EVENT_END2", 6),
   ("TRACE_EVENT0", 2), ("TRACE_EVENT1", 4), ("TRACE_EVENT2", 6),
   ("TRACE_FUNCTION0", 1), ("TRACE_FUNCTION1", 4), ("TRACE_FUNCTION2", 6),
   ("TRACE_LOCKGUARD", 3), ("TRACE_LOCKGUARD_TIMED", 4),
   ("TRACE_ASYNC_START0", 3), ("TRACE_ASYNC_START1", 5), ("TRACE_ASYNC_END0", 3),
   ("TRACE_ASYNC_END1", 5), ("TRACE_INSTANT0", 2), ("TRACE_INSTANT1", 4),
   ("TRACE_INSTANT2", 6), ("TRACE_GLOBAL0", 2), ("TRACE_GLOBAL1", 4), ("TRACE_GLOBAL2", 6),
   ("TRACE_COMPLETE0", 4), ("TRACE_COMPLETE1", 6), ("TRACE_COMPLETE2", 8)]

/-- The compiled-out `TRACE_LOCKGUARD` and `TRACE_LOCKGUARD_TIMED`: a `std::lock_guard` around
the rest of the block. Code: phosphor.h:577-580. -/
def plainGuarded (mutex : BitVec 64) (lockOk : Bool) (body : World → Res World) (w : World) :
    Res World :=
  if lockOk then do
    let w ← body (w.act (.lock mutex))
    .ok (w.act (.unlock mutex))
  else .ok (w.act (.lockFailed mutex))

end Macro
end Phosphor
