import Verif.Model.Macros
import Verif.Model.InlineZString
/-
The expectations of tests/library/macro_test.cc and macro_disabled_test.cc, stated of the model of the macros.
These are checks of the model against the authors' expectations, not proofs of properties.
-/
namespace Phosphor.Tests
open Macro

/-- The literal argument `i`, an `int`. -/
def lit (i : Nat) : ArgE := ⟨i, .isInt, fun _ => .int (BitVec.ofNat 32 i), fun _ => rfl⟩
/-- `void* id = this`. -/
def this : ArgE := ⟨100, .isPointer, fun _ => .ptr 0x7f00#64, fun _ => rfl⟩

/-- What the verifications look at: name, category, type, argument names and values. -/
structure Seen where
  name : String
  category : String
  type : EventType
  names : Option String × Option String
  args : TraceArg × TraceArg
  time : Option (Int × Int)
  deriving DecidableEq

/-- The event a call logs. -/
def seen : LogCall → Seen
  | .now t a b => ⟨.ofList t.name, .ofList t.category, t.type,
      (t.argNames.1.map .ofList, t.argNames.2.map .ofList), (a, b), none⟩
  | .timed t s d a b => ⟨.ofList t.name, .ofList t.category, t.type,
      (t.argNames.1.map .ofList, t.argNames.2.map .ofList), (a, b), some (s, d)⟩

/-- The events logged by a statement in a fresh world. -/
def logs (f : MW → MW) : List Seen := (f ⟨[], []⟩).calls.map seen
def logsR (f : MW → Res MW) : Option (List Seen) :=
  match f ⟨[], []⟩ with
  | .ok w => some (w.calls.map seen)
  | _ => none

def cat : Str := "category".toList
def nm : Str := "name".toList
def a1 : Str := "my_arg1".toList
def a2 : Str := "my_arg2".toList
def three : TraceArg := .word 3#64
def four : TraceArg := .word 4#64

-- Synchronous (macro_test.cc:14-66)
example : logs (TRACE_EVENT_START0 true cat nm) =
    [⟨"name", "category", .syncStart, (some "", some ""), (.none, .none), none⟩] := by decide +kernel
example : logs (TRACE_EVENT_END0 true cat nm) =
    [⟨"name", "category", .syncEnd, (some "", some ""), (.none, .none), none⟩] := by decide +kernel
example : logs (TRACE_EVENT_START1 true cat nm a1 (lit 3)) =
    [⟨"name", "category", .syncStart, (some "my_arg1", some ""), (three, .none), none⟩] := by decide +kernel
example : logs (TRACE_EVENT_END1 true cat nm a1 (lit 3)) =
    [⟨"name", "category", .syncEnd, (some "my_arg1", some ""), (three, .none), none⟩] := by decide +kernel
example : logs (TRACE_EVENT_START2 true cat nm a1 (lit 3) a2 (lit 4)) =
    [⟨"name", "category", .syncStart, (some "my_arg1", some "my_arg2"), (three, four), none⟩] := by decide +kernel
example : logs (TRACE_EVENT_END2 true cat nm a1 (lit 3) a2 (lit 4)) =
    [⟨"name", "category", .syncEnd, (some "my_arg1", some "my_arg2"), (three, four), none⟩] := by decide +kernel

-- Asynchronous (macro_test.cc:68-105)
example : logs (TRACE_ASYNC_START0 true cat nm (lit 3)) =
    [⟨"name", "category", .asyncStart, (some "id", some ""), (three, .none), none⟩] := by decide +kernel
example : logs (TRACE_ASYNC_END0 true cat nm (lit 5)) =
    [⟨"name", "category", .asyncEnd, (some "id_end", some ""), (.word 5#64, .none), none⟩] := by decide +kernel
example : logs (TRACE_ASYNC_START1 true cat nm (lit 3) a1 (lit 4)) =
    [⟨"name", "category", .asyncStart, (some "id", some "my_arg1"), (three, four), none⟩] := by decide +kernel
example : logs (TRACE_ASYNC_END1 true cat nm (lit 3) a1 (lit 4)) =
    [⟨"name", "category", .asyncEnd, (some "id_end", some "my_arg1"), (three, four), none⟩] := by decide +kernel

-- Instant, Global (macro_test.cc:107-161)
example : logs (TRACE_INSTANT0 true cat nm) =
    [⟨"name", "category", .instant, (some "", some ""), (.none, .none), none⟩] := by decide +kernel
example : logs (TRACE_INSTANT1 true cat nm a1 (lit 3)) =
    [⟨"name", "category", .instant, (some "my_arg1", some ""), (three, .none), none⟩] := by decide +kernel
example : logs (TRACE_INSTANT2 true cat nm a1 (lit 3) a2 (lit 4)) =
    [⟨"name", "category", .instant, (some "my_arg1", some "my_arg2"), (three, four), none⟩] := by decide +kernel
example : logs (TRACE_GLOBAL0 true cat nm) =
    [⟨"name", "category", .globalInstant, (some "", some ""), (.none, .none), none⟩] := by decide +kernel
example : logs (TRACE_GLOBAL1 true cat nm a1 (lit 3)) =
    [⟨"name", "category", .globalInstant, (some "my_arg1", some ""), (three, .none), none⟩] := by decide +kernel
example : logs (TRACE_GLOBAL2 true cat nm a1 (lit 3) a2 (lit 4)) =
    [⟨"name", "category", .globalInstant, (some "my_arg1", some "my_arg2"), (three, four), none⟩] := by decide +kernel

/-- A clock that ticks once per reading. -/
def ticking : World := ⟨fun i => 1000 + i, 0, []⟩

/-- The events logged and the operations on mutexes, in order. -/
def visible : Res World → List (Sum Seen Act)
  | .ok w => w.acts.filterMap fun
    | .log t s d a b => some (.inl (seen (.timed t s d a b)))
    | .now _ => none
    | a => some (.inr a)
  | _ => []

/-- The block of a scoped macro. -/
def block (m : MW → (TracepointInfo × Bool × CVal × CVal) × MW) : List (Sum Seen Act) :=
  match (m ⟨[], []⟩).1 with
  | (tpi, en, a, b) => visible (inScope tpi en a b .ok ticking)

-- Scoped (macro_test.cc:163-190)
example : block (TRACE_EVENT0 true cat nm) =
    [.inl ⟨"name", "category", .complete, (some "", some ""), (.none, .none), some (1000, 1)⟩] := by decide +kernel
example : block (TRACE_EVENT1 true cat nm a1 (lit 3)) =
    [.inl ⟨"name", "category", .complete, (some "my_arg1", some ""), (three, .none), some (1000, 1)⟩] := by decide +kernel
example : block (TRACE_EVENT2 true cat nm a1 (lit 3) a2 (lit 4)) =
    [.inl ⟨"name", "category", .complete, (some "my_arg1", some "my_arg2"), (three, four), some (1000, 1)⟩] := by
  decide +kernel

/-- `TRACE_LOCKGUARD_TIMED(m, "category", "name", limit)` in a block. -/
def lockguard (limit : Int) : List (Sum Seen Act) :=
  visible (guarded (lockWaitTpi cat nm) (lockHeldTpi cat nm) true 7#64 limit true .ok ticking)

-- LockGuard, LockGuardTimedSlow, LockGuardTimedFast (macro_test.cc:192-245)
example : lockguard 0 = [.inr (.lock 7#64), .inr (.unlock 7#64),
    .inl ⟨"name.wait", "category", .complete, (some "this", some ""), (.word 7#64, .none), some (1000, 1)⟩,
    .inl ⟨"name.held", "category", .complete, (some "", some ""), (.word 7#64, .none), some (1001, 1)⟩] := by decide +kernel
example : lockguard 100000000000 = [.inr (.lock 7#64), .inr (.unlock 7#64)] := by decide +kernel

-- Function (macro_test.cc:247-291)
example : block (TRACE_FUNCTION0 "macro_test_functionA".toList true cat) =
    [.inl ⟨"macro_test_functionA", "category", .complete, (some "", some ""), (.none, .none), some (1000, 1)⟩] := by
  decide +kernel
example : block (TRACE_FUNCTION1 "macro_test_functionC".toList true cat a1 (lit 3)) =
    [.inl ⟨"macro_test_functionC", "category", .complete, (some "my_arg1", some ""), (three, .none),
      some (1000, 1)⟩] := by decide +kernel
example : block (TRACE_FUNCTION2 "macro_test_functionD".toList true cat a1 (lit 3) a2 (lit 4)) =
    [.inl ⟨"macro_test_functionD", "category", .complete, (some "my_arg1", some "my_arg2"), (three, four),
      some (1000, 1)⟩] := by decide +kernel

/-- The variables `start` and `end`. -/
def startVar : TimeExpr := ⟨⟨50, true, fun _ => 5000⟩, []⟩
def endVar : TimeExpr := ⟨⟨51, true, fun _ => 6000⟩, []⟩

-- Complete (macro_test.cc:293-330)
example : logsR (TRACE_COMPLETE0 true cat nm startVar endVar) =
    some [⟨"name", "category", .complete, (some "", some ""), (.none, .none), some (5000, 1000)⟩] := by decide +kernel
example : logsR (TRACE_COMPLETE1 true cat nm startVar endVar a1 (lit 3)) =
    some [⟨"name", "category", .complete, (some "my_arg1", some ""), (three, .none), some (5000, 1000)⟩] := by
  decide +kernel
example : logsR (TRACE_COMPLETE2 true cat nm startVar endVar a1 (lit 3) a2 (lit 4)) =
    some [⟨"name", "category", .complete, (some "my_arg1", some "my_arg2"), (three, four), some (5000, 1000)⟩] := by
  decide +kernel

-- AsyncComplete0, AsyncComplete1, AsyncComplete2 (macro_test.cc:332-414)
example : logsR (TRACE_ASYNC_COMPLETE0 true cat nm this startVar endVar) =
    some [⟨"name", "category", .asyncStart, (some "id", none), (.word 0x7f00#64, .none), some (5000, 0)⟩,
      ⟨"name", "category", .asyncEnd, (some "id_end", none), (.word 0x7f00#64, .none), some (6000, 0)⟩] := by decide +kernel
example : logsR (TRACE_ASYNC_COMPLETE1 true cat nm this startVar endVar a1 (lit 3)) =
    some [⟨"name", "category", .asyncStart, (some "id", some "my_arg1"), (.word 0x7f00#64, three), some (5000, 0)⟩,
      ⟨"name", "category", .asyncEnd, (some "id_end", none), (.word 0x7f00#64, .none), some (6000, 0)⟩] := by decide +kernel
example : logsR (TRACE_ASYNC_COMPLETE2 true cat nm this startVar endVar a1 (lit 3) a2 (lit 4)) =
    some [⟨"name", "category", .asyncStart, (some "id", some "my_arg1"), (.word 0x7f00#64, three), some (5000, 0)⟩,
      ⟨"name", "category", .asyncEnd, (some "id_end", some "my_arg2"), (.word 0x7f00#64, four), some (6000, 0)⟩] := by
  decide +kernel

-- InlineString (macro_test.cc:416-437)
example : (izOfCString 8 "Hello, World!\x00".toList).bind (izToString 8) = .ok "Hello, W".toList := by decide +kernel
example : (izOfCString 8 "Hello\x00".toList).bind (izToString 8) = .ok "Hello".toList := by decide +kernel
example : (izOfCString 8 "\x00".toList).bind (izToString 8) = .ok [] := by decide +kernel

-- macro_disabled_test.cc:27-50: the compiled-out guard still locks and unlocks, and logs nothing
example : visible (plainGuarded 7#64 true .ok ticking) = [.inr (.lock 7#64), .inr (.unlock 7#64)] := by decide +kernel

end Phosphor.Tests
