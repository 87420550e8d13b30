import Verif.Model.Export
import Verif.Model.DynArray
import Verif.Model.ChunkLock
/-
The expectations of the library's own tests on events, chunks, buffers, the chunk lock and the JSON export,
stated of the model. Most are computed by the kernel, the large ones (`#guard`) by the evaluator only. These
are checks of the model against the authors' expectations, not proofs of properties.
-/
namespace Phosphor.Tests

/-! ### tests/module/trace_event_test.cc

The tests pass the argument `0`, an `int`, also where the trace point says `is_bool`. The model treats that
read of another union member as undefined; the boolean `false`, with the same first byte, stands for it. -/

/-- The trace point of the tests. -/
def testTpi (type : EventType) (t1 t2 : ArgType) : TracepointInfo :=
  ⟨"category".toList, "name".toList, type, (some "arg1".toList, some "arg2".toList), (t1, t2)⟩

/-- `{{0, 0}}`. -/
def zero : TraceArg := (CVal.int 0).asArgument

-- string_check (trace_event_test.cc:36-63), at the time 1d 02:03:04.000000005
example : (Event.mkNow (testTpi .instant .isNone .isNone) 93784000000005#64 zero zero).toStr =
    .ok ("TraceEvent<1d 02:03:04.000000005, category, name, type=Instant, " ++
      "arg1=\"Type::is_none\", arg2=\"Type::is_none\">").toList := by decide +kernel

-- typeToString (trace_event_test.cc:65-83), except for values that are no enumerator
example : [EventType.asyncStart, .asyncEnd, .syncStart, .syncEnd, .instant, .globalInstant, .complete].map
    (fun t => String.ofList t.toStr) =
    ["AsyncStart", "AsyncEnd", "SyncStart", "SyncEnd", "Instant", "GlobalInstant", "Complete"] := by decide +kernel

-- toJSON, toJSONAlt (trace_event_test.cc:127-206)
example : (Event.mkComplete (testTpi .complete .isBool .isNone) 2002#64 3033#64 (.bool false) zero).toJson 42 0#32 =
    .ok ("{\"name\":\"name\",\"cat\":\"category\",\"ph\":\"X\",\"dur\":3.033,\"ts\":2.002,\"pid\":42,\"tid\":0," ++
      "\"args\":{\"arg1\":false}}").toList := by decide +kernel
example : (Event.mkNow (testTpi .syncEnd .isBool .isBool) 7#64 (.bool false) (.bool false)).toJson 42 0#32 =
    .ok ("{\"name\":\"name\",\"cat\":\"category\",\"ph\":\"E\",\"ts\":0.007,\"pid\":42,\"tid\":0," ++
      "\"args\":{\"arg1\":false,\"arg2\":false}}").toList := by decide +kernel

-- TraceEventTypeToJSON (trace_event_test.cc:237-335), except for values that are no enumerator
def typeJson (t : EventType) : Res (Str × Str) :=
  (Event.mkComplete (testTpi t .isNone .isNone) 0#64 1001#64 zero zero).typeToJson
example : typeJson .instant = .ok (['i'], ",\"s\":\"t\"".toList) := by decide +kernel
example : typeJson .syncStart = .ok (['B'], []) := by decide +kernel
example : typeJson .syncEnd = .ok (['E'], []) := by decide +kernel
example : typeJson .asyncStart = .ok (['b'], ",\"id\": \"0x0\"".toList) := by decide +kernel
example : typeJson .asyncEnd = .ok (['e'], ",\"id\": \"0x0\"".toList) := by decide +kernel
example : typeJson .globalInstant = .ok (['i'], ",\"s\":\"g\"".toList) := by decide +kernel
example : typeJson .complete = .ok (['X'], ",\"dur\":1.001".toList) := by decide +kernel

/-! ### tests/module/trace_buffer_test.cc -/

/-- `while (!chunk.isFull()) chunk.addEvent() = e`. -/
def fillChunk {ε : Type} (e : ε) : Nat → Chunk ε → Chunk ε
  | 0, c => c
  | n + 1, c => if c.isFull then c else fillChunk e n (c.push e).1

-- fillAndOverfillAndCount (trace_buffer_test.cc:34-47)
example : ∀ n < 100, ((fillChunk 'e' n (Chunk.reset none 0)).count = n ∧
    (fillChunk 'e' n (Chunk.reset none 0)).isFull = false) := by decide +kernel
example : (fillChunk 'e' 200 (Chunk.reset none 0)).count = 100 ∧
    (fillChunk 'e' 200 (Chunk.reset none 0)).addEvent.2 = .throw .outOfRange ∧
    (fillChunk 'e' 200 (Chunk.reset none 0)).addEvent.1.count = 100 := by decide +kernel

/-- Steps of a test of a buffer. -/
inductive BufTest
  | get (ok : Bool)
  | ret (i : Nat)
  | push (i n : Nat)
  | full (b : Bool)
  | count (n : Nat)
  | events (n : Nat)
  | stats (full : Bool) (count total loaned : Nat)

/-- `n` times `chunk->addEvent()`. -/
def pushN (b : Buffer Char) (i : Nat) : Nat → Buffer Char
  | 0 => b
  | n + 1 => pushN (b.pushAt i 'e').1 i n

/-- All expectations are met. -/
def bufTest (b : Buffer Char) : List BufTest → Bool
  | [] => true
  | .get ok :: ts =>
    match b.getChunk 0 with
    | (b, .chunk i) =>
      ok && (match b.chunkAt i with | .ok c => c.count == 0 | _ => false) && bufTest b ts
    | (b, _) => !ok && bufTest b ts
  | .ret i :: ts => bufTest (b.returnChunk i) ts
  | .push i n :: ts => bufTest (pushN b i n) ts
  | .full v :: ts => b.isFull == v && bufTest b ts
  | .count n :: ts => b.chunkCount == n && bufTest b ts
  | .events n :: ts =>
    (match b.iterate 1000 with | some (.ok l) => l.length == n | _ => false) && bufTest b ts
  | .stats f c t l :: ts =>
    (b.getStats.filter (fun p => p.1 ≠ "buffer_name".toList) ==
      [("buffer_is_full".toList, .bool f), ("buffer_chunk_count".toList, .num c),
       ("buffer_total_loaned".toList, .num t), ("buffer_loaned_chunks".toList, .num l),
       ("buffer_size".toList, .num b.size), ("buffer_generation".toList, .num b.generation)]) && bufTest b ts

open BufTest

-- TraceBufferTest (trace_buffer_test.cc:115-218), for both factories
example : ∀ b ∈ [Buffer.makeFixed 0 1, Buffer.makeRing 0 1], bufTest b [full false, get true] = true := by decide +kernel
example : ∀ b ∈ [Buffer.makeFixed 1337 1, Buffer.makeRing (ε := Char) 1337 1], b.generation = 1337 := by decide
example : ∀ b ∈ [Buffer.makeFixed 0 3, Buffer.makeRing 0 3],
    bufTest b [count 0, get true, count 1, get true, count 2, get true, count 3] = true := by decide +kernel
example : ∀ b ∈ [Buffer.makeFixed 0 5, Buffer.makeRing 0 5],
    bufTest b [get true, events 0, count 1, get true, get true, get true, get true, events 0] = true := by decide +kernel
example : ∀ b ∈ [Buffer.makeFixed 0 5, Buffer.makeRing 0 5],
    bufTest b [get true, push 0 1, get true, get true, push 2 2, get true, get true, push 4 3, events 6, count 5] = true := by
  decide +kernel
#guard [Buffer.makeFixed 0 5, Buffer.makeRing 0 5].all (fun b =>
    bufTest b [get true, push 0 100, get true, push 1 100, get true, push 2 100, get true, push 3 100, get true,
      push 4 100, count 5, events 500])
-- MassiveBufferFail (trace_buffer_test.cc:220-222): the size in bytes is not representable
example : dynAllocate (BitVec.ofNat 64 sizeofTraceChunk) (-1) = .throw .outOfRange := by decide +kernel

-- FillableTraceBufferTest (trace_buffer_test.cc:224-302)
example : bufTest (.makeFixed 0 1) [full false, get true, full true, get false, ret 0, get false] = true := by decide +kernel
example : bufTest (.makeFixed 0 1) [stats false 0 0 0, get true, stats true 1 1 1, ret 0, stats true 1 1 0, get false,
    stats true 1 1 0] = true := by decide +kernel

-- UnFillableTraceBufferTest (trace_buffer_test.cc:304-378)
example : bufTest (.makeRing 0 1) [full false, get true, full false, ret 0, get true] = true := by decide +kernel
example : bufTest (.makeRing 0 1) [count 0, get true, ret 0, count 1, get true, ret 0, count 1] = true := by decide +kernel
example : bufTest (.makeRing 0 1) [stats false 0 0 0, get true, stats false 1 1 1, ret 0, stats false 1 1 0, get true,
    stats false 1 2 1] = true := by decide +kernel

/-! ### tests/module/chunk_lock_test.cc: ChunkLockTest.basic (26-35) -/

example : ChunkLock.lockRound .unlocked .slaveLocked false = (.slaveLocked, true) := by decide
example : ChunkLock.lockRound .unlocked .masterLocked false = (.masterLocked, true) := by decide
example : ChunkLock.tryRound .masterLocked false = (.masterLocked, some false) := by decide
example : ChunkLock.tryRound .unlocked false = (.slaveLocked, some true) := by decide

/-! ### tests/module/export_test.cc -/

/-- The event of the tests and its text. -/
def testEvent : Event := Event.mkNow (testTpi .instant .isNone .isNone) 7#64 zero zero
def testEventText : String :=
  "{\"name\":\"name\",\"cat\":\"category\",\"ph\":\"i\",\"s\":\"t\",\"ts\":0.007,\"pid\":42,\"tid\":0,\"args\":{}}"
def threadText (i : Nat) : String :=
  s!"\{\"name\":\"thread_name\",\"ph\":\"M\",\"pid\":42,\"tid\":{i},\"args\":\{\"name\":\"{i}\"}}"

/-- A context with `n` events and `k` threads. -/
def testContext (n k : Nat) : TraceContext where
  buffer :=
    let b : Buffer Event := .makeFixed 0 1
    let b := if n = 0 then b else (b.getChunk 0).1
    some (n.fold (fun _ _ b => (b.pushAt 0 testEvent).1) b)
  threadNames := (List.range k).map (fun i => (i, (toString i).toList))

/-- Reads of 80 bytes until one returns nothing. -/
def readChunked : Nat → Exporter → Str → Option Str
  | 0, _, _ => none
  | n + 1, x, out =>
    match x.read 42 80 with
    | .ok ([], _) => some out
    | .ok (got, x) => readChunked n x (out ++ got)
    | _ => none

/-- `getTraceJson`: the text, after which nothing more may be returned. -/
def exported (chunked : Bool) (c : TraceContext) : Option String :=
  match Exporter.make c with
  | .ok x =>
    if chunked then (readChunked 10000 x []).map String.ofList
    else
      match x.readAll 42 1000 with
      | some (.ok (s, x)) =>
        match x.read 42 4096 with
        | .ok ([], _) => some (String.ofList s)
        | _ => none
      | _ => none
  | _ => none

/-- The whole text with `n` events and `k` threads. -/
def expected (n k : Nat) : String :=
  "{\"traceEvents\":[" ++ String.intercalate "," ((List.range k).map threadText ++ List.replicate n testEventText) ++ "]}"

-- FullBufferTest_Chunked, FullBufferTest_SingleShot, SingleEvent, SingleThread, SingleThreadFullBuffer,
-- LotsOfThreadsFullBuffer, LotsOfThreadsEmptyBuffer, TestEmpty (export_test.cc:107-184)
#guard exported true (testContext 100 0) = some (expected 100 0)
#guard exported false (testContext 100 0) = some (expected 100 0)
#guard exported false (testContext 1 0) = some (expected 1 0)
#guard exported false (testContext 0 1) = some (expected 0 1)
#guard exported false (testContext 100 1) = some (expected 100 1)
#guard exported false (testContext 100 100) = some (expected 100 100)
#guard exported false (testContext 0 100) = some (expected 0 100)
#guard exported false (testContext 0 0) = some (expected 0 0)

-- FileStopCallbackTest.valid_name (export_test.cc:198-224)
example : generateFilePath "test.json".toList 42 ⟨2026, 11, 6, 4, 5, 9⟩ = "test.json".toList := by decide +kernel
example : generateFilePath "test.%p.json".toList 42 ⟨2026, 11, 6, 4, 5, 9⟩ = "test.42.json".toList := by decide +kernel
example : generateFilePath "test.%d.json".toList 42 ⟨2026, 11, 6, 4, 5, 9⟩ =
    "test.2026.11.06T04.05.09Z.json".toList := by decide +kernel

-- file_open_fail (export_test.cc:241-248): `std::system_error` is a `std::runtime_error`
example : fileStop 42 ⟨false, fun _ s => s.length, fun s => s.length⟩ 10 (testContext 0 0) =
    some (.throw .systemError, none) := rfl

end Phosphor.Tests
