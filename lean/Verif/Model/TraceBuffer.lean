import Verif.Model.TraceConfig
/-
Model of src/trace_buffer.cc and include/phosphor/trace_buffer.h: chunks, the fixed and the
ring buffer, chunk and event iteration. The event type `ε` is a parameter: the code moves
events around without looking into them.
-/
namespace Phosphor

/-- `sizeof(TraceEvent)` on 64-bit targets (trace_event.h:148-156): `tpi`, two 8-byte
arguments, `time`, `duration`. -/
def sizeofTraceEvent : Nat := 8 + 2 * 8 + 8 + 8

/-- `TraceChunk::chunk_size` (trace_buffer.h:44-49), with the default
`PHOSPHOR_CHUNK_PAGE_COUNT` of 1 (trace_buffer.h:32-34). -/
def chunkSize : Nat := (4096 * 1 - 64) / sizeofTraceEvent

/-- `sizeof(TraceChunk)` (trace_buffer.h:115-120): `unsigned short` padded to 4 bytes,
`uint32_t`, and the event array. -/
def sizeofTraceChunk : Nat := 4 + 4 + chunkSize * sizeofTraceEvent

/-- `TraceChunk` after a `reset` (trace_buffer.h:115-120). A slot is `none` while its memory
was never assigned. -/
structure Chunk (ε : Type) where
  nextFree : Nat
  threadId : Nat
  slots : List (Option ε)
  deriving DecidableEq, Repr

/-- Memory of a `TraceChunk`: `none` before the first `reset`, because `TraceChunk` is
trivial and `dyn_array` leaves it uninitialised (trace_buffer.h:57-65). -/
abbrev ChunkMem (ε : Type) := Option (Chunk ε)

/-- Contents of the event array of some chunk memory. Code: trace_buffer.h:115-120. -/
def ChunkMem.slots {ε : Type} : ChunkMem ε → List (Option ε)
  | none => List.replicate chunkSize none
  | some c => c.slots

namespace Chunk
variable {ε : Type}

/-- `TraceChunk::reset` (trace_buffer.cc:29-32). Stored events are not erased. -/
def reset (m : ChunkMem ε) (tid : Nat) : Chunk ε :=
  { nextFree := 0, threadId := tid, slots := m.slots }

/-- `TraceChunk::isFull` (trace_buffer.cc:34-36); `chunk.max_size()` is the array length. -/
def isFull (c : Chunk ε) : Bool := c.nextFree == chunkSize

/-- `TraceChunk::count` (trace_buffer.cc:38-40). -/
def count (c : Chunk ε) : Nat := c.nextFree

/-- `TraceChunk::addEvent` (trace_buffer.cc:42-49): the index of the slot referred to by the
returned reference, or the exception; with the chunk afterwards. -/
def addEvent (c : Chunk ε) : Chunk ε × Res Nat :=
  if c.isFull then (c, .throw .outOfRange)
  else ({ c with nextFree := c.nextFree + 1 }, .ok c.nextFree)

/-- Assignment through a reference to slot `i` (the `=` of trace_log.cc:132). -/
def assign (c : Chunk ε) (i : Nat) (e : ε) : Res (Chunk ε) :=
  if i < c.slots.length then .ok { c with slots := c.slots.set i (some e) } else .ub

/-- `chunk.addEvent() = e` (trace_log.cc:132, 146-147): the chunk afterwards and whether
an exception was raised. -/
def push (c : Chunk ε) (e : ε) : Chunk ε × Res Unit :=
  match c.addEvent with
  | (c', .ok i) =>
    match c'.assign i e with
    | .ok c'' => (c'', .ok ())
    | .throw x => (c', .throw x)
    | .ub => (c', .ub)
  | (c', .throw x) => (c', .throw x)
  | (c', .ub) => (c', .ub)

/-- `TraceChunk::operator[]` (trace_buffer.cc:51-53): unchecked; reading outside the array
or a slot never assigned is undefined. -/
def get (c : Chunk ε) (i : Nat) : Res ε :=
  match c.slots[i]? with
  | some (some e) => .ok e
  | _ => .ub

end Chunk

/-- Result of `getChunk`: a chunk (its index in the buffer), null, or spinning in
`while (!return_queue.dequeue(chunk))`. Code: trace_buffer.cc:110-119, trace_buffer.cc:205-222. -/
inductive GetChunk
  | chunk (i : Nat)
  | null
  | spins
  deriving DecidableEq, Repr

/-- A trace buffer. `FixedTraceBuffer` (trace_buffer.cc:102-182) uses `counter` as `issued`;
`RingTraceBuffer` (trace_buffer.cc:193-311) uses it as `actual_count`. `onLoan` is an `Int`
so that a surplus `returnChunk` is not hidden (in the code it wraps modulo 2^64).
`queue` is the contents of `return_queue`, oldest first; that the lock-free queue behaves as
a FIFO is C21/C22. -/
structure Buffer (ε : Type) where
  mode : BufferMode
  generation : Nat
  chunks : List (ChunkMem ε)
  counter : Nat
  onLoan : Int
  queue : List Nat
  deriving DecidableEq, Repr

namespace Buffer
variable {ε : Type}

/-- `make_fixed_buffer` / constructor (trace_buffer.cc:104-106, 184-187). -/
def makeFixed (generation size : Nat) : Buffer ε :=
  { mode := .fixed, generation, chunks := List.replicate size none, counter := 0, onLoan := 0,
    queue := [] }

/-- `make_ring_buffer` / constructor (trace_buffer.cc:195-201, 313-316). -/
def makeRing (generation size : Nat) : Buffer ε :=
  { mode := .ring, generation, chunks := List.replicate size none, counter := 0, onLoan := 0,
    queue := [] }

/-- `buffer.size()` of the `dyn_array`. Code: trace_buffer.cc:110-119, trace_buffer.cc:206-216. -/
def size (b : Buffer ε) : Nat := b.chunks.length

/-- `chunk.reset(...)` on the chunk at index `i` of the array (unchecked `operator[]`). Code:
trace_buffer.cc:110-119, trace_buffer.cc:219. -/
def resetAt (b : Buffer ε) (i tid : Nat) : Buffer ε :=
  { b with chunks := b.chunks.set i (some (Chunk.reset (b.chunks[i]?.getD none) tid)) }

/-- `FixedTraceBuffer::getChunk` (trace_buffer.cc:110-119). -/
def getChunkFixed (b : Buffer ε) (tid : Nat) : Buffer ε × GetChunk :=
  let offset := b.counter
  let b := { b with counter := b.counter + 1 }
  if offset ≥ b.size then (b, .null)
  else
    let b := b.resetAt offset tid
    ({ b with onLoan := b.onLoan + 1 }, .chunk offset)

/-- `FixedTraceBuffer::returnChunk` (trace_buffer.cc:121-124). -/
def returnChunkFixed (b : Buffer ε) (_i : Nat) : Buffer ε := { b with onLoan := b.onLoan - 1 }

/-- The part of `RingTraceBuffer::getChunk` after the chunk has been determined
(trace_buffer.cc:219-221). -/
def ringLoan (b : Buffer ε) (i tid : Nat) : Buffer ε :=
  let b := b.resetAt i tid
  { b with onLoan := b.onLoan + 1 }

/-- First part of `RingTraceBuffer::getChunk` (trace_buffer.cc:206-216): bump the counter and
take a fresh chunk if there is one left; `none` means that the caller enters the
`while (!return_queue.dequeue(chunk))` loop. -/
def ringClaim (b : Buffer ε) (tid : Nat) : Buffer ε × Option Nat :=
  let offset := b.counter
  let b := { b with counter := b.counter + 1 }
  if offset ≥ b.size then (b, none)
  else (b.ringLoan offset tid, some offset)

/-- A successful round of the `dequeue` loop (trace_buffer.cc:213-214) and what follows;
`none` if the queue is empty and the loop goes round again. -/
def ringTake (b : Buffer ε) (tid : Nat) : Option (Buffer ε × Nat) :=
  match b.queue with
  | [] => none
  | i :: q => some ({ b with queue := q }.ringLoan i tid, i)

/-- `RingTraceBuffer::getChunk` (trace_buffer.cc:205-222), run without interference. On
`spins` the returned state is the one in which the caller loops. -/
def getChunkRing (b : Buffer ε) (tid : Nat) : Buffer ε × GetChunk :=
  match b.ringClaim tid with
  | (b, some i) => (b, .chunk i)
  | (b, none) =>
    match b.ringTake tid with
    | some (b, i) => (b, .chunk i)
    | none => (b, .spins)

/-- `RingTraceBuffer::returnChunk` (trace_buffer.cc:224-228). The queue has room for every
chunk (C20), so without interference `enqueue` succeeds at once (C22). -/
def returnChunkRing (b : Buffer ε) (i : Nat) : Buffer ε :=
  { b with queue := b.queue ++ [i], onLoan := b.onLoan - 1 }

/-- Virtual `getChunk`. Code: trace_buffer.h:176. -/
def getChunk (b : Buffer ε) (tid : Nat) : Buffer ε × GetChunk :=
  match b.mode with
  | .ring => b.getChunkRing tid
  | _ => b.getChunkFixed tid

/-- Virtual `returnChunk`. Code: trace_buffer.h:187. -/
def returnChunk (b : Buffer ε) (i : Nat) : Buffer ε :=
  match b.mode with
  | .ring => b.returnChunkRing i
  | _ => b.returnChunkFixed i

/-- `isFull` (trace_buffer.cc:126-128, 230-232). -/
def isFull (b : Buffer ε) : Bool :=
  match b.mode with
  | .ring => false
  | _ => decide (b.counter ≥ b.size)

/-- `chunk_count` (trace_buffer.cc:154-157, 259-267). -/
def chunkCount (b : Buffer ε) : Nat :=
  match b.mode with
  | .ring => if b.counter > b.size then b.size else b.counter
  | _ => if b.size > b.counter then b.counter else b.size

/-- `operator[]` (trace_buffer.cc:150-152, 255-257): unchecked. -/
def chunkAt (b : Buffer ε) (i : Nat) : Res (Chunk ε) :=
  match b.chunks[i]? with
  | some (some c) => .ok c
  | _ => .ub

/-- Value passed to a `StatsCallback`. Code: stats_callback.h:42-47. -/
inductive StatVal
  | str (s : Str)
  | bool (b : Bool)
  | num (n : Int)
  deriving DecidableEq, Repr

/-- `getStats` (trace_buffer.cc:130-140, 234-245): the calls made to the callback. -/
def getStats (b : Buffer ε) : List (Str × StatVal) :=
  match b.mode with
  | .ring =>
    [ ("buffer_name".toList, .str "RingTraceBuffer".toList),
      ("buffer_is_full".toList, .bool b.isFull),
      ("buffer_chunk_count".toList, .num (min b.counter b.size)),
      ("buffer_total_loaned".toList, .num b.counter),
      ("buffer_loaned_chunks".toList, .num b.onLoan),
      ("buffer_size".toList, .num b.size),
      ("buffer_generation".toList, .num b.generation) ]
  | _ =>
    [ ("buffer_name".toList, .str "FixedTraceBuffer".toList),
      ("buffer_is_full".toList, .bool b.isFull),
      ("buffer_chunk_count".toList, .num b.chunkCount),
      ("buffer_total_loaned".toList, .num b.chunkCount),
      ("buffer_loaned_chunks".toList, .num b.onLoan),
      ("buffer_size".toList, .num b.size),
      ("buffer_generation".toList, .num b.generation) ]

/-- Storing an event into chunk `i` of the buffer (`chunk->addEvent() = e`). Code: trace_log.cc:132,
trace_log.cc:146-147. -/
def pushAt (b : Buffer ε) (i : Nat) (e : ε) : Buffer ε × Res Unit :=
  match b.chunks[i]? with
  | some (some c) =>
    let (c', r) := c.push e
    ({ b with chunks := b.chunks.set i (some c') }, r)
  | _ => (b, .ub)

end Buffer

/-! ### Iterators -/

/-- `gsl_p::multidimensional_iterator<TraceBuffer::chunk_iterator>`
(iterator.h:43-106). The parent iterators are chunk indexes
(`chunk_iterator`, trace_buffer.cc:70-96); the child iterator is a pointer into the event
array of one chunk: (chunk index, event index). -/
structure EventIter where
  parent : Nat
  parentEnd : Nat
  child : Nat × Nat
  deriving DecidableEq, Repr

namespace EventIter
variable {ε : Type}

/-- The `while` loop of `seekChildForward` (iterator.h:91-97); `fuel` bounds the number of
rounds (running out counts as undefined behaviour, shown not to happen). `parent->end()`
reads the chunk and is undefined for chunks outside the array or never reset. -/
def seekLoop (b : Buffer ε) : Nat → EventIter → Res EventIter
  | 0, _ => .ub
  | fuel + 1, it =>
    match b.chunkAt it.parent with
    | .ok c =>
      if it.child = (it.parent, c.count) then
        let it := { it with parent := it.parent + 1 }
        if it.parent = it.parentEnd then .ok it
        else seekLoop b fuel { it with child := (it.parent, 0) }
      else .ok it
    | .throw e => .throw e
    | .ub => .ub

/-- `seekChildForward` (iterator.h:87-98). -/
def seek (b : Buffer ε) (it : EventIter) : Res EventIter :=
  if it.parent = it.parentEnd then .ok it
  else seekLoop b (b.chunks.length + 1) it

/-- Constructor (iterator.h:49-53). `parent->begin()` only computes an address. -/
def make (b : Buffer ε) (parent parentEnd : Nat) : Res EventIter :=
  seek b { parent, parentEnd, child := (parent, 0) }

/-- `operator++` (iterator.h:63-67). -/
def next (b : Buffer ε) (it : EventIter) : Res EventIter :=
  seek b { it with child := (it.child.1, it.child.2 + 1) }

/-- `operator==` (iterator.h:69-76). -/
def eq (it other : EventIter) : Bool :=
  if it.parent = it.parentEnd ∧ it.parent = other.parent then true
  else decide (it.parent = other.parent ∧ it.child = other.child)

/-- `operator*` (iterator.h:55-57). -/
def deref (b : Buffer ε) (it : EventIter) : Res ε := do
  let c ← b.chunkAt it.child.1
  c.get it.child.2

/-- `getParent` (iterator.h:82-84). -/
def getParent (b : Buffer ε) (it : EventIter) : Res (Chunk ε) := b.chunkAt it.parent

end EventIter

namespace Buffer
variable {ε : Type}

/-- `begin()` (trace_buffer.cc:167-169, 277-279). -/
def begin (b : Buffer ε) : Res EventIter := EventIter.make b 0 b.chunkCount

/-- `end()` (trace_buffer.cc:171-173, 281-283). -/
def «end» (b : Buffer ε) : Res EventIter := EventIter.make b b.chunkCount b.chunkCount

/-- A loop `for (it = from; it != end; ++it) use(*it, it.getParent().threadID())`; `none`
if it has not finished within `fuel` rounds. Code: iterator.h:63-98; such a loop is export.cc:65-73.
-/
def iterateFrom (b : Buffer ε) (fin : EventIter) : Nat → EventIter → Option (Res (List (ε × Nat)))
  | 0, _ => none
  | fuel + 1, it =>
    if it.eq fin then some (.ok [])
    else
      match it.deref b, it.getParent b, it.next b with
      | .ok e, .ok c, .ok it' =>
        match iterateFrom b fin fuel it' with
        | none => none
        | some (.ok l) => some (.ok ((e, c.threadId) :: l))
        | some r => some r
      | _, _, _ => some .ub

/-- The loop over the whole buffer. Code: trace_buffer.h:299-326. -/
def iterate (b : Buffer ε) (fuel : Nat) : Option (Res (List (ε × Nat))) :=
  match b.begin, b.end with
  | .ok it, .ok fin => b.iterateFrom fin fuel it
  | _, _ => some .ub

end Buffer

/-- `RingTraceBuffer::upper_power_of_two<size_t>` (trace_buffer.cc:295-310). -/
def upperPowerOfTwo (v : BitVec 64) : BitVec 64 :=
  let v := v - 1
  let v := v ||| (v >>> 1)
  let v := v ||| (v >>> 2)
  let v := v ||| (v >>> 4)
  let v := v ||| (v >>> 8)
  let v := v ||| (v >>> 16)
  let v := v + 1
  if v = 1 then 2 else v

/-! ### `gsl_p::dyn_array` -/

/-- `dyn_array::__allocate` (dyn_array.h:362-369) for `sizeof(value_type) = size`: the number
of bytes requested from `operator new`, computed with 64-bit arithmetic. -/
def dynAllocate (size count : BitVec 64) : Res (BitVec 64) :=
  if BitVec.allOnes 64 / size ≤ count then .throw .outOfRange else .ok (size * count)

/-- `dyn_array::at` (dyn_array.h:479-501) on an array of `n` elements: the index accessed. -/
def dynAt (n i : BitVec 64) : Res (BitVec 64) :=
  if i ≥ n then .throw .outOfRange else .ok i

end Phosphor
