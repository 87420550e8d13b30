import Verif.Model.TraceBuffer
/-
`TraceChunk` for every value of the build option `PHOSPHOR_CHUNK_PAGE_COUNT`, with `next_free` as the
`unsigned short` it is.
-/
namespace Phosphor.AnyChunk
variable {ε : Type}

/-- `TraceChunk::chunk_size` for `pages` = `PHOSPHOR_CHUNK_PAGE_COUNT`. Code: trace_buffer.h:32-34,
trace_buffer.h:44-49. -/
def capacity (pages : Nat) : Nat := (4096 * pages - 64) / sizeofTraceEvent

/-- `TraceChunk`; `nextFree` holds 16 bits, a slot is `none` while never assigned. Code:
trace_buffer.h:115-120. -/
structure Chunk (ε : Type) where
  nextFree : UInt16
  threadId : Nat
  slots : List (Option ε)

/-- `TraceChunk::reset`. Code: trace_buffer.cc:29-32. -/
def Chunk.reset (slots : List (Option ε)) (tid : Nat) : Chunk ε := ⟨0, tid, slots⟩

/-- `TraceChunk::isFull`; `max_size()` is the length of the array. Code: trace_buffer.cc:34-36. -/
def Chunk.isFull (c : Chunk ε) : Bool := c.nextFree.toNat == c.slots.length

/-- `TraceChunk::count`. Code: trace_buffer.cc:38-40. -/
def Chunk.count (c : Chunk ε) : Nat := c.nextFree.toNat

/-- `chunk.addEvent() = e`. Code: trace_buffer.cc:42-49, trace_log.cc:132. -/
def Chunk.push (c : Chunk ε) (e : ε) : Chunk ε × Res Unit :=
  if c.isFull then (c, .throw .outOfRange)
  else if c.nextFree.toNat < c.slots.length then
    ({ c with nextFree := c.nextFree + 1, slots := c.slots.set c.nextFree.toNat (some e) }, .ok ())
  else ({ c with nextFree := c.nextFree + 1 }, .ub)

/-- `TraceChunk::operator[]`. Code: trace_buffer.cc:51-53. -/
def Chunk.get (c : Chunk ε) (i : Nat) : Res ε :=
  match c.slots[i]? with
  | some (some e) => .ok e
  | _ => .ub

/-- Stores events one after the other; results of the calls in order. Code: trace_buffer.cc:42-49. -/
def Chunk.pushAll (c : Chunk ε) : List ε → Chunk ε × List (Res Unit)
  | [] => (c, [])
  | e :: es =>
    let (c, r) := c.push e
    let (c, rs) := c.pushAll es
    (c, r :: rs)

end Phosphor.AnyChunk
