import Verif.Model.TraceBuffer
/-
The iterators of Model/TraceBuffer once more, now with the rule that an expression naming a chunk
(`buffer[index]`, `*parent`, `parent->`) needs the chunk to exist, even if only its address is used,
and with the conversions of the index: `size_t` to the `int` parameter of
`TraceBuffer::operator[]`, and back to the `size_t` parameter of `dyn_array::operator[]`.
-/
namespace Phosphor.StrictIter
variable {ε : Type}

/-- `buffer[index]` of a `chunk_iterator` (trace_buffer.cc:79-84): `index` becomes an `int`
(trace_buffer.cc:150-152, 255-257), the `int` becomes a `size_t` (dyn_array.h:406-407). The result
is the index of the chunk referred to; there is none outside the array. -/
def ref (b : Buffer ε) (index : Nat) : Res Nat :=
  let i : BitVec 32 := BitVec.ofNat 32 index
  let n : BitVec 64 := i.signExtend 64
  if n.toNat < b.size then .ok n.toNat else .ub

/-- `seekChildForward`'s loop (iterator.h:91-97). -/
def seekLoop (b : Buffer ε) : Nat → EventIter → Res EventIter
  | 0, _ => .ub
  | fuel + 1, it =>
    match ref b it.parent with
    | .ok j =>
      match b.chunkAt j with
      | .ok c =>
        if it.child = (j, c.count) then
          let it := { it with parent := it.parent + 1 }
          if it.parent = it.parentEnd then .ok it
          else
            match ref b it.parent with
            | .ok j => seekLoop b fuel { it with child := (j, 0) }
            | .throw e => .throw e
            | .ub => .ub
        else .ok it
      | .throw e => .throw e
      | .ub => .ub
    | .throw e => .throw e
    | .ub => .ub

/-- `seekChildForward` (iterator.h:87-98). -/
def seek (b : Buffer ε) (it : EventIter) : Res EventIter :=
  if it.parent = it.parentEnd then .ok it
  else seekLoop b (b.chunks.length + 1) it

/-- Constructor (iterator.h:49-53): `child(parent->begin())` names the chunk at `parent`. -/
def make (b : Buffer ε) (parent parentEnd : Nat) : Res EventIter := do
  let j ← ref b parent
  seek b { parent, parentEnd, child := (j, 0) }

/-- `operator++` (iterator.h:63-67). -/
def next (b : Buffer ε) (it : EventIter) : Res EventIter :=
  seek b { it with child := (it.child.1, it.child.2 + 1) }

/-- `getParent` (iterator.h:82-84). -/
def getParent (b : Buffer ε) (it : EventIter) : Res (Chunk ε) := do
  let j ← ref b it.parent
  b.chunkAt j

/-- `begin()` (trace_buffer.cc:167-169, 277-279). -/
def begin (b : Buffer ε) : Res EventIter := make b 0 b.chunkCount

/-- `end()` (trace_buffer.cc:171-173, 281-283). -/
def «end» (b : Buffer ε) : Res EventIter := make b b.chunkCount b.chunkCount

/-- A loop `for (it = from; it != fin; ++it) use(*it, it.getParent().threadID())`. Code:
iterator.h:55-98; such a loop is export.cc:65-73. -/
def iterateFrom (b : Buffer ε) (fin : EventIter) : Nat → EventIter → Option (Res (List (ε × Nat)))
  | 0, _ => none
  | fuel + 1, it =>
    if it.eq fin then some (.ok [])
    else
      match it.deref b, getParent b it, next b it with
      | .ok e, .ok c, .ok it' =>
        match iterateFrom b fin fuel it' with
        | none => none
        | some (.ok l) => some (.ok ((e, c.threadId) :: l))
        | some r => some r
      | _, _, _ => some .ub

/-- The loop over the whole buffer. Code: trace_buffer.h:299-326. -/
def iterate (b : Buffer ε) (fuel : Nat) : Option (Res (List (ε × Nat))) :=
  match begin b, «end» b with
  | .ok it, .ok fin => iterateFrom b fin fuel it
  | _, _ => some .ub

/-- `chunk_begin()` to `chunk_end()` (trace_buffer.cc:159-165, 269-275), the loop
`for (const auto& chunk : buffer.chunks())` (trace_buffer.h:376-378): the chunks named. Unlike
`event_iterator`, `chunk_iterator` names no chunk when it is made. -/
def chunksFrom (b : Buffer ε) : Nat → Nat → Res (List Nat)
  | 0, _ => .ok []
  | n + 1, i => do
    let j ← ref b i
    let l ← chunksFrom b n (i + 1)
    .ok (j :: l)

/-- `for (const auto& chunk : buffer.chunks())`. Code: trace_buffer.h:334-378. -/
def chunks (b : Buffer ε) : Res (List Nat) := chunksFrom b b.chunkCount 0

end Phosphor.StrictIter
