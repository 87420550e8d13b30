import Verif.Model.TraceBuffer
/-
What it means for chunks and buffers to hold given events.
-/
namespace Phosphor
variable {ε : Type}

/-- The chunk stores exactly `evs`, in this order, and nothing else. -/
structure Chunk.Holds (c : Chunk ε) (evs : List ε) : Prop where
  count : c.count = evs.length
  room : evs.length ≤ chunkSize
  storage : c.slots.length = chunkSize
  events : ∀ (i : Nat) (e : ε), evs[i]? = some e → c.get i = .ok e

/-- The chunks in use of a buffer hold `contents`: for each its thread id and its events. -/
structure Buffer.Holds (b : Buffer ε) (contents : List (Nat × List ε)) : Prop where
  count : b.chunkCount = contents.length
  chunk : ∀ (i tid : Nat) (evs : List ε), contents[i]? = some (tid, evs) →
    ∃ c : Chunk ε, b.chunks[i]? = some (some c) ∧ c.threadId = tid ∧ c.Holds evs

/-- The events of all chunks in order, each with its thread id. -/
def flatEvents (contents : List (Nat × List ε)) : List (ε × Nat) :=
  contents.flatMap (fun p => p.2.map (fun e => (e, p.1)))

end Phosphor
