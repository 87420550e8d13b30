import Verif.Proof.TraceBuffer
/-
How the operations on a buffer change what it holds.
-/
namespace Phosphor
variable {ε : Type}

/-- Contents with the thread's tag instead of the thread. -/
def tagged (tid : Nat → Nat) (cont : List (Nat × List ε)) : List (Nat × List ε) :=
  cont.map (fun p => (tid p.1, p.2))

/-- The buffer holds `cont` (owner and events of each chunk handed out). -/
structure BufOk (tid : Nat → Nat) (x : Buffer ε) (cont : List (Nat × List ε)) : Prop where
  holds : x.Holds (tagged tid cont)
  slots : ∀ m ∈ x.chunks, m.slots.length = chunkSize
  mode : x.mode = .fixed ∨ x.mode = .ring
  qnodup : x.queue.Nodup
  qlt : ∀ i ∈ x.queue, i < cont.length
  qfixed : x.mode = .fixed → x.queue = []

theorem tagged_get {tid : Nat → Nat} {cont : List (Nat × List ε)} {i : Nat} :
    (tagged tid cont)[i]? = (cont[i]?).map (fun p => (tid p.1, p.2)) := by
  simp [tagged]

theorem tagged_length {tid : Nat → Nat} {cont : List (Nat × List ε)} :
    (tagged tid cont).length = cont.length := by simp [tagged]

namespace BufOk
variable {tid : Nat → Nat} {x : Buffer ε} {cont : List (Nat × List ε)}

theorem count (h : BufOk tid x cont) : x.chunkCount = cont.length := by
  rw [h.holds.count, tagged_length]

theorem length_le (h : BufOk tid x cont) : cont.length ≤ x.chunks.length := by
  rw [← h.count]; exact chunkCount_le x

theorem chunkCount_eq (h : x.mode = .fixed ∨ x.mode = .ring) :
    x.chunkCount = min x.counter x.chunks.length := by
  have hs : x.size = x.chunks.length := rfl
  rcases h with h | h
  · simp only [Buffer.chunkCount, h]; split <;> omega
  · simp only [Buffer.chunkCount, h]; split <;> omega

theorem length_eq (h : BufOk tid x cont) : cont.length = min x.counter x.chunks.length := by
  rw [← h.count, chunkCount_eq h.mode]

theorem chunkAt (h : BufOk tid x cont) {i t : Nat} {evs : List ε} (hi : cont[i]? = some (t, evs)) :
    ∃ c, x.chunks[i]? = some (some c) ∧ c.threadId = tid t ∧ c.Holds evs :=
  h.holds.chunk i (tid t) evs (by rw [tagged_get, hi]; rfl)

/-- A chunk is reset and given to `t`. -/
theorem reset (h : BufOk tid x cont) {i t counter : Nat} {onLoan : Int} {queue : List Nat}
    {cont' : List (Nat × List ε)} (hi : i < x.chunks.length)
    (hc : cont' = if i < cont.length then cont.set i (t, []) else cont ++ [(t, [])])
    (hl : i ≤ cont.length) (hcnt : cont'.length = min counter x.chunks.length)
    (hq : queue.Nodup) (hq' : ∀ j ∈ queue, j < cont'.length) (hqf : x.mode = .fixed → queue = []) :
    BufOk tid { x.resetAt i (tid t) with counter := counter, onLoan := onLoan, queue := queue } cont' := by
  have hget : cont'[i]? = some (t, []) := by
    rw [hc]; split
    · rw [List.getElem?_set_self (by assumption)]
    · have : i = cont.length := by omega
      subst this; simp
  have hother : ∀ j, j ≠ i → cont'[j]? = cont[j]? := by
    intro j hj
    rw [hc]; split
    · rw [List.getElem?_set_ne (by omega)]
    · have : i = cont.length := by omega
      subst this
      rcases Nat.lt_or_ge j cont.length with hlt | hge
      · rw [List.getElem?_append_left hlt]
      · rw [List.getElem?_append_right hge, List.getElem?_eq_none (by simp; omega),
          List.getElem?_eq_none hge]
  have hslots : ∀ m ∈ (x.resetAt i (tid t)).chunks, m.slots.length = chunkSize := by
    intro m hm
    simp only [Buffer.resetAt] at hm
    rcases List.mem_or_eq_of_mem_set hm with hm | hm
    · exact h.slots m hm
    · subst hm
      simp only [ChunkMem.slots, Chunk.reset]
      rw [List.getElem?_eq_getElem hi]
      exact h.slots _ (List.getElem_mem hi)
  refine ⟨⟨?_, ?_⟩, hslots, h.mode, hq, hq', hqf⟩
  · rw [tagged_length, hcnt, chunkCount_eq (by exact h.mode)]; simp [Buffer.resetAt]
  · intro j tg evs hj
    rw [tagged_get] at hj
    by_cases hji : j = i
    · subst hji
      rw [hget] at hj
      simp at hj
      obtain ⟨rfl, rfl⟩ := hj
      refine ⟨Chunk.reset (x.chunks[j]?.getD none) (tid t), ?_, rfl, ?_⟩
      · simp only [Buffer.resetAt]; rw [List.getElem?_set_self hi]
      · apply Chunk.reset_holds
        rw [List.getElem?_eq_getElem hi]
        exact h.slots _ (List.getElem_mem hi)
    · rw [hother j hji] at hj
      obtain ⟨c, h1, h2, h3⟩ := h.holds.chunk j tg evs (by rw [tagged_get]; exact hj)
      refine ⟨c, ?_, h2, h3⟩
      simp only [Buffer.resetAt]
      rw [List.getElem?_set_ne (by omega)]
      exact h1

/-- Only the counters and the queue change. -/
theorem counters (h : BufOk tid x cont) {counter : Nat} {onLoan : Int} {queue : List Nat}
    (hcnt : cont.length = min counter x.chunks.length)
    (hq : queue.Nodup) (hq' : ∀ j ∈ queue, j < cont.length) (hqf : x.mode = .fixed → queue = []) :
    BufOk tid { x with counter := counter, onLoan := onLoan, queue := queue } cont := by
  refine ⟨⟨?_, h.holds.chunk⟩, h.slots, h.mode, hq, hq', hqf⟩
  rw [tagged_length, hcnt, chunkCount_eq (by exact h.mode)]

theorem getFixed (h : BufOk tid x cont) {t i : Nat} {x' : Buffer ε}
    (hg : x.getChunkFixed (tid t) = (x', .chunk i)) :
    i = cont.length ∧ BufOk tid x' (cont ++ [(t, [])]) ∧ x'.queue = x.queue ∧ x'.mode = x.mode ∧
    x'.generation = x.generation := by
  have hlen := h.length_eq
  simp only [Buffer.getChunkFixed] at hg
  split at hg
  · simp at hg
  · rename_i hlt
    simp [Buffer.size] at hg hlt
    obtain ⟨rfl, rfl⟩ := hg
    refine ⟨by omega, ?_, rfl, rfl, rfl⟩
    exact h.reset (counter := x.counter + 1) (queue := x.queue) hlt (by rw [if_neg (by omega)])
      (by omega) (by simp; omega) h.qnodup (fun j hj => by have := h.qlt j hj; simp; omega) h.qfixed

theorem getFixedNull (h : BufOk tid x cont) {t : Nat} {x' : Buffer ε} {r : GetChunk}
    (hg : x.getChunkFixed (tid t) = (x', r)) (hr : ∀ i, r ≠ .chunk i) :
    r = .null ∧ cont.length = x.chunks.length ∧ BufOk tid x' cont ∧ x'.queue = x.queue ∧
    x'.mode = x.mode ∧ x'.generation = x.generation := by
  have hlen := h.length_eq
  simp only [Buffer.getChunkFixed] at hg
  split at hg
  · rename_i hge
    simp [Buffer.size] at hg hge
    obtain ⟨rfl, rfl⟩ := hg
    exact ⟨rfl, by omega, h.counters (counter := x.counter + 1) (onLoan := x.onLoan)
      (queue := x.queue) (by omega) h.qnodup h.qlt h.qfixed, rfl, rfl, rfl⟩
  · simp at hg
    exact absurd hg.2.symm (hr _)

theorem claim (h : BufOk tid x cont) {t i : Nat} {x' : Buffer ε}
    (hg : x.ringClaim (tid t) = (x', some i)) :
    i = cont.length ∧ BufOk tid x' (cont ++ [(t, [])]) ∧ x'.queue = x.queue ∧ x'.mode = x.mode ∧
    x'.generation = x.generation := by
  have hlen := h.length_eq
  simp only [Buffer.ringClaim, Buffer.ringLoan] at hg
  split at hg
  · simp at hg
  · rename_i hlt
    simp [Buffer.size] at hg hlt
    obtain ⟨rfl, rfl⟩ := hg
    refine ⟨by omega, ?_, rfl, rfl, rfl⟩
    exact h.reset (counter := x.counter + 1) (queue := x.queue) hlt (by rw [if_neg (by omega)])
      (by omega) (by simp; omega) h.qnodup (fun j hj => by have := h.qlt j hj; simp; omega) h.qfixed

theorem claimNone (h : BufOk tid x cont) {t : Nat} {x' : Buffer ε}
    (hg : x.ringClaim (tid t) = (x', none)) :
    cont.length = x.chunks.length ∧ BufOk tid x' cont ∧ x'.queue = x.queue ∧ x'.mode = x.mode ∧
    x'.generation = x.generation := by
  have hlen := h.length_eq
  simp only [Buffer.ringClaim] at hg
  split at hg
  · rename_i hge
    simp [Buffer.size] at hg hge
    subst hg
    exact ⟨by omega, h.counters (counter := x.counter + 1) (onLoan := x.onLoan)
      (queue := x.queue) (by omega) h.qnodup h.qlt h.qfixed, rfl, rfl, rfl⟩
  · simp at hg

theorem take (h : BufOk tid x cont) {t i : Nat} {x' : Buffer ε}
    (hg : x.ringTake (tid t) = some (x', i)) :
    x.queue = i :: x'.queue ∧ BufOk tid x' (cont.set i (t, [])) ∧ i < cont.length ∧
    x'.mode = x.mode ∧ x'.generation = x.generation := by
  have hlen := h.length_eq
  simp only [Buffer.ringTake] at hg
  split at hg
  · cases hg
  · rename_i k q hq
    simp at hg
    obtain ⟨rfl, rfl⟩ := hg
    have hk := h.qlt k (by rw [hq]; simp)
    have hnd := h.qnodup
    rw [hq] at hnd
    refine ⟨hq, ?_, hk, rfl, rfl⟩
    have hr := h.reset (t := t) (i := k) (counter := x.counter) (queue := q) (onLoan := x.onLoan + 1)
      (cont' := cont.set k (t, [])) (by omega) (by rw [if_pos hk])
      (by omega) (by simp; omega) (List.nodup_cons.1 hnd).2
      (fun j hj => by have := h.qlt j (by rw [hq]; simp [hj]); simpa using this)
      (fun hf => by have := h.qfixed hf; rw [hq] at this; cases this)
    exact hr

theorem returned (h : BufOk tid x cont) {i : Nat} (hi : i < cont.length) (hq : i ∉ x.queue) :
    BufOk tid (x.returnChunk i) cont ∧ (∀ j, j ∈ (x.returnChunk i).queue → j = i ∨ j ∈ x.queue) ∧
    (x.returnChunk i).mode = x.mode ∧ (x.returnChunk i).generation = x.generation ∧
    (x.returnChunk i).chunks = x.chunks := by
  have hlen := h.length_eq
  rcases h.mode with hm | hm
  · have he : x.returnChunk i = { x with onLoan := x.onLoan - 1 } := by
      simp only [Buffer.returnChunk, hm, Buffer.returnChunkFixed]
    rw [he]
    exact ⟨h.counters (onLoan := x.onLoan - 1) hlen h.qnodup h.qlt h.qfixed, fun j hj => Or.inr hj,
      rfl, rfl, rfl⟩
  · have he : x.returnChunk i = { x with queue := x.queue ++ [i], onLoan := x.onLoan - 1 } := by
      simp only [Buffer.returnChunk, hm, Buffer.returnChunkRing]
    rw [he]
    refine ⟨h.counters (onLoan := x.onLoan - 1) (queue := x.queue ++ [i]) hlen ?_ ?_
      (fun hf => by rw [hm] at hf; cases hf), ?_, rfl, rfl, rfl⟩
    · rw [List.nodup_append]
      exact ⟨h.qnodup, by simp, fun a ha b hb => by simp at hb; subst hb; rintro rfl; exact hq ha⟩
    · intro j hj
      rcases List.mem_append.1 hj with hj | hj
      · exact h.qlt j hj
      · simp at hj; omega
    · intro j hj
      rcases List.mem_append.1 hj with hj | hj
      · exact Or.inr hj
      · simp at hj; exact Or.inl hj

/-- Storing an event into a chunk with room succeeds. -/
theorem push (h : BufOk tid x cont) {i t : Nat} {evs : List ε} (hi : cont[i]? = some (t, evs))
    (hr : evs.length < chunkSize) (e : ε) :
    ∃ x', x.pushAt i e = (x', .ok ()) ∧
      BufOk tid x' (cont.modify i (fun p => (p.1, p.2 ++ [e]))) ∧ x'.queue = x.queue ∧
      x'.mode = x.mode ∧ x'.generation = x.generation := by
  obtain ⟨c, h1, h2, h3⟩ := h.chunkAt hi
  obtain ⟨c', h4, h5, h6⟩ := Chunk.push_ok c evs e h3 hr
  have hlt : i < x.chunks.length := by
    rcases Nat.lt_or_ge i x.chunks.length with hl | hl
    · exact hl
    · rw [List.getElem?_eq_none hl] at h1; cases h1
  refine ⟨{ x with chunks := x.chunks.set i (some c') }, ?_, ?_, rfl, rfl, rfl⟩
  · simp only [Buffer.pushAt, h1, h4]
  · refine ⟨⟨?_, ?_⟩, ?_, h.mode, h.qnodup, fun j hj => by have := h.qlt j hj; simpa using this,
      h.qfixed⟩
    · rw [tagged_length, List.length_modify, h.length_eq]
      rw [chunkCount_eq (by exact h.mode)]; simp
    · intro j tg evs' hj
      rw [tagged_get, List.getElem?_modify] at hj
      by_cases hji : j = i
      · subst hji
        rw [hi] at hj
        simp at hj
        obtain ⟨rfl, rfl⟩ := hj
        exact ⟨c', by simp only; rw [List.getElem?_set_self hlt], by rw [h6, h2], h5⟩
      · have hij : ¬ i = j := fun h => hji h.symm
        simp only [hij, if_false] at hj
        obtain ⟨d, g1, g2, g3⟩ := h.holds.chunk j tg evs' (by rw [tagged_get]; simpa using hj)
        exact ⟨d, by simp only; rw [List.getElem?_set_ne hij]; exact g1, g2, g3⟩
    · intro m hm
      rcases List.mem_or_eq_of_mem_set hm with hm | hm
      · exact h.slots m hm
      · subst hm; exact h5.storage

theorem makeFixed (g n : Nat) : BufOk tid (Buffer.makeFixed g n : Buffer ε) [] :=
  ⟨⟨by simp [Buffer.makeFixed, Buffer.chunkCount, tagged], by simp [tagged]⟩,
    by intro m hm; simp [Buffer.makeFixed] at hm; rw [hm.2]; simp [ChunkMem.slots],
    Or.inl rfl, by simp [Buffer.makeFixed], by simp [Buffer.makeFixed], fun _ => rfl⟩

theorem makeRing (g n : Nat) : BufOk tid (Buffer.makeRing g n : Buffer ε) [] :=
  ⟨⟨by simp [Buffer.makeRing, Buffer.chunkCount, tagged], by simp [tagged]⟩,
    by intro m hm; simp [Buffer.makeRing] at hm; rw [hm.2]; simp [ChunkMem.slots],
    Or.inr rfl, by simp [Buffer.makeRing], by simp [Buffer.makeRing], fun _ => rfl⟩

end BufOk
end Phosphor
