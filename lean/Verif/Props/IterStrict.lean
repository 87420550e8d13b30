import Verif.Model.IterStrict
import Verif.Proof.TraceBuffer
import Verif.Props.Buffer
/-
C77: iterating a buffer names only chunks that exist.
-/
namespace Phosphor
variable {ε : Type}

namespace StrictIter

/-- Indexes below 2^31 survive the conversions. -/
theorem ref_small (b : Buffer ε) (i : Nat) (hi : i < 2 ^ 31) :
    ref b i = if i < b.size then .ok i else .ub := by
  have h : ((BitVec.ofNat 32 i).signExtend 64).toNat = i := by
    rw [BitVec.signExtend_eq_setWidth_of_msb_false]
    · simp only [BitVec.toNat_setWidth, BitVec.toNat_ofNat]; omega
    · rw [BitVec.msb_eq_decide]; simp; omega
  simp only [ref, h]

theorem ref_ok (b : Buffer ε) (i : Nat) (hi : i < b.size) (hs : b.size ≤ 2 ^ 31) :
    ref b i = .ok i := by
  rw [ref_small b i (by omega), if_pos hi]

theorem seekLoop_eq (b : Buffer ε) (hs : b.size ≤ 2 ^ 31) (fuel : Nat) (it : EventIter)
    (hp : it.parent < it.parentEnd) (he : it.parentEnd ≤ b.size) :
    seekLoop b fuel it = EventIter.seekLoop b fuel it := by
  induction fuel generalizing it with
  | zero => rfl
  | succ fuel ih =>
    rw [seekLoop, EventIter.seekLoop, ref_ok b it.parent (by omega) hs]
    simp only
    cases b.chunkAt it.parent with
    | ok c =>
      simp only
      split
      · split
        · rfl
        · next hne =>
          rw [ref_ok b (it.parent + 1) (by omega) hs]
          exact ih _ (by simp only; omega) he
      · rfl
    | throw e => rfl
    | ub => rfl

theorem seekLoop_bound (b : Buffer ε) (fuel : Nat) (it it' : EventIter)
    (hp : it.parent < it.parentEnd) (h : EventIter.seekLoop b fuel it = .ok it') :
    it'.parentEnd = it.parentEnd ∧ it'.parent ≤ it.parentEnd := by
  induction fuel generalizing it with
  | zero => cases h
  | succ fuel ih =>
    rw [EventIter.seekLoop] at h
    cases hc : b.chunkAt it.parent with
    | ok c =>
      simp only [hc] at h
      split at h
      · split at h
        · next he => cases h; exact ⟨rfl, Nat.le_of_eq he⟩
        · next hne =>
          exact ih { it with parent := it.parent + 1, child := (it.parent + 1, 0) }
            (show it.parent + 1 < it.parentEnd by omega) h
      · cases h; exact ⟨rfl, Nat.le_of_lt hp⟩
    | throw e => simp [hc] at h
    | ub => simp [hc] at h

theorem seek_eq (b : Buffer ε) (hs : b.size ≤ 2 ^ 31) (it : EventIter)
    (hp : it.parent ≤ it.parentEnd) (he : it.parentEnd ≤ b.size) :
    seek b it = EventIter.seek b it := by
  unfold seek EventIter.seek
  split
  · rfl
  · exact seekLoop_eq b hs _ it (by omega) he

theorem seek_bound (b : Buffer ε) (it it' : EventIter) (hp : it.parent ≤ it.parentEnd)
    (h : EventIter.seek b it = .ok it') :
    it'.parentEnd = it.parentEnd ∧ it'.parent ≤ it.parentEnd := by
  unfold EventIter.seek at h
  split at h
  · cases h; exact ⟨rfl, hp⟩
  · exact seekLoop_bound b _ it it' (by omega) h

theorem iterateFrom_eq (b : Buffer ε) (hs : b.size ≤ 2 ^ 31) (fin : EventIter) (fuel : Nat)
    (it : EventIter) (hp : it.parent ≤ it.parentEnd) (he : it.parentEnd ≤ b.size)
    (hf : fin.parent = it.parentEnd) :
    iterateFrom b fin fuel it = b.iterateFrom fin fuel it := by
  induction fuel generalizing it with
  | zero => rfl
  | succ fuel ih =>
    rw [iterateFrom, Buffer.iterateFrom]
    by_cases hq : it.eq fin = true
    · rw [if_pos hq, if_pos hq]
    · rw [if_neg hq, if_neg hq]
      have hne : it.parent ≠ it.parentEnd := by
        intro h
        apply hq
        unfold EventIter.eq
        rw [if_pos ⟨h, by omega⟩]
      have h1 : getParent b it = it.getParent b := by
        simp only [getParent, ref_ok b it.parent (by omega) hs, Res.bind_ok, EventIter.getParent]
      have h2 : next b it = it.next b := by
        exact seek_eq b hs _ hp he
      rw [h1, h2]
      cases hd : it.deref b with
      | ok e =>
        cases hg : it.getParent b with
        | ok c =>
          cases hn : it.next b with
          | ok it' =>
            have hb := seek_bound b _ it' (by exact hp) hn
            simp only at hb
            simp only
            rw [ih it' (by omega) (by omega) (by omega)]
            cases b.iterateFrom fin fuel it' with
            | none => rfl
            | some r => cases r <;> rfl
          | throw e => rfl
          | ub => rfl
        | throw e => rfl
        | ub => rfl
      | throw e => rfl
      | ub => rfl

end StrictIter

open StrictIter

/-- C77 is refuted: `end()` of every buffer whose chunks are all in use, that is of every full fixed
buffer and of every ring that has wrapped, names the chunk after the last. -/
theorem C77_refuted (b : Buffer ε) (hs : b.size ≤ 2 ^ 31 - 1) (h : b.size ≤ b.counter) :
    StrictIter.end b = .ub := by
  have hc : b.chunkCount = b.size := by
    unfold Buffer.chunkCount
    split <;> split <;> omega
  unfold StrictIter.end StrictIter.make
  rw [hc, ref_small b _ (by omega), if_neg (by omega)]
  rfl

/-- Both kinds of buffer, of one chunk, after one `getChunk` and one event: what the log has
when a trace of one chunk is exported. -/
example : StrictIter.end (((Buffer.makeFixed 0 1 : Buffer Nat).getChunk 7).1.pushAt 0 5).1 = .ub ∧
    StrictIter.end (((Buffer.makeRing 0 1 : Buffer Nat).getChunk 7).1.pushAt 0 5).1 = .ub :=
  ⟨C77_refuted _ (by decide) (by decide), C77_refuted _ (by decide) (by decide)⟩

/-- C77, what holds: as long as one chunk has not been handed out, iterating names only chunks that
exist and visits exactly the events of the buffer. -/
theorem C77_partial (b : Buffer ε) (contents : List (Nat × List ε)) (h : b.Holds contents)
    (hs : b.size ≤ 2 ^ 31) (hroom : b.counter < b.size) :
    ∃ n, ∀ fuel ≥ n, StrictIter.iterate b fuel = some (.ok (flatEvents contents)) := by
  have hlt : b.chunkCount < b.size := by
    unfold Buffer.chunkCount
    split <;> split <;> omega
  obtain ⟨n, hn⟩ := C19_iterate b contents h
  refine ⟨n, fun fuel hf => ?_⟩
  rw [← hn fuel hf]
  have hb : StrictIter.begin b = b.begin := by
    simp only [StrictIter.begin, StrictIter.make, ref_ok b 0 (by omega) hs, Res.bind_ok, Buffer.begin,
      EventIter.make]
    exact seek_eq b hs _ (Nat.zero_le _) (Nat.le_of_lt hlt)
  have he : StrictIter.end b = b.end := by
    simp only [StrictIter.end, StrictIter.make, ref_ok b _ hlt hs, Res.bind_ok, Buffer.end,
      EventIter.make]
    exact seek_eq b hs _ (Nat.le_refl _) (Nat.le_of_lt hlt)
  unfold StrictIter.iterate Buffer.iterate
  rw [hb, he]
  cases hbb : b.begin with
  | ok it =>
    have h1 := seek_bound b _ it (Nat.zero_le _) hbb
    simp only at h1
    cases hee : b.end with
    | ok fin =>
      have h2 : fin = ⟨b.chunkCount, b.chunkCount, (b.chunkCount, 0)⟩ := by
        simp [Buffer.end, EventIter.make, EventIter.seek] at hee
        exact hee.symm
      simp only
      exact iterateFrom_eq b hs fin fuel it (by omega) (by omega) (by rw [h2, h1.1])
    | throw e => rfl
    | ub => rfl
  | throw e => rfl
  | ub => rfl

/-- C77: that reference is the only fault. In a full buffer too, the loop from `begin()` to an
iterator at the end (however it was made) names only chunks that exist and visits exactly the
events of the buffer. -/
theorem C77_loop_partial (b : Buffer ε) (contents : List (Nat × List ε)) (h : b.Holds contents)
    (h0 : 0 < b.size) (hs : b.size ≤ 2 ^ 31) (fin : EventIter) (hfin : fin.parent = b.chunkCount) :
    ∃ it, StrictIter.begin b = .ok it ∧
      ∃ n, ∀ fuel ≥ n, StrictIter.iterateFrom b fin fuel it = some (.ok (flatEvents contents)) := by
  have hle : b.chunkCount ≤ b.size := chunkCount_le b
  have hb : StrictIter.begin b = b.begin := by
    simp only [StrictIter.begin, StrictIter.make, ref_ok b 0 (by omega) hs, Res.bind_ok, Buffer.begin,
      EventIter.make]
    exact seek_eq b hs _ (Nat.zero_le _) hle
  have hsize : contents.length ≤ b.chunks.length := by rw [← h.count]; exact hle
  have hex : ∃ it, b.begin = .ok it ∧ it.Normal contents ∧ it.rest contents = flatEvents contents := by
    by_cases hnil : contents = []
    · have hc : b.chunkCount = 0 := by rw [h.count, hnil]; rfl
      refine ⟨⟨0, 0, (0, 0)⟩, by simp [Buffer.begin, EventIter.make, EventIter.seek, hc],
        ⟨by simp [hnil], Or.inl (by simp [hnil])⟩, by simp [EventIter.rest, hnil, flatEvents]⟩
    · have hlt : 0 < contents.length := List.length_pos_iff.2 hnil
      obtain ⟨it, hs', hn, hr⟩ := seek_spec h hsize ⟨0, b.chunkCount, (0, 0)⟩ 0 (contents[0]).1
        (contents[0]).2 (List.getElem?_eq_getElem hlt) h.count rfl (Nat.zero_le _)
      refine ⟨it, hs', hn, ?_⟩
      rw [hr, remaining_zero]
      simp
  obtain ⟨it, hbb, hn, hr⟩ := hex
  refine ⟨it, by rw [hb, hbb], (flatEvents contents).length + 1, fun fuel hf => ?_⟩
  have hend : it.parentEnd = b.chunkCount := by rw [hn.1, h.count]
  have hpar : it.parent ≤ it.parentEnd := by
    rcases hn.2 with hp | ⟨k, tid, evs, hget, _⟩
    · rw [hp, hn.1]; exact Nat.le_refl _
    · have := (List.getElem?_eq_some_iff.1 hget).1
      rw [hn.1]; omega
  rw [iterateFrom_eq b hs fin fuel it hpar (by omega) (by omega),
    iterateFrom_spec h hsize fin (by rw [hfin, h.count]) fuel it hn (by rw [hr]; omega), hr]

/-- C77: the loop over the chunks of a buffer (`chunks()`) has no such fault: it names every chunk
handed out, in order, and no other. -/
theorem C77_chunks (b : Buffer ε) (hs : b.size ≤ 2 ^ 31) :
    StrictIter.chunks b = .ok (List.range b.chunkCount) := by
  have key : ∀ n i, i + n ≤ b.size → StrictIter.chunksFrom b n i = .ok (List.range' i n) := by
    intro n
    induction n with
    | zero => intro i _; rfl
    | succ n ih =>
      intro i hi
      rw [StrictIter.chunksFrom, ref_ok b i (by omega) hs, Res.bind_ok, ih (i + 1) (by omega)]
      rfl
  rw [StrictIter.chunks, key _ 0 (by rw [Nat.zero_add]; exact chunkCount_le b), List.range_eq_range']

/-- C77, buffers of more than 2^31 chunks: chunk 2^31 cannot be named although it exists, and the
index of chunk 2^32 names chunk 0. -/
theorem C77_refuted_int (b : Buffer ε) (hs : 2 ^ 32 < b.size) (hs' : b.size ≤ 2 ^ 63) :
    StrictIter.ref b (2 ^ 31) = .ub ∧ StrictIter.ref b (2 ^ 32) = .ok 0 := by
  constructor
  · have h : ((BitVec.ofNat 32 (2 ^ 31)).signExtend 64).toNat = 2 ^ 64 - 2 ^ 31 := by decide
    simp only [StrictIter.ref, h]
    rw [if_neg (by omega)]
  · have h : ((BitVec.ofNat 32 (2 ^ 32)).signExtend 64).toNat = 0 := by decide
    simp only [StrictIter.ref, h]
    rw [if_pos (by omega)]

/-- A fixed buffer of two chunks with one in use meets the hypotheses of `C77_partial`, and its
loop visits the event. -/
example : ∃ b : Buffer Nat, b.Holds [(7, [5])] ∧ b.counter < b.size ∧
    StrictIter.iterate b 3 = some (.ok [(5, 7)]) ∧ StrictIter.chunks b = .ok [0] := by
  refine ⟨(((Buffer.makeFixed 0 2 : Buffer Nat).getChunk 7).1.pushAt 0 5).1, ⟨by decide, ?_⟩,
    by decide, by decide +kernel, by decide⟩
  intro i tid evs h
  match i with
  | 0 =>
    cases h
    refine ⟨_, rfl, rfl, ⟨by decide, by decide, by decide, ?_⟩⟩
    intro i e he
    match i with
    | 0 => cases he; decide
  
end Phosphor
