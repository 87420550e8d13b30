import Verif.Proof.TraceBuffer
import Verif.Proof.PowerOfTwo
import Verif.Proof.BufferSys
/-
Properties C15 (arithmetic part), C16–C20, C53: chunks, buffers, iteration.
-/
namespace Phosphor
variable {ε : Type}

/-! ### C16 A chunk stores exactly the events put in it -/

/-- Store events one after the other; results of the calls in order. -/
def Chunk.pushAll (c : Chunk ε) : List ε → Chunk ε × List (Res Unit)
  | [] => (c, [])
  | e :: es =>
    let (c, r) := c.push e
    let (c, rs) := c.pushAll es
    (c, r :: rs)

theorem Chunk.pushAll_holds (c : Chunk ε) (evs es : List ε) (h : c.Holds evs) :
    (c.pushAll es).1.Holds (evs ++ es.take (chunkSize - evs.length)) ∧
      (c.pushAll es).1.threadId = c.threadId ∧
      (c.pushAll es).2 = List.replicate (min es.length (chunkSize - evs.length)) (.ok ()) ++
        List.replicate (es.length - (chunkSize - evs.length)) (.throw .outOfRange) := by
  induction es generalizing c evs with
  | nil => simpa [Chunk.pushAll] using h
  | cons e es ih =>
    have hroom := h.room
    by_cases hr : evs.length < chunkSize
    · obtain ⟨c', hp, hh, ht⟩ := Chunk.push_ok c evs e h hr
      obtain ⟨i1, i2, i3⟩ := ih c' (evs ++ [e]) hh
      simp only [Chunk.pushAll, hp]
      have hl : chunkSize - evs.length = (chunkSize - (evs ++ [e]).length) + 1 := by
        simp; omega
      refine ⟨?_, by rw [i2, ht], ?_⟩
      · rw [hl, List.take_succ_cons]
        simpa using i1
      · rw [i3, hl]
        simp only [List.length_cons, Nat.add_min_add_right, List.replicate_succ, List.cons_append,
          Nat.add_sub_add_right]
    · have hr' : evs.length = chunkSize := by omega
      have hp := Chunk.push_full c evs e h hr'
      obtain ⟨i1, i2, i3⟩ := ih c evs h
      simp only [Chunk.pushAll, hp]
      rw [hr', Nat.sub_self] at i1 i3 ⊢
      refine ⟨by simpa using i1, i2, ?_⟩
      rw [i3]
      simp [List.replicate_succ]

/-- C16. Whatever the chunk's memory held before, after `reset` and any sequence of stores:
exactly the first `chunkSize` events are in the chunk, in order, readable by index; the
count is their number; the chunk is full iff at least `chunkSize` stores were made; the
first `chunkSize` stores succeed and all later ones raise out_of_range. -/
theorem C16_chunk (m : ChunkMem ε) (hm : m.slots.length = chunkSize) (tid : Nat) (es : List ε) :
    let (c, rs) := (Chunk.reset m tid).pushAll es
    c.count = min es.length chunkSize ∧
    (∀ i e, (es.take chunkSize)[i]? = some e → c.get i = .ok e) ∧
    c.threadId = tid ∧
    (c.isFull = true ↔ chunkSize ≤ es.length) ∧
    rs.length = es.length ∧
    ∀ i r, rs[i]? = some r → r = if i < chunkSize then .ok () else .throw .outOfRange := by
  obtain ⟨h1, h2, h3⟩ := Chunk.pushAll_holds _ [] es (Chunk.reset_holds m tid hm)
  simp only [List.nil_append, List.length_nil, Nat.sub_zero] at h1 h3
  refine ⟨?_, h1.events, h2, ?_, ?_, ?_⟩
  · rw [h1.count, List.length_take, Nat.min_comm]
  · rw [Chunk.isFull_iff _ _ h1, List.length_take]; omega
  · rw [h3]; simp; omega
  · intro i r hr
    rw [h3] at hr
    rw [List.getElem?_append] at hr
    simp only [List.length_replicate] at hr
    split at hr
    · next hi =>
      rw [List.getElem?_replicate, if_pos hi] at hr
      rw [if_pos (by omega)]; cases hr; rfl
    · next hi =>
      rw [List.getElem?_replicate] at hr
      split at hr
      · rw [if_neg (by omega)]; cases hr; rfl
      · cases hr

/-- The default build has chunks of 100 events in 4008 bytes. -/
example : chunkSize = 100 ∧ sizeofTraceChunk = 4008 := by decide
example : (ChunkMem.slots (none : ChunkMem Nat)).length = chunkSize := by decide

/-! ### C17 Fixed buffer -/

/-- Number of `getChunk` calls in a history. -/
def gets : List BufOp → Nat
  | [] => 0
  | .get _ :: ops => gets ops + 1
  | .ret _ :: ops => gets ops

/-- Number of `returnChunk` calls in a history. -/
def rets : List BufOp → Nat
  | [] => 0
  | .get _ :: ops => rets ops
  | .ret _ :: ops => rets ops + 1

theorem runFixed_spec (ops : List BufOp) (b : Buffer ε) (hb : b.mode = .fixed) :
    let (b', rs) := b.runFixed ops
    rs = (List.range' b.counter (gets ops)).map
      (fun k => if k < b.size then GetChunk.chunk k else .null) ∧
    b'.counter = b.counter + gets ops ∧ b'.size = b.size ∧ b'.mode = .fixed ∧
    b'.generation = b.generation ∧
    b'.onLoan = b.onLoan + ((min (b.counter + gets ops) b.size : Nat) : Int)
      - ((min b.counter b.size : Nat) : Int) - rets ops := by
  induction ops generalizing b with
  | nil => simp [Buffer.runFixed, gets, rets, hb]
  | cons op ops ih =>
    cases op with
    | ret i =>
      have := ih (b.returnChunkFixed i) hb
      simp only [Buffer.runFixed, gets, rets]
      obtain ⟨h1, h2, h3, h4, h5, h6⟩ := this
      refine ⟨h1, h2, h3, h4, h5, ?_⟩
      rw [h6]
      simp only [Buffer.returnChunkFixed, Buffer.size]
      omega
    | get tid =>
      simp only [Buffer.runFixed, gets, rets]
      by_cases hc : b.counter ≥ b.size
      · have hg : b.getChunkFixed tid = ({ b with counter := b.counter + 1 }, .null) := by
          unfold Buffer.getChunkFixed
          exact if_pos hc
        rw [hg]
        obtain ⟨h1, h2, h3, h4, h5, h6⟩ := ih { b with counter := b.counter + 1 } hb
        refine ⟨?_, by rw [h2]; simp only; omega, h3, h4, h5, ?_⟩
        · rw [h1, List.range'_succ, List.map_cons, if_neg (by omega)]
          rfl
        · rw [h6]
          simp only [Buffer.size] at hc ⊢
          omega
      · have hg : b.getChunkFixed tid = ({ (({ b with counter := b.counter + 1 } : Buffer ε).resetAt
            b.counter tid) with onLoan := b.onLoan + 1 }, .chunk b.counter) := by
          unfold Buffer.getChunkFixed
          exact if_neg hc
        rw [hg]
        have hsz : ∀ x, ({ (({ b with counter := b.counter + 1 } : Buffer ε).resetAt
            b.counter tid) with onLoan := x } : Buffer ε).size = b.size := by
          intro x; simp [Buffer.size, Buffer.resetAt]
        obtain ⟨h1, h2, h3, h4, h5, h6⟩ := ih ({ (({ b with counter := b.counter + 1 } : Buffer ε).resetAt
            b.counter tid) with onLoan := b.onLoan + 1 }) hb
        simp only [hsz] at h1 h3 h6
        refine ⟨?_, by rw [h2]; simp only [Buffer.resetAt]; omega, h3, h4, h5, ?_⟩
        · rw [h1, List.range'_succ, List.map_cons, if_pos (by omega)]
          rfl
        · rw [h6]
          simp only [Buffer.resetAt]
          omega

/-- C17. For every history of `getChunk` and `returnChunk` calls on a new fixed buffer of
`n` chunks: the k-th `getChunk` returns chunk k if k < n and null otherwise (so the chunks
handed out are distinct and once null is returned it is returned for ever); the buffer is
full iff at least `n` calls were made; `chunk_count` is the number of chunks handed out. -/
theorem C17_fixed (generation n : Nat) (ops : List BufOp) :
    let (b, rs) := (Buffer.makeFixed generation n : Buffer ε).runFixed ops
    rs = (List.range (gets ops)).map (fun k => if k < n then GetChunk.chunk k else .null) ∧
    (b.isFull = true ↔ n ≤ gets ops) ∧
    b.chunkCount = min (gets ops) n ∧
    b.onLoan = (min (gets ops) n : Nat) - (rets ops : Int) := by
  obtain ⟨h1, h2, h3, h4, h5, h6⟩ := runFixed_spec ops (Buffer.makeFixed generation n : Buffer ε) rfl
  have hsz : (Buffer.makeFixed generation n : Buffer ε).size = n := by
    simp [Buffer.makeFixed, Buffer.size]
  have hc : (Buffer.makeFixed generation n : Buffer ε).counter = 0 := rfl
  have ho : (Buffer.makeFixed generation n : Buffer ε).onLoan = 0 := rfl
  rw [hsz] at h1 h3 h6
  rw [hc] at h1 h2 h6
  rw [ho] at h6
  refine ⟨?_, ?_, ?_, ?_⟩
  · rw [h1, List.range_eq_range']
  · simp only [Buffer.isFull, h4, h3, h2, decide_eq_true_eq]
    omega
  · simp only [Buffer.chunkCount, h4, h3, h2]
    split <;> omega
  · rw [h6]; omega

/-- C17: the chunks handed out are pairwise distinct and there are exactly `min calls n`. -/
theorem C17_distinct (generation n : Nat) (ops : List BufOp) :
    let rs := ((Buffer.makeFixed generation n : Buffer ε).runFixed ops).2
    ∀ i j k : Nat, rs[i]? = some (GetChunk.chunk k) → rs[j]? = some (GetChunk.chunk k) → i = j := by
  intro rs i j k hi hj
  have h := (C17_fixed (ε := ε) generation n ops).1
  have hrs : rs = (List.range (gets ops)).map
    (fun k => if k < n then GetChunk.chunk k else .null) := h
  rw [hrs] at hi hj
  have key : ∀ i : Nat, ((List.range (gets ops)).map
      (fun k => if k < n then GetChunk.chunk k else .null))[i]? = some (GetChunk.chunk k) → i = k := by
    intro i hi
    rw [List.getElem?_map, Option.map_eq_some_iff] at hi
    obtain ⟨x, hx, hx'⟩ := hi
    obtain ⟨_, rfl⟩ := List.getElem?_eq_some_iff.1 hx
    simp only [List.getElem_range] at hx'
    split at hx'
    · cases hx'; rfl
    · cases hx'
  rw [key i hi, key j hj]

example : ((Buffer.makeFixed 0 2 : Buffer Nat).runFixed [.get 1, .get 2, .ret 0, .get 1]).2
    = [.chunk 0, .chunk 1, .null] := by decide

/-! ### C18 Ring buffer -/

/-- C18: `getChunk` of a ring buffer never returns null. -/
theorem C18_never_null (b : Buffer ε) (tid : Nat) : (b.getChunkRing tid).2 ≠ .null := by
  unfold Buffer.getChunkRing
  split
  · simp
  · split <;> simp

/-- C18: in every reachable state, with any number of threads, no chunk is held by two
holders, no held chunk is in the return queue, and the chunks are those of the buffer. -/
theorem C18_exclusive {generation n : Nat} {s : RingSys ε} (h : s.Reachable generation n) :
    (s.holds.map Prod.snd).Nodup ∧ (∀ p ∈ s.holds, p.2 < n ∧ p.2 ∉ s.b.queue) ∧
      s.b.queue.Nodup := by
  have hp := (ringInv h).perm
  have hnd : (s.b.queue ++ (s.holds.map Prod.snd ++ List.range' s.b.counter (n - s.b.counter))).Nodup :=
    hp.nodup_iff.2 List.nodup_range
  rw [List.nodup_append, List.nodup_append] at hnd
  obtain ⟨h1, ⟨h2, h3, h4⟩, h5⟩ := hnd
  refine ⟨h2, ?_, h1⟩
  intro p hpm
  have hm : p.2 ∈ s.holds.map Prod.snd := List.mem_map_of_mem hpm
  refine ⟨?_, ?_⟩
  · have := hp.mem_iff.1 (List.mem_append_right _ (List.mem_append_left _ hm))
    simpa using this
  · intro hq
    exact h5 p.2 hq p.2 (List.mem_append_left _ hm) rfl

/-- C18: chunks are reused in the order in which they were returned, each return is used at
most once, and what is waiting for reuse is the return queue. -/
theorem C18_fifo {generation n : Nat} {s : RingSys ε} (h : s.Reachable generation n) :
    s.returned = s.reused ++ s.b.queue := (ringInv h).fifo

/-- C18: a thread waiting in `getChunk` that cannot proceed means that every chunk of the
buffer is on loan. -/
theorem C18_waits_only_if_all_loaned {generation n : Nat} {s : RingSys ε}
    (h : s.Reachable generation n) (w : Nat) (hw : w ∈ s.waiting) (hs : s.step (.take w) = none) :
    s.holds.length = n ∧ ∀ i < n, ∃ holder, (holder, i) ∈ s.holds := by
  have hi := ringInv h
  have hq : s.b.queue = [] := by
    cases hq : s.b.queue with
    | nil => rfl
    | cons i q =>
      simp only [RingSys.step, if_pos hw, Buffer.ringTake, hq] at hs
      cases hs
  have hc : n ≤ s.b.counter := hi.wait w hw
  have hp := hi.perm
  rw [hq, List.nil_append, Nat.sub_eq_zero_of_le hc] at hp
  simp only [List.range'_zero, List.append_nil] at hp
  refine ⟨by simpa using hp.length_eq, ?_⟩
  intro i hlt
  have := hp.mem_iff.2 (List.mem_range.2 hlt)
  obtain ⟨p, hp1, hp2⟩ := List.mem_map.1 this
  exact ⟨p.1, by rw [← hp2]; exact hp1⟩

/-- C18: the statistics agree with the loans. -/
theorem C18_on_loan {generation n : Nat} {s : RingSys ε} (h : s.Reachable generation n) :
    s.b.onLoan = s.holds.length := (ringInv h).loan

/-- A ring of one chunk: thread 1 takes it, thread 2 has to wait, thread 1 returns it,
thread 2 gets it. -/
example : ∃ s : RingSys Nat, s.Reachable 0 1 ∧ s.holds = [(2, 0)] ∧ s.reused = [0] := by
  refine ⟨_, .step (op := .take 2) (.step (op := .ret 1 0) (.step (op := .claim 2)
    (.step (op := .claim 1) .init rfl) rfl) rfl) rfl, rfl, rfl⟩
example : ∃ s : RingSys Nat, s.Reachable 0 1 ∧ 2 ∈ s.waiting ∧ s.step (.take 2) = none := by
  refine ⟨_, .step (op := .claim 2) (.step (op := .claim 1) .init rfl) rfl, by decide, rfl⟩

/-! ### C19 Iteration -/

/-- C19. If the chunks in use hold `contents`, the loop from `begin()` to `end()` terminates
and visits exactly the events of chunk 0, then of chunk 1, …, each with the thread id of its
chunk; no undefined behaviour occurs. -/
theorem C19_iterate (b : Buffer ε) (contents : List (Nat × List ε)) (h : b.Holds contents) :
    ∃ n, ∀ fuel ≥ n, b.iterate fuel = some (.ok (flatEvents contents)) :=
  ⟨(flatEvents contents).length + 1, fun fuel hf => iterate_spec h fuel (by omega)⟩

/-- A buffer whose first and third chunk are empty. -/
example : ∃ b : Buffer Nat, b.Holds [(7, []), (8, [1, 2]), (9, []), (7, [3])] ∧
    b.iterate 10 = some (.ok [(1, 8), (2, 8), (3, 7)]) := by
  let c (tid : Nat) (l : List Nat) : ChunkMem Nat := some ((Chunk.reset none tid).pushAll l).1
  have hc : ∀ tid (l : List Nat), l.length ≤ chunkSize → ∃ x, c tid l = some x ∧ x.threadId = tid ∧
      x.Holds l := by
    intro tid l hl
    have := Chunk.pushAll_holds _ [] l (Chunk.reset_holds (none : ChunkMem Nat) tid (by decide))
    refine ⟨_, rfl, this.2.1, ?_⟩
    have h2 := this.1
    rw [List.take_of_length_le (by simpa using hl)] at h2
    exact h2
  let b : Buffer Nat :=
    { mode := .fixed, generation := 0, chunks := [c 7 [], c 8 [1, 2], c 9 [], c 7 [3]],
      counter := 4, onLoan := 0, queue := [] }
  have hb : b.Holds [(7, []), (8, [1, 2]), (9, []), (7, [3])] := by
    refine ⟨rfl, ?_⟩
    intro i tid evs h
    have hi : i < 4 := (List.getElem?_eq_some_iff.1 h).1
    match i, hi with
    | 0, _ => cases h; obtain ⟨x, h1, h2, h3⟩ := hc 7 [] (by decide); exact ⟨x, by rw [← h1]; rfl, h2, h3⟩
    | 1, _ => cases h; obtain ⟨x, h1, h2, h3⟩ := hc 8 [1, 2] (by decide); exact ⟨x, by rw [← h1]; rfl, h2, h3⟩
    | 2, _ => cases h; obtain ⟨x, h1, h2, h3⟩ := hc 9 [] (by decide); exact ⟨x, by rw [← h1]; rfl, h2, h3⟩
    | 3, _ => cases h; obtain ⟨x, h1, h2, h3⟩ := hc 7 [3] (by decide); exact ⟨x, by rw [← h1]; rfl, h2, h3⟩
  exact ⟨b, hb, iterate_spec hb 10 (by decide)⟩

/-! ### C20 Return queue capacity -/

/-- C20 in full: the smallest power of two that is at least 2 and at least `v`. -/
def C20_smallest (v r : Nat) : Prop :=
  (∃ k, r = 2 ^ k) ∧ 2 ≤ r ∧ v ≤ r ∧ ∀ k, 2 ≤ 2 ^ k → v ≤ 2 ^ k → r ≤ 2 ^ k

/-- C20 for 1 ≤ chunk count ≤ 2^32. What is missing: larger counts, where the code is wrong
(`C20_refuted`), because the smearing stops at 32 bits. -/
theorem C20_upper_power_of_two_partial (v : BitVec 64) (h1 : 1 ≤ v.toNat) (h2 : v.toNat ≤ 2 ^ 32) :
    C20_smallest v.toNat (upperPowerOfTwo v).toNat := by
  rw [upperPowerOfTwo_toNat v h1 h2]
  by_cases h : v.toNat ≤ 2
  · rw [if_pos h]
    exact ⟨⟨1, rfl⟩, Nat.le_refl _, h, fun k hk _ => hk⟩
  · rw [if_neg h]
    have hx : v.toNat - 1 ≠ 0 := by omega
    have hlt := Nat.lt_log2_self (n := v.toNat - 1)
    have hle := Nat.log2_self_le hx
    refine ⟨⟨_, rfl⟩, ?_, ?_, ?_⟩
    · have := Nat.pow_le_pow_right (n := 2) (by omega) (show 1 ≤ (v.toNat - 1).log2 + 1 by omega)
      simpa using this
    · omega
    · intro k hk hv
      apply Nat.pow_le_pow_right (by omega)
      have h3 : 2 ^ (v.toNat - 1).log2 < 2 ^ k := by omega
      have := (Nat.pow_lt_pow_iff_right (a := 2) (by omega)).1 h3
      omega

/-- C20 is violated for 2^32 + 1 chunks: the result is not even a power of two. -/
theorem C20_refuted : ∃ v : BitVec 64, 1 ≤ v.toNat ∧ ¬ C20_smallest v.toNat (upperPowerOfTwo v).toNat := by
  refine ⟨BitVec.ofNat 64 (2 ^ 32 + 1), by decide, ?_⟩
  have hr : (upperPowerOfTwo (BitVec.ofNat 64 (2 ^ 32 + 1))).toNat = 2 ^ 33 - 1 := by decide
  rw [hr]
  rintro ⟨⟨k, hk⟩, _⟩
  have hk1 : 1 ≤ k := by
    rcases Nat.eq_zero_or_pos k with h0 | h0
    · rw [h0] at hk; simp at hk
    · exact h0
  obtain ⟨j, rfl⟩ : ∃ j, k = j + 1 := ⟨k - 1, by omega⟩
  rw [Nat.pow_succ] at hk
  omega

example : (upperPowerOfTwo 2092#64).toNat = 4096 ∧ (upperPowerOfTwo 1#64).toNat = 2 := by decide

/-! ### C53 dyn_array -/

/-- C53: an array request of `count` elements of `size ≥ 1` bytes either raises out_of_range
or requests exactly `size * count` bytes without wrap-around; it is refused exactly when
`(2^64 - 1) / size ≤ count`. -/
theorem C53_allocate (size count : BitVec 64) (hs : 1 ≤ size.toNat) :
    (∀ bytes, dynAllocate size count = .ok bytes →
      bytes.toNat = size.toNat * count.toNat ∧ size.toNat * count.toNat < 2 ^ 64) ∧
    (dynAllocate size count = .throw .outOfRange ↔ (2 ^ 64 - 1) / size.toNat ≤ count.toNat) := by
  have hcond : (BitVec.allOnes 64 / size ≤ count) ↔ (2 ^ 64 - 1) / size.toNat ≤ count.toNat := by
    rw [BitVec.le_def, BitVec.toNat_udiv, BitVec.toNat_allOnes]
  unfold dynAllocate
  by_cases h : BitVec.allOnes 64 / size ≤ count
  · rw [if_pos h]
    exact ⟨fun b hb => (by cases hb), ⟨fun _ => hcond.1 h, fun _ => rfl⟩⟩
  · rw [if_neg h]
    refine ⟨?_, ⟨fun hc => (by cases hc), fun hc => absurd (hcond.2 hc) h⟩⟩
    intro bytes hb
    cases hb
    rw [hcond] at h
    have hlt : size.toNat * count.toNat < 2 ^ 64 := by
      have h1 : count.toNat < (2 ^ 64 - 1) / size.toNat := by omega
      have h2 := (Nat.le_div_iff_mul_le (by omega : 0 < size.toNat)).1 (Nat.le_of_lt h1)
      rw [Nat.mul_comm] at h2
      omega
    refine ⟨?_, hlt⟩
    rw [BitVec.toNat_mul, Nat.mod_eq_of_lt hlt]

/-- C53: `at` raises out_of_range or accesses the requested index inside the array. -/
theorem C53_at (n i : BitVec 64) :
    (i.toNat < n.toNat → dynAt n i = .ok i) ∧
      (n.toNat ≤ i.toNat → dynAt n i = .throw .outOfRange) := by
  unfold dynAt
  constructor
  · intro h; rw [if_neg (by simp [BitVec.lt_def, h])]
  · intro h; rw [if_pos (by rw [ge_iff_le, BitVec.le_def]; exact h)]

example : dynAllocate 4008#64 2092#64 = .ok 8384736#64 ∧
    dynAllocate 4008#64 (BitVec.allOnes 64) = .throw .outOfRange := by decide

end Phosphor
