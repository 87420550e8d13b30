import Verif.Model.ChunkAny
import Verif.Props.Buffer
import Mathlib.Tactic.ByContra
/-
C16 for chunks of every capacity.
-/
namespace Phosphor.AnyChunk
variable {ε : Type}

/-- The chunk holds exactly `evs`. -/
structure Holds (cap : Nat) (c : Chunk ε) (evs : List ε) : Prop where
  len : c.slots.length = cap
  count : c.nextFree.toNat = evs.length
  room : evs.length ≤ cap
  events : ∀ (i : Nat) (e : ε), evs[i]? = some e → c.slots[i]? = some (some e)

theorem push_room {cap : Nat} {c : Chunk ε} {evs : List ε} (hc : cap ≤ 65535) (h : Holds cap c evs)
    (hr : evs.length < cap) (e : ε) :
    ∃ c', c.push e = (c', .ok ()) ∧ Holds cap c' (evs ++ [e]) ∧ c'.threadId = c.threadId := by
  have hlt : c.nextFree.toNat < c.slots.length := by rw [h.count, h.len]; exact hr
  refine ⟨{ c with nextFree := c.nextFree + 1, slots := c.slots.set c.nextFree.toNat (some e) }, ?_, ?_, ?_⟩
  · unfold Chunk.push
    rw [if_neg (by simp [Chunk.isFull]; omega), if_pos hlt]
  · refine ⟨by simp [h.len], ?_, by simp; omega, fun i x hx => ?_⟩
    · rw [UInt16.toNat_add, h.count]
      simp
      omega
    · simp only [h.count]
      rw [List.getElem?_set]
      rw [List.getElem?_append] at hx
      split at hx
      · rename_i hi
        rw [if_neg (by omega)]
        exact h.events i x hx
      · rename_i hi
        have : i = evs.length := by
          rcases Nat.lt_or_ge (i - evs.length) 1 with h0 | h0
          · omega
          · rw [List.getElem?_eq_none (by simpa using h0)] at hx; cases hx
        subst this
        rw [if_pos rfl, if_pos (by rw [h.len]; exact hr)]
        simpa using hx
  · rfl

theorem push_full {cap : Nat} {c : Chunk ε} {evs : List ε} (h : Holds cap c evs)
    (hr : evs.length = cap) (e : ε) : c.push e = (c, .throw .outOfRange) := by
  unfold Chunk.push
  rw [if_pos (by simp [Chunk.isFull, h.count, h.len, hr])]

theorem pushAll_holds {cap : Nat} (hc : cap ≤ 65535) (c : Chunk ε) (evs es : List ε) (h : Holds cap c evs) :
    Holds cap (c.pushAll es).1 (evs ++ es.take (cap - evs.length)) ∧
      (c.pushAll es).1.threadId = c.threadId ∧
      (c.pushAll es).2 = List.replicate (min es.length (cap - evs.length)) (.ok ()) ++
        List.replicate (es.length - (cap - evs.length)) (.throw .outOfRange) := by
  induction es generalizing c evs with
  | nil => simpa [Chunk.pushAll] using h
  | cons e es ih =>
    have hroom := h.room
    by_cases hr : evs.length < cap
    · obtain ⟨c', hp, hh, ht⟩ := push_room hc h hr e
      obtain ⟨i1, i2, i3⟩ := ih c' (evs ++ [e]) hh
      simp only [Chunk.pushAll, hp]
      have hl : cap - evs.length = (cap - (evs ++ [e]).length) + 1 := by
        simp; omega
      refine ⟨?_, by rw [i2, ht], ?_⟩
      · rw [hl, List.take_succ_cons]
        simpa using i1
      · rw [i3, hl]
        simp only [List.length_cons, Nat.add_min_add_right, List.replicate_succ, List.cons_append,
          Nat.add_sub_add_right]
    · have hr' : evs.length = cap := by omega
      have hp := push_full h hr' e
      obtain ⟨i1, i2, i3⟩ := ih c evs h
      simp only [Chunk.pushAll, hp]
      rw [hr', Nat.sub_self] at i1 i3 ⊢
      refine ⟨by simpa using i1, i2, ?_⟩
      rw [i3]
      simp [List.replicate_succ]

/-- C16 for a chunk of `cap` slots: what `C16_chunk` says for the default build. -/
def C16_holds (ε : Type) (cap : Nat) : Prop :=
  ∀ (slots : List (Option ε)), slots.length = cap → ∀ (tid : Nat) (es : List ε),
    let (c, rs) := (Chunk.reset slots tid).pushAll es
    c.count = min es.length cap ∧
    (∀ (i : Nat) (e : ε), (es.take cap)[i]? = some e → c.get i = .ok e) ∧
    c.threadId = tid ∧
    (c.isFull = true ↔ cap ≤ es.length) ∧
    rs.length = es.length ∧
    ∀ (i : Nat) (r : Res Unit), rs[i]? = some r → r = if i < cap then .ok () else .throw .outOfRange

/-- Never full: the counter wraps around before it reaches the capacity. -/
theorem push_wraps {c : Chunk ε} (h : 65536 ≤ c.slots.length) (e : ε) :
    ∃ c', c.push e = (c', .ok ()) ∧ c'.slots.length = c.slots.length ∧
      c'.count = (c.count + 1) % 65536 := by
  have hlt : c.nextFree.toNat < c.slots.length := Nat.lt_of_lt_of_le (UInt16.toNat_lt c.nextFree) (by omega)
  refine ⟨{ c with nextFree := c.nextFree + 1, slots := c.slots.set c.nextFree.toNat (some e) }, ?_, ?_, ?_⟩
  · unfold Chunk.push
    rw [if_neg (by simp [Chunk.isFull]; omega), if_pos hlt]
  · simp
  · simp only [Chunk.count]
    rw [UInt16.toNat_add]
    rfl

theorem pushAll_wraps (es : List ε) (c : Chunk ε) (h : 65536 ≤ c.slots.length) :
    (c.pushAll es).1.count = (c.count + es.length) % 65536 ∧
    (c.pushAll es).2 = List.replicate es.length (.ok ()) := by
  induction es generalizing c with
  | nil =>
    have := UInt16.toNat_lt c.nextFree
    refine ⟨?_, rfl⟩
    simp only [Chunk.pushAll, List.length_nil, Nat.add_zero]
    exact (Nat.mod_eq_of_lt this).symm
  | cons e es ih =>
    obtain ⟨c', h1, h2, h3⟩ := push_wraps h e
    obtain ⟨i1, i2⟩ := ih c' (by rw [h2]; exact h)
    simp only [Chunk.pushAll, h1, i1, i2, h3, List.length_cons]
    refine ⟨?_, rfl⟩
    rw [Nat.mod_add_mod]
    congr 1
    omega

/-- C16: holds for chunks of up to 65535 events, and for no larger ones: there `next_free` wraps around
before the chunk is full, and stored events are overwritten. -/
theorem C16_capacity_partial [Inhabited ε] (cap : Nat) : C16_holds ε cap ↔ cap ≤ 65535 := by
  constructor
  · intro h
    by_contra hc
    obtain ⟨es, hes⟩ : ∃ es : List ε, es.length = 65536 :=
      ⟨List.replicate 65536 default, List.length_replicate ..⟩
    have h1 := (h (List.replicate cap none) (List.length_replicate ..) 0 es).1
    have h2 := (pushAll_wraps es (Chunk.reset (List.replicate cap none) 0)
      (by rw [Chunk.reset, List.length_replicate]; omega)).1
    rw [h2, hes] at h1
    have h3 : (Chunk.reset (List.replicate cap (none : Option ε)) 0).count = 0 := rfl
    rw [h3] at h1
    omega
  · intro hc slots hs tid es
    have h0 : Holds cap (Chunk.reset slots tid) ([] : List ε) :=
      ⟨hs, rfl, Nat.zero_le _, fun i e h => by cases h⟩
    obtain ⟨h1, h2, h3⟩ := pushAll_holds hc _ [] es h0
    simp only [List.nil_append, List.length_nil, Nat.sub_zero] at h1 h3
    refine ⟨?_, fun i e he => ?_, h2, ?_, ?_, ?_⟩
    · rw [Chunk.count, h1.count, List.length_take, Nat.min_comm]
    · rw [Chunk.get, h1.events i e he]
    · rw [Chunk.isFull, beq_iff_eq, h1.count, h1.len, List.length_take]; omega
    · rw [h3]; simp; omega
    · intro i r hr
      rw [h3] at hr
      rw [List.getElem?_append] at hr
      simp only [List.length_replicate] at hr
      split at hr
      · next hi =>
        rw [List.getElem?_replicate, if_pos hi] at hr
        rw [if_pos (by omega)]; cases hr; rfl
      · next hi =>
        rw [List.getElem?_replicate] at hr
        split at hr
        · rw [if_neg (by omega)]; cases hr; rfl
        · cases hr

/-- C16: in terms of the build option: up to 640 pages of 4096 bytes, no more. -/
theorem C16_pages_partial [Inhabited ε] (pages : Nat) : C16_holds ε (capacity pages) ↔ pages ≤ 640 := by
  rw [C16_capacity_partial]
  unfold capacity sizeofTraceEvent
  omega

/-- C16 is refuted for large chunks: 65536 stores, none refused, and the chunk reports that it is
empty. -/
theorem C16_refuted : ∃ (slots : List (Option Nat)) (es : List Nat), slots.length = capacity 641 ∧
    ((Chunk.reset slots 0).pushAll es).1.count = 0 ∧ 65536 ≤ es.length ∧ es.length < slots.length ∧
    ∀ r ∈ ((Chunk.reset slots 0).pushAll es).2, r = .ok () := by
  have hcap : capacity 641 = 65636 := by decide
  obtain ⟨es, hes⟩ : ∃ es : List Nat, es.length = 65536 := ⟨List.replicate 65536 7, List.length_replicate ..⟩
  obtain ⟨slots, hs⟩ : ∃ l : List (Option Nat), l.length = 65636 :=
    ⟨List.replicate 65636 none, List.length_replicate ..⟩
  have h := pushAll_wraps es (Chunk.reset slots 0) (by rw [Chunk.reset, hs]; omega)
  have h0 : (Chunk.reset slots 0).count = 0 := rfl
  refine ⟨slots, es, by rw [hcap, hs], ?_, by omega, by omega, fun r hr => ?_⟩
  · rw [h.1, hes, h0]
  · rw [h.2] at hr
    exact (List.mem_replicate.1 hr).2

/-- The builds of the source: the default, and those of the benchmarks (tests/benchmark/CMakeLists.txt). -/
example : capacity 1 = chunkSize ∧ capacity 4 = 408 ∧ capacity 16 = 1636 := by decide

end Phosphor.AnyChunk
