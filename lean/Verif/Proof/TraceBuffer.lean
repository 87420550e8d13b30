import Verif.Spec.Buffer
/-
Lemmas about chunks, buffers and iterators.
-/
namespace Phosphor
variable {ε : Type}

theorem chunkSize_pos : 0 < chunkSize := by decide

/-! ### Chunks -/

theorem Chunk.get_ok_iff (c : Chunk ε) (i : Nat) (e : ε) :
    c.get i = .ok e ↔ c.slots[i]? = some (some e) := by
  unfold Chunk.get
  split
  · next e' h => rw [h]; simp
  · next h =>
    constructor
    · intro h'; cases h'
    · intro h'; exact absurd h' (h e)

theorem Chunk.reset_holds (m : ChunkMem ε) (tid : Nat) (h : m.slots.length = chunkSize) :
    (Chunk.reset m tid).Holds [] :=
  ⟨rfl, Nat.zero_le _, h, by simp⟩

theorem Chunk.isFull_iff (c : Chunk ε) (evs : List ε) (h : c.Holds evs) :
    c.isFull = true ↔ evs.length = chunkSize := by
  have := h.count
  unfold Chunk.count at this
  simp [Chunk.isFull, this]

theorem Chunk.push_ok (c : Chunk ε) (evs : List ε) (e : ε) (h : c.Holds evs)
    (hr : evs.length < chunkSize) :
    ∃ c', c.push e = (c', .ok ()) ∧ c'.Holds (evs ++ [e]) ∧ c'.threadId = c.threadId := by
  have hnf : ¬ c.isFull = true := by rw [Chunk.isFull_iff c evs h]; omega
  have hc : c.nextFree = evs.length := h.count
  have hs := h.storage
  refine ⟨{ c with nextFree := c.nextFree + 1, slots := c.slots.set c.nextFree (some e) }, ?_, ?_, rfl⟩
  · unfold Chunk.push Chunk.addEvent
    rw [if_neg hnf]
    simp only [Chunk.assign]
    rw [if_pos (by omega)]
  · refine ⟨by simp [Chunk.count, hc], by simp; omega, by simpa using hs, ?_⟩
    intro i x hx
    rw [Chunk.get_ok_iff]
    simp only
    by_cases hi : i < evs.length
    · rw [List.getElem?_append_left hi] at hx
      have := (Chunk.get_ok_iff c i x).1 (h.events i x hx)
      rw [List.getElem?_set_ne (by omega)]
      exact this
    · rw [List.getElem?_append_right (by omega)] at hx
      have hi' : i = evs.length := by
        rcases Nat.lt_or_ge 0 (i - evs.length) with h0 | h0
        · rw [List.getElem?_eq_none (by simp; omega)] at hx; cases hx
        · omega
      subst hi'
      simp at hx
      subst hx
      rw [hc, List.getElem?_set_self (by omega)]

theorem Chunk.push_full (c : Chunk ε) (evs : List ε) (e : ε) (h : c.Holds evs)
    (hr : evs.length = chunkSize) : c.push e = (c, .throw .outOfRange) := by
  have hf := (Chunk.isFull_iff c evs h).2 hr
  simp [Chunk.push, Chunk.addEvent, hf]

/-! ### Iteration -/

/-- Events left from event `k` of chunk `p` on. -/
def remaining (contents : List (Nat × List ε)) (p k : Nat) : List (ε × Nat) :=
  match contents[p]? with
  | some (tid, evs) => (evs.drop k).map (fun e => (e, tid)) ++ flatEvents (contents.drop (p + 1))
  | none => []

theorem remaining_zero (contents : List (Nat × List ε)) (p : Nat) :
    remaining contents p 0 = flatEvents (contents.drop p) := by
  unfold remaining
  split
  · next tid evs h =>
    obtain ⟨hp, he⟩ := List.getElem?_eq_some_iff.1 h
    rw [List.drop_eq_getElem_cons hp, he]
    simp [flatEvents]
  · next h =>
    have := List.getElem?_eq_none_iff.1 h
    rw [List.drop_eq_nil_of_le this]
    rfl

/-- Position of an iterator between rounds: at the end, or on an existing event. -/
def EventIter.Normal (contents : List (Nat × List ε)) (it : EventIter) : Prop :=
  it.parentEnd = contents.length ∧
    (it.parent = contents.length ∨
      ∃ k tid evs, contents[it.parent]? = some (tid, evs) ∧ k < evs.length ∧
        it.child = (it.parent, k))

/-- Events left at an iterator. -/
def EventIter.rest (contents : List (Nat × List ε)) (it : EventIter) : List (ε × Nat) :=
  if it.parent = contents.length then [] else remaining contents it.parent it.child.2

theorem seekLoop_spec {b : Buffer ε} {contents : List (Nat × List ε)} (h : b.Holds contents)
    (fuel : Nat) (it : EventIter) (k tid : Nat) (evs : List ε)
    (hp : contents[it.parent]? = some (tid, evs)) (hend : it.parentEnd = contents.length)
    (hc : it.child = (it.parent, k)) (hk : k ≤ evs.length)
    (hfuel : contents.length ≤ it.parent + fuel) :
    ∃ it', EventIter.seekLoop b fuel it = .ok it' ∧ it'.Normal contents ∧
      it'.rest contents = remaining contents it.parent k := by
  have hlt := (List.getElem?_eq_some_iff.1 hp).1
  induction fuel generalizing it k tid evs with
  | zero => omega
  | succ fuel ih =>
    obtain ⟨c, hch, htid, hh⟩ := h.chunk _ _ _ hp
    have hcount := hh.count
    rw [EventIter.seekLoop]
    simp only [Buffer.chunkAt, hch]
    by_cases hkk : k = evs.length
    · subst hkk
      rw [if_pos (by rw [hc, hcount])]
      have hrem : remaining contents it.parent evs.length
          = flatEvents (contents.drop (it.parent + 1)) := by
        simp [remaining, hp]
      by_cases he : it.parent + 1 = it.parentEnd
      · rw [if_pos he]
        refine ⟨_, rfl, ⟨hend, Or.inl (by rw [← hend]; exact he)⟩, ?_⟩
        rw [hrem, List.drop_eq_nil_of_le (by omega)]
        simp only [EventIter.rest]
        rw [if_pos (by omega)]
        rfl
      · rw [if_neg he]
        have hlt' : it.parent + 1 < contents.length := by omega
        have hget := List.getElem?_eq_getElem hlt'
        have := ih { it with parent := it.parent + 1, child := (it.parent + 1, 0) } 0
          (contents[it.parent + 1]).1 (contents[it.parent + 1]).2 (by rw [hget]) hend rfl
          (Nat.zero_le _) (by simp only; omega) hlt'
        obtain ⟨it', h1, h2, h3⟩ := this
        refine ⟨it', h1, h2, ?_⟩
        rw [h3, remaining_zero, hrem]
    · have hk' : k < evs.length := by omega
      rw [if_neg (by rw [hc, hcount]; simp; omega)]
      refine ⟨it, rfl, ⟨hend, Or.inr ⟨k, tid, evs, hp, hk', hc⟩⟩, ?_⟩
      unfold EventIter.rest
      rw [if_neg (by omega), hc]

theorem seek_spec {b : Buffer ε} {contents : List (Nat × List ε)} (h : b.Holds contents)
    (hsize : contents.length ≤ b.chunks.length) (it : EventIter) (k tid : Nat) (evs : List ε)
    (hp : contents[it.parent]? = some (tid, evs)) (hend : it.parentEnd = contents.length)
    (hc : it.child = (it.parent, k)) (hk : k ≤ evs.length) :
    ∃ it', EventIter.seek b it = .ok it' ∧ it'.Normal contents ∧
      it'.rest contents = remaining contents it.parent k := by
  have hlt := (List.getElem?_eq_some_iff.1 hp).1
  unfold EventIter.seek
  rw [if_neg (by omega)]
  exact seekLoop_spec h _ it k tid evs hp hend hc hk (by omega)

theorem iterateFrom_spec {b : Buffer ε} {contents : List (Nat × List ε)} (h : b.Holds contents)
    (hsize : contents.length ≤ b.chunks.length) (fin : EventIter)
    (hfin : fin.parent = contents.length) (fuel : Nat) (it : EventIter)
    (hn : it.Normal contents) (hfuel : (it.rest contents).length < fuel) :
    b.iterateFrom fin fuel it = some (.ok (it.rest contents)) := by
  induction fuel generalizing it with
  | zero => omega
  | succ fuel ih =>
    rw [Buffer.iterateFrom]
    obtain ⟨hend, hpos⟩ := hn
    by_cases hp : it.parent = contents.length
    · have : it.eq fin = true := by
        unfold EventIter.eq
        rw [if_pos ⟨by omega, by omega⟩]
      rw [if_pos this]
      simp [EventIter.rest, hp]
    · rcases hpos with hpos | ⟨k, tid, evs, hget, hk, hc⟩
      · exact absurd hpos hp
      have hne : ¬ it.eq fin = true := by
        unfold EventIter.eq
        rw [if_neg (by omega)]
        simp only [decide_eq_true_eq]
        omega
      rw [if_neg hne]
      obtain ⟨c, hch, htid, hh⟩ := h.chunk _ _ _ hget
      have hd : it.deref b = .ok evs[k] := by
        simp only [EventIter.deref, hc, Buffer.chunkAt, hch, Res.bind_ok]
        exact hh.events k _ (List.getElem?_eq_getElem hk)
      have hpar : it.getParent b = .ok c := by
        simp only [EventIter.getParent, Buffer.chunkAt, hch]
      obtain ⟨it', hs, hn', hr⟩ := seek_spec h hsize
        { it with child := (it.child.1, it.child.2 + 1) } (k + 1) tid evs hget hend
        (by simp [hc]) hk
      have hnext : it.next b = .ok it' := hs
      have hrest : it.rest contents = (evs[k], tid) :: it'.rest contents := by
        rw [hr]
        unfold EventIter.rest
        rw [if_neg hp, hc]
        simp only [remaining, hget]
        rw [List.drop_eq_getElem_cons hk]
        rfl
      rw [hd, hpar, hnext]
      simp only
      rw [ih it' hn' (by rw [hrest] at hfuel; simp at hfuel; omega), hrest]
      simp [htid]

theorem chunkCount_le (b : Buffer ε) : b.chunkCount ≤ b.chunks.length := by
  unfold Buffer.chunkCount Buffer.size
  split <;> split <;> omega

theorem iterate_spec {b : Buffer ε} {contents : List (Nat × List ε)} (h : b.Holds contents)
    (fuel : Nat) (hfuel : (flatEvents contents).length < fuel) :
    b.iterate fuel = some (.ok (flatEvents contents)) := by
  have hsize : contents.length ≤ b.chunks.length := by
    rw [← h.count]; exact chunkCount_le b
  unfold Buffer.iterate
  have hfin : b.end = .ok ⟨b.chunkCount, b.chunkCount, (b.chunkCount, 0)⟩ := by
    simp [Buffer.end, EventIter.make, EventIter.seek]
  rw [hfin]
  by_cases h0 : contents = []
  · have hc : b.chunkCount = 0 := by rw [h.count, h0]; rfl
    have hb : b.begin = .ok ⟨0, 0, (0, 0)⟩ := by
      simp [Buffer.begin, EventIter.make, EventIter.seek, hc]
    rw [hb, hc]
    simp only
    rw [iterateFrom_spec h hsize _ (by simp [h0]) fuel _ ⟨by simp [h0], Or.inl (by simp [h0])⟩]
    · simp [EventIter.rest, h0, flatEvents]
    · simp only [EventIter.rest, h0, List.length_nil, if_true]; omega
  · have hlt : 0 < contents.length := List.length_pos_iff.2 h0
    obtain ⟨it, hs, hn, hr⟩ := seek_spec h hsize ⟨0, b.chunkCount, (0, 0)⟩ 0 (contents[0]).1
      (contents[0]).2 (List.getElem?_eq_getElem hlt) h.count rfl (Nat.zero_le _)
    have hb : b.begin = .ok it := hs
    rw [hb]
    simp only
    have hr' : it.rest contents = flatEvents contents := by
      rw [hr, remaining_zero]; simp
    rw [iterateFrom_spec h hsize _ h.count fuel it hn (by rw [hr']; exact hfuel), hr']

end Phosphor
