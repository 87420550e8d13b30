import Verif.Proof.TraceLogData
/-
The chunks of a ring buffer used by one thread, in the order in which they were filled.
-/
namespace Phosphor
variable {ε : Type}

/-- The events in chunk `i`. -/
def evAt (cont : List (Nat × List ε)) (i : Nat) : List ε := ((cont[i]?).map (fun p => p.2)).getD []

theorem evAt_eq {cont : List (Nat × List ε)} {i t : Nat} {evs : List ε} (h : cont[i]? = some (t, evs)) :
    evAt cont i = evs := by simp [evAt, h]

theorem evAt_congr {cont cont' : List (Nat × List ε)} {l : List Nat} (h : ∀ j ∈ l, cont'[j]? = cont[j]?) :
    l.flatMap (evAt cont') = l.flatMap (evAt cont) := by
  induction l with
  | nil => rfl
  | cons a l ih =>
    simp only [List.flatMap_cons]
    rw [ih (fun j hj => h j (List.mem_cons_of_mem _ hj))]
    simp [evAt, h a (by simp)]

theorem range_evAt (cont : List (Nat × List ε)) :
    (List.range cont.length).flatMap (evAt cont) = cont.flatMap (fun p => p.2) := by
  induction cont with
  | nil => rfl
  | cons p cont ih =>
    rw [List.length_cons, List.range_succ_eq_map, List.flatMap_cons, List.flatMap_cons, ← ih, List.flatMap_map]
    congr 1

/-- The chunks `cont` of a ring of `n` chunks: `q` is the queue of returned chunks, `cur` the chunk
in use. Of the events `stored` so far `dropped` have been overwritten, and the others are in the
chunks `q` and `cur` in that order; the returned chunks are full. -/
structure Order (cont : List (Nat × List ε)) (q : List Nat) (cur : Option Nat) (dropped stored : List ε)
    (n : Nat) : Prop where
  perm : (q ++ cur.toList).Perm (List.range cont.length)
  split : stored = dropped ++ (q ++ cur.toList).flatMap (evAt cont)
  drop : dropped = [] ∨ cont.length = n ∧ 0 < n
  full : ∀ j ∈ q, (evAt cont j).length = chunkSize

namespace Order
variable {cont : List (Nat × List ε)} {q : List Nat} {dropped stored : List ε} {n i t : Nat}

theorem nil (n : Nat) : Order ([] : List (Nat × List ε)) [] none [] [] n :=
  ⟨by simp, by simp, Or.inl rfl, by simp⟩

theorem nodup {cur : Option Nat} (h : Order cont q cur dropped stored n) : (q ++ cur.toList).Nodup :=
  h.perm.nodup_iff.2 List.nodup_range

theorem lt {cur : Option Nat} (h : Order cont q cur dropped stored n) {j : Nat} (hj : j ∈ q ++ cur.toList) :
    j < cont.length := by
  have := h.perm.mem_iff.1 hj
  simpa using this

theorem count {cur : Option Nat} (h : Order cont q cur dropped stored n) :
    q.length + cur.toList.length = cont.length := by
  have := h.perm.length_eq
  simpa using this

/-- The chunk in use is returned, full. -/
theorem ret (h : Order cont q (some i) dropped stored n) (hf : (evAt cont i).length = chunkSize) :
    Order cont (q ++ [i]) none dropped stored n := by
  refine ⟨by simpa using h.perm, by simpa using h.split, h.drop, fun j hj => ?_⟩
  rcases List.mem_append.1 hj with hj | hj
  · exact h.full j hj
  · simp at hj; subst hj; exact hf

/-- A chunk never used before is taken. -/
theorem claim (h : Order cont q none dropped stored n) (hl : cont.length < n) :
    Order (cont ++ [(t, [])]) q (some cont.length) dropped stored n := by
  have hq : ∀ j ∈ q, (cont ++ [(t, ([] : List ε))])[j]? = cont[j]? := fun j hj =>
    List.getElem?_append_left (h.lt (by simpa using hj))
  have hp : q.Perm (List.range cont.length) := by simpa using h.perm
  refine ⟨?_, ?_, ?_, ?_⟩
  · rw [List.length_append, List.length_singleton, List.range_succ]
    exact hp.append_right _
  · rw [h.split, List.flatMap_append, List.flatMap_append, evAt_congr hq]
    simp [evAt]
  · rcases h.drop with h | h
    · exact Or.inl h
    · omega
  · intro j hj
    have : evAt (cont ++ [(t, ([] : List ε))]) j = evAt cont j := by simp only [evAt, hq j hj]
    rw [this]; exact h.full j hj

/-- The oldest returned chunk is taken and emptied. -/
theorem take (h : Order cont (i :: q) none dropped stored n) (hl : cont.length = n) :
    Order (cont.set i (t, [])) q (some i) (dropped ++ evAt cont i) stored n := by
  have hnd : i ∉ q := by
    have := h.nodup
    simp at this
    exact this.1
  have hi : i < cont.length := h.lt (by simp)
  have hq : ∀ j ∈ q, (cont.set i (t, ([] : List ε)))[j]? = cont[j]? := by
    intro j hj
    apply List.getElem?_set_ne
    rintro rfl; exact hnd hj
  refine ⟨?_, ?_, Or.inr ⟨by simpa using hl, by omega⟩, ?_⟩
  · have hp : (i :: q).Perm (List.range cont.length) := by simpa using h.perm
    rw [List.length_set]
    exact (List.perm_append_singleton i q).trans hp
  · rw [h.split, List.flatMap_append, List.flatMap_append, evAt_congr hq]
    simp [evAt, hi]
  · intro j hj
    have : evAt (cont.set i (t, ([] : List ε))) j = evAt cont j := by simp only [evAt, hq j hj]
    rw [this]; exact h.full j (by simp [hj])

/-- An event is added to the chunk in use. -/
theorem push (h : Order cont q (some i) dropped stored n) (e : ε) :
    Order (cont.modify i (fun p => (p.1, p.2 ++ [e]))) q (some i) dropped (stored ++ [e]) n := by
  have hnd : i ∉ q := by
    have := h.nodup
    intro hi
    have h2 := List.nodup_append.1 this
    exact h2.2.2 i hi i (by simp) rfl
  have hi : i < cont.length := h.lt (by simp)
  have hq : ∀ j ∈ q, (cont.modify i (fun p => (p.1, p.2 ++ [e])))[j]? = cont[j]? := by
    intro j hj
    rw [List.getElem?_modify]
    have : i ≠ j := by rintro rfl; exact hnd hj
    simp [this]
  refine ⟨by rw [List.length_modify]; exact h.perm, ?_, by rw [List.length_modify]; exact h.drop, ?_⟩
  · rw [h.split, List.flatMap_append, List.flatMap_append, evAt_congr hq]
    simp [evAt, hi]
  · intro j hj
    have : evAt (cont.modify i (fun p => (p.1, p.2 ++ [e]))) j = evAt cont j := by simp only [evAt, hq j hj]
    rw [this]; exact h.full j hj

/-- How many events the returned chunks hold. -/
theorem full_length (h : ∀ j ∈ q, (evAt cont j).length = chunkSize) :
    (q.flatMap (evAt cont)).length = q.length * chunkSize := by
  induction q with
  | nil => simp
  | cons a q ih =>
    rw [List.flatMap_cons, List.length_append, h a (by simp), ih (fun j hj => h j (List.mem_cons_of_mem _ hj)),
      List.length_cons, Nat.succ_mul]
    omega

/-- What is in the chunks is what was not overwritten. -/
theorem kept {cur : Option Nat} (h : Order cont q cur dropped stored n) {tid : Nat → Nat}
    (hm : ∀ p ∈ cont, p.1 = t) : ∃ kept, stored = dropped ++ kept ∧
    (flatEvents (tagged tid cont)).Perm (kept.map (fun e => (e, tid t))) ∧
    kept.length = q.length * chunkSize + (cur.toList.flatMap (evAt cont)).length := by
  refine ⟨_, h.split, ?_, ?_⟩
  · have h1 : flatEvents (tagged tid cont) = (cont.flatMap (fun p => p.2)).map (fun e => (e, tid t)) := by
      clear h
      induction cont with
      | nil => rfl
      | cons p cont ih =>
        have : flatEvents (tagged tid (p :: cont)) = p.2.map (fun e => (e, tid p.1)) ++ flatEvents (tagged tid cont) := by
          simp [flatEvents, tagged]
        rw [this, ih (fun p hp => hm p (List.mem_cons_of_mem _ hp)), hm p (by simp), List.flatMap_cons,
          List.map_append]
    rw [h1, ← range_evAt]
    exact ((h.perm.symm.flatMap_right _)).map _
  · rw [List.flatMap_append, List.length_append, full_length h.full]

end Order
end Phosphor
