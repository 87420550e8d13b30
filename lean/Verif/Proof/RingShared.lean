import Verif.Proof.RingOrder
/-
The chunks of a ring buffer used by many threads, in the order in which each thread filled its own.
-/
namespace Phosphor
variable {ε : Type}

theorem nodup_mid {α : Type} {a : α} {l1 l2 : List α} (h : (l1 ++ a :: l2).Nodup) : (a :: (l1 ++ l2)).Nodup :=
  List.perm_middle.nodup_iff.1 h

/-- The events in chunk `i` if it is `t`'s. -/
def evOf (cont : List (Nat × List ε)) (t i : Nat) : List ε :=
  match cont[i]? with
  | some p => if p.1 = t then p.2 else []
  | none => []

/-- The thread that got chunk `i` last. -/
def ownAt (cont : List (Nat × List ε)) (i : Nat) : Option Nat := (cont[i]?).map (fun p => p.1)

theorem evOf_congr {cont cont' : List (Nat × List ε)} {l : List Nat} (t : Nat) (h : ∀ j ∈ l, cont'[j]? = cont[j]?) :
    l.flatMap (evOf cont' t) = l.flatMap (evOf cont t) := by
  induction l with
  | nil => rfl
  | cons a l ih =>
    simp only [List.flatMap_cons]
    rw [ih (fun j hj => h j (List.mem_cons_of_mem _ hj))]
    simp [evOf, h a (by simp)]

theorem ownAt_congr {cont cont' : List (Nat × List ε)} {l : List Nat} (h : ∀ j ∈ l, cont'[j]? = cont[j]?) :
    l.map (ownAt cont') = l.map (ownAt cont) := by
  apply List.map_congr_left
  intro j hj
  simp [ownAt, h j hj]

theorem evOf_other {cont : List (Nat × List ε)} {t i : Nat} (h : ownAt cont i ≠ some t) : evOf cont t i = [] := by
  unfold evOf
  unfold ownAt at h
  cases hc : cont[i]? with
  | none => rfl
  | some p =>
    rw [hc] at h
    have : p.1 ≠ t := fun e => h (by simp [e])
    simp [this]

theorem evOf_nil {cont : List (Nat × List ε)} {l : List Nat} {t : Nat} (h : some t ∉ l.map (ownAt cont)) :
    l.flatMap (evOf cont t) = [] := by
  induction l with
  | nil => rfl
  | cons a l ih =>
    simp only [List.map_cons, List.mem_cons, not_or] at h
    rw [List.flatMap_cons, evOf_other (fun e => h.1 e.symm), ih h.2]
    rfl

theorem range_evOf (cont : List (Nat × List ε)) (t : Nat) :
    (List.range cont.length).flatMap (evOf cont t) = TLog.eventsOf t cont := by
  induction cont with
  | nil => rfl
  | cons p cont ih =>
    rw [List.length_cons, List.range_succ_eq_map, List.flatMap_cons, List.flatMap_map]
    have : TLog.eventsOf t (p :: cont) = (if p.1 = t then p.2 else []) ++ TLog.eventsOf t cont := by simp [TLog.eventsOf]
    rw [this, ← ih]
    congr 1

/-- The chunks `cont` of a ring of `n` chunks: `q` is the queue of returned chunks, `tail` the
chunks taken since, no two by the same thread. Of the events `stored t` of each thread `drop t` have
been overwritten, and the others are in its chunks among `q` and `tail` in that order. Unless `D`,
the returned chunks are full. -/
structure Shared (D : Prop) (cont : List (Nat × List ε)) (q tail : List Nat) (drop stored : Nat → List ε)
    (n : Nat) : Prop where
  perm : (q ++ tail).Perm (List.range cont.length)
  own : (tail.map (ownAt cont)).Nodup
  split : ∀ t, stored t = drop t ++ (q ++ tail).flatMap (evOf cont t)
  drop : (∀ t, drop t = []) ∨ cont.length = n ∧ 0 < n
  full : D ∨ ∀ j ∈ q, (evAt cont j).length = chunkSize

namespace Shared
variable {D : Prop} {cont : List (Nat × List ε)} {q tail : List Nat} {drop stored : Nat → List ε} {n i t : Nat}

theorem nil (n : Nat) : Shared D ([] : List (Nat × List ε)) [] [] (fun _ => []) (fun _ => []) n :=
  ⟨by simp, by simp, by simp, Or.inl (fun _ => rfl), Or.inr (by simp)⟩

theorem nodup (h : Shared D cont q tail drop stored n) : (q ++ tail).Nodup :=
  h.perm.nodup_iff.2 List.nodup_range

theorem lt (h : Shared D cont q tail drop stored n) {j : Nat} (hj : j ∈ q ++ tail) : j < cont.length := by
  have := h.perm.mem_iff.1 hj
  simpa using this

theorem count (h : Shared D cont q tail drop stored n) : q.length + tail.length = cont.length := by
  have := h.perm.length_eq
  simpa using this

theorem tail_nil (h : Shared D ([] : List (Nat × List ε)) q tail drop stored n) : tail = [] := by
  have := h.count
  simp at this
  exact this.2

/-- A thread returns its chunk. -/
theorem ret {l1 l2 : List Nat} (h : Shared D cont q (l1 ++ i :: l2) drop stored n)
    (hf : D ∨ (evAt cont i).length = chunkSize) : Shared D cont (q ++ [i]) (l1 ++ l2) drop stored n := by
  have hown := h.own
  rw [List.map_append, List.map_cons] at hown
  refine ⟨?_, ?_, fun t => ?_, h.drop, ?_⟩
  · refine List.Perm.trans ?_ h.perm
    rw [List.append_assoc]
    refine List.Perm.append_left _ ?_
    simpa using (List.perm_middle (a := i) (l₁ := l1) (l₂ := l2)).symm
  · rw [List.map_append]
    exact (nodup_mid hown).of_cons
  · rw [h.split t]
    congr 1
    simp only [List.flatMap_append, List.flatMap_cons, List.flatMap_nil, List.append_nil, List.append_assoc]
    congr 1
    by_cases ho : ownAt cont i = some t
    · have : some t ∉ l1.map (ownAt cont) := by
        rw [ho] at hown
        have := (List.nodup_cons.1 (nodup_mid hown)).1
        intro hm
        exact this (List.mem_append_left _ hm)
      rw [evOf_nil this]
      rfl
    · rw [evOf_other ho]
      rfl
  · rcases h.full with hd | hq
    · exact Or.inl hd
    · rcases hf with hd | hf
      · exact Or.inl hd
      · right
        intro j hj
        rcases List.mem_append.1 hj with hj | hj
        · exact hq j hj
        · simp at hj; subst hj; exact hf

theorem full_congr {cont' : List (Nat × List ε)} (h : D ∨ ∀ j ∈ q, (evAt cont j).length = chunkSize)
    (hq : ∀ j ∈ q, cont'[j]? = cont[j]?) : D ∨ ∀ j ∈ q, (evAt cont' j).length = chunkSize := by
  rcases h with h | h
  · exact Or.inl h
  · right
    intro j hj
    have : evAt cont' j = evAt cont j := by simp only [evAt, hq j hj]
    rw [this]; exact h j hj

/-- A thread without a chunk takes one never used before. -/
theorem claim (h : Shared D cont q tail drop stored n) (hl : cont.length < n) (ht : some t ∉ tail.map (ownAt cont)) :
    Shared D (cont ++ [(t, [])]) q (tail ++ [cont.length]) drop stored n := by
  have hall : ∀ j ∈ q ++ tail, (cont ++ [(t, ([] : List ε))])[j]? = cont[j]? := fun j hj =>
    List.getElem?_append_left (h.lt hj)
  have hq : ∀ j ∈ q, (cont ++ [(t, ([] : List ε))])[j]? = cont[j]? := fun j hj => hall j (List.mem_append_left _ hj)
  have hta : ∀ j ∈ tail, (cont ++ [(t, ([] : List ε))])[j]? = cont[j]? := fun j hj => hall j (List.mem_append_right _ hj)
  refine ⟨?_, ?_, fun u => ?_, ?_, full_congr h.full hq⟩
  · rw [List.length_append, List.length_singleton, List.range_succ, ← List.append_assoc]
    exact h.perm.append_right _
  · rw [List.map_append, ownAt_congr hta]
    have : ownAt (cont ++ [(t, ([] : List ε))]) cont.length = some t := by simp [ownAt]
    rw [List.map_singleton, this]
    refine List.nodup_append.2 ⟨h.own, by simp, ?_⟩
    intro a ha b hb
    simp at hb
    subst hb
    rintro rfl
    exact ht ha
  · rw [h.split u, ← List.append_assoc q, List.flatMap_append (xs := q ++ tail), evOf_congr u hall]
    have : evOf (cont ++ [(t, ([] : List ε))]) u cont.length = [] := by simp [evOf]
    simp [this]
  · rcases h.drop with h | h
    · exact Or.inl h
    · omega

/-- A thread without a chunk takes the oldest returned one, which is emptied. -/
theorem take (h : Shared D cont (i :: q) tail drop stored n) (hl : cont.length = n)
    (ht : some t ∉ tail.map (ownAt cont)) :
    Shared D (cont.set i (t, [])) q (tail ++ [i]) (fun u => drop u ++ evOf cont u i) stored n := by
  have hnd : i ∉ q ++ tail := by
    have := h.nodup
    rw [List.cons_append] at this
    exact (List.nodup_cons.1 this).1
  have hi : i < cont.length := h.lt (by simp)
  have hall : ∀ j ∈ q ++ tail, (cont.set i (t, ([] : List ε)))[j]? = cont[j]? := by
    intro j hj
    apply List.getElem?_set_ne
    rintro rfl; exact hnd hj
  have hq : ∀ j ∈ q, (cont.set i (t, ([] : List ε)))[j]? = cont[j]? := fun j hj => hall j (List.mem_append_left _ hj)
  have hta : ∀ j ∈ tail, (cont.set i (t, ([] : List ε)))[j]? = cont[j]? := fun j hj => hall j (List.mem_append_right _ hj)
  refine ⟨?_, ?_, fun u => ?_, Or.inr ⟨by simpa using hl, by omega⟩, ?_⟩
  · rw [List.length_set, ← List.append_assoc]
    exact (List.perm_append_singleton i (q ++ tail)).trans h.perm
  · rw [List.map_append, ownAt_congr hta]
    have : ownAt (cont.set i (t, ([] : List ε))) i = some t := by simp [ownAt, hi]
    rw [List.map_singleton, this]
    refine List.nodup_append.2 ⟨h.own, by simp, ?_⟩
    intro a ha b hb
    simp at hb
    subst hb
    rintro rfl
    exact ht ha
  · rw [h.split u, ← List.append_assoc q, List.flatMap_append (xs := q ++ tail), evOf_congr u hall]
    have : evOf (cont.set i (t, ([] : List ε))) u i = [] := by simp [evOf, hi]
    simp [this]
  · refine full_congr ?_ hq
    rcases h.full with h | h
    · exact Or.inl h
    · exact Or.inr (fun j hj => h j (by simp [hj]))

/-- A thread adds an event to its chunk. -/
theorem push (h : Shared D cont q tail drop stored n) (hi : i ∈ tail) (ho : ownAt cont i = some t) (e : ε) :
    Shared D (cont.modify i (fun p => (p.1, p.2 ++ [e]))) q tail drop (setf stored t (stored t ++ [e])) n := by
  obtain ⟨l1, l2, rfl⟩ := List.append_of_mem hi
  have hnd := h.nodup
  have hlt : i < cont.length := h.lt (by simp)
  have hne : ∀ j, j ≠ i → (cont.modify i (fun p => (p.1, p.2 ++ [e])))[j]? = cont[j]? := by
    intro j hj
    rw [List.getElem?_modify]
    have : ¬ i = j := fun e => hj e.symm
    simp [this]
  have hown : ∀ j, ownAt (cont.modify i (fun p => (p.1, p.2 ++ [e]))) j = ownAt cont j := by
    intro j
    unfold ownAt
    rw [List.getElem?_modify]
    cases cont[j]? with
    | none => rfl
    | some p => by_cases hij : i = j <;> simp [hij]
  have hnd1 : i ∉ q ++ l1 ∧ i ∉ l2 := by
    have : (i :: ((q ++ l1) ++ l2)).Nodup := by
      rw [← List.append_assoc] at hnd
      exact nodup_mid hnd
    have := (List.nodup_cons.1 this).1
    exact ⟨fun hm => this (List.mem_append_left _ hm), fun hm => this (List.mem_append_right _ hm)⟩
  have hA : ∀ j ∈ q ++ l1, (cont.modify i (fun p => (p.1, p.2 ++ [e])))[j]? = cont[j]? := by
    intro j hj; exact hne j (by rintro rfl; exact hnd1.1 hj)
  have hB : ∀ j ∈ l2, (cont.modify i (fun p => (p.1, p.2 ++ [e])))[j]? = cont[j]? := by
    intro j hj; exact hne j (by rintro rfl; exact hnd1.2 hj)
  refine ⟨by rw [List.length_modify]; exact h.perm, ?_, fun u => ?_, by rw [List.length_modify]; exact h.drop,
    full_congr h.full (fun j hj => hA j (List.mem_append_left _ hj))⟩
  · rw [List.map_congr_left (fun j _ => hown j)]; exact h.own
  · have e1 : q ++ (l1 ++ i :: l2) = (q ++ l1) ++ i :: l2 := by simp
    have hsp := h.split u
    rw [e1, List.flatMap_append, List.flatMap_cons] at hsp
    rw [e1, List.flatMap_append, List.flatMap_cons, evOf_congr u hA, evOf_congr u hB]
    by_cases hu : u = t
    · subst hu
      rw [setf_self, hsp]
      have hrest : l2.flatMap (evOf cont u) = [] := by
        apply evOf_nil
        have hown := h.own
        rw [List.map_append, List.map_cons, ho] at hown
        have := (List.nodup_cons.1 (nodup_mid hown)).1
        intro hm
        exact this (List.mem_append_right _ hm)
      rw [hrest]
      have : evOf (cont.modify i (fun p => (p.1, p.2 ++ [e]))) u i = evOf cont u i ++ [e] := by
        unfold ownAt at ho
        unfold evOf
        rw [List.getElem?_modify]
        cases hc : cont[i]? with
        | none => rw [hc] at ho; cases ho
        | some p =>
          rw [hc] at ho
          have : p.1 = u := by simpa using ho
          simp [this]
      rw [this]
      simp
    · rw [setf_ne _ _ hu, hsp]
      have h1 : evOf (cont.modify i (fun p => (p.1, p.2 ++ [e]))) u i = [] :=
        evOf_other (by rw [hown, ho]; intro h; cases h; exact hu rfl)
      have h2 : evOf cont u i = [] := evOf_other (by rw [ho]; intro h; cases h; exact hu rfl)
      rw [h1, h2]

end Shared
end Phosphor
