import Verif.Proof.RingConc
/-
C98: the ring buffer over its lock-free queue. For every number of chunks the queue is right for
(C20), any number of threads and every interleaving of their accesses to shared memory.
-/
namespace Phosphor.RingConc
variable {ε : Type} {size : Nat} {s s' : St} {t u : Nat}

theorem rel_init (size : Nat) : Rel (St.init size) (RingSys.init 0 size : RingSys ε) where
  reach := .init
  q := .init
  sync := fun _ => rfl
  counter := rfl
  queue := rfl
  returned := rfl
  nodup := List.nodup_nil
  apart := fun _ _ h => nomatch h
  holds := fun t i => by simp [RingSys.init, St.init, St.hand, handOf]
  wait := fun t => by simp [RingSys.init, St.init, St.waits, waitsOf]
  wnodup := List.nodup_nil
  own := fun _ _ h => by simp [St.init] at h
  got := fun _ h => by cases h

theorem next_size {c : Choice} (hs : s.next t c = .to s') : s'.size = s.size := by
  have acc : ∀ sp, s.access t sp = .to s' → s'.size = s.size := by
    intro sp hs
    unfold St.access at hs
    split at hs
    · cases hs
    · cases hs; rfl
    · split at hs <;> cases hs <;> rfl
    · cases hs
    · split at hs
      · cases hs; rfl
      · cases hs
    · cases hs; rfl
    · split at hs <;> cases hs <;> rfl
    · cases hs; rfl
  cases c with
  | step => exact acc _ hs
  | spurious => exact acc _ hs
  | get => simp only [St.next] at hs; split at hs <;> cases hs; rfl
  | ret i => simp only [St.next] at hs; split at hs <;> cases hs; rfl

theorem Rel.inv {A : RingSys ε} (h : Rel s A) (h1 : 1 ≤ s.size) (h2 : s.size ≤ 2 ^ 32) : Mpmc.Inv (capacity s.size) s.q := by
  obtain ⟨k, hk, e, _⟩ := capacity_pow h1 h2
  have := h.q
  rw [e] at this ⊢
  exact Mpmc.inv_reachable hk this

theorem Reachable.size_eq (h : Reachable size s) : s.size = size := by
  induction h with
  | init => rfl
  | step _ hs ih => rw [next_size hs, ih]

theorem Reachable.rel (h : Reachable size s) (h1 : 1 ≤ size) (h2 : size ≤ 2 ^ 32) (ε : Type) :
    ∃ A : RingSys ε, Rel s A := by
  induction h with
  | init => exact ⟨_, rel_init _⟩
  | step hr hs ih =>
    obtain ⟨A, hA⟩ := ih
    have e := hr.size_eq
    obtain ⟨A', _, h'⟩ := hA.next (hA.inv (by omega) (by omega)) hs
    exact ⟨A', h'⟩

/-- C98: the ring buffer over its queue does nothing that the ring buffer whose queue operations are
atomic (C18, and the log of Model/TraceLog) does not do: every access is one operation of the same
thread there, or none; the queue contains there what has been claimed for enqueuing and not for
dequeuing; and a thread between calls holds the same chunks. -/
theorem C98_refines (h1 : 1 ≤ size) (h2 : size ≤ 2 ^ 32) : ∃ R : St → RingSys ε → Prop,
    R (St.init size) (RingSys.init 0 size) ∧
    (∀ s A t c s', R s A → s.next t c = .to s' →
      ∃ A', (A' = A ∨ ∃ op, opBy op = t ∧ A.step op = some A') ∧ R s' A') ∧
    ∀ s A, R s A → A.b.counter = s.counter ∧ A.b.queue = s.q.log.drop s.q.deqPos ∧ A.returned = s.q.log ∧
      ∀ t, s.pc t = .idle → t ∉ A.waiting ∧ ∀ i, (t, i) ∈ A.holds ↔ (t, i) ∈ s.holds := by
  refine ⟨fun s A => s.size = size ∧ Rel s A, ⟨rfl, rel_init _⟩, ?_, ?_⟩
  · rintro s A t c s' ⟨e, hR⟩ hs
    obtain ⟨A', h, h'⟩ := hR.next (hR.inv (by omega) (by omega)) hs
    exact ⟨A', h, by rw [next_size hs, e], h'⟩
  · rintro s A ⟨_, hR⟩
    refine ⟨hR.counter, hR.queue, hR.returned, fun t ht => ?_⟩
    have hq : s.q.pc t = .idle := by have := hR.sync t; rw [ht] at this; exact this
    refine ⟨fun hm => ?_, fun i => ?_⟩
    · have := (hR.wait t).1 hm; rw [St.waits_eq ht hq] at this; cases this
    · rw [hR.holds t i, St.hand_eq ht hq]; simp [handOf]

/-- Thread `t` has chunk `i`: it holds it, or it is about to get it from `getChunk`, or it has passed it to
`returnChunk`, which has not yet put it into the queue. -/
def St.has (s : St) (t i : Nat) : Prop :=
  (t, i) ∈ s.holds ∨ s.pc t = .reset (some i) ∨ s.pc t = .lend i ∨
  (s.pc t = .give i ∧ (s.q.pc t).enqAt = none) ∨
  (s.pc t = .take ∧ ∃ pos, (s.q.pc t).deqAt = some pos ∧ s.q.log[pos]? = some i)

theorem has_iff : s.has t i ↔ (t, i) ∈ s.holds ∨ s.hand t = some i := by
  unfold St.has St.hand
  refine or_congr_right ?_
  generalize s.pc t = p
  generalize s.q.pc t = q
  cases p with
  | reset o => simp [handOf]
  | lend j => simp [handOf]
  | give j => cases q <;> simp [handOf, Mpmc.Pc.enqAt]
  | take => cases q <;> simp [handOf, Mpmc.Pc.deqAt]
  | idle => simp [handOf]
  | count => simp [handOf]
  | unlend => simp [handOf]

/-- C98: no chunk is with two threads; a chunk with a thread belongs to the buffer and is not in the
queue; and it has the id of the thread that holds it. -/
theorem C98_exclusive (h1 : 1 ≤ size) (h2 : size ≤ 2 ^ 32) (h : Reachable size s) {i : Nat} (ht : s.has t i) :
    (∀ u, s.has u i → u = t) ∧ i < size ∧ i ∉ s.q.log.drop s.q.deqPos ∧ ((t, i) ∈ s.holds → s.owner i = some t) := by
  obtain ⟨A, hA⟩ := h.rel h1 h2 Unit
  have m := (hA.holds t i).2 (has_iff.1 ht)
  have hx := (C18_exclusive hA.reach).2.1 _ m
  refine ⟨fun u hu => hA.sole (has_iff.1 hu) (has_iff.1 ht), by rw [← h.size_eq]; exact hx.1, ?_, fun hm => hA.own t i (Or.inl hm)⟩
  have := hA.queue
  rw [Mpmc.St.items] at this
  rw [← this]; exact hx.2

/-- C98: nothing that the threads do is undefined: `getChunk` never finds a pointer that was not stored
in the queue, or an index out of the range of the array. -/
theorem C98_defined (h1 : 1 ≤ size) (h2 : size ≤ 2 ^ 32) (h : Reachable size s) (c : Choice) : s.next t c ≠ .ub := by
  obtain ⟨A, hA⟩ := h.rel h1 h2 Unit
  exact hA.defined c

/-- C98: a thread in a call can always go on. -/
theorem C98_never_blocked (h1 : 1 ≤ size) (h2 : size ≤ 2 ^ 32) (h : Reachable size s) (ht : s.pc t ≠ .idle) :
    ∃ s', s.next t .step = .to s' := by
  have hu := C98_defined h1 h2 h (t := t) .step
  cases hn : s.next t .step with
  | to s' => exact ⟨s', rfl⟩
  | ub => exact absurd hn hu
  | blocked =>
    simp only [St.next, St.access] at hn
    split at hn
    · contradiction
    · cases hn
    · split at hn <;> cases hn
    · cases hn
    · split at hn <;> cases hn
    · cases hn
    · split at hn <;> cases hn
    · cases hn

/-- C98: `getChunk` finds the queue empty only if every chunk is with some thread, or a thread is in the middle
of returning the chunk that is next in the queue. -/
theorem C98_get_waits (h1 : 1 ≤ size) (h2 : size ≤ 2 ^ 32) (h : Reachable size s) {pos : Nat} (hp : s.pc t = .take)
    (hq : s.q.pc t = .deqSeq pos)
    (hf : (Mpmc.deqNext pos (s.q.seq (Mpmc.idx (capacity size) pos)) : Mpmc.Pc Nat) = .idle) :
    (∀ i, i < size → ∃ u, s.has u i) ∨
    ∃ u i, u ≠ t ∧ s.pc u = .give i ∧ (s.q.pc u).enqAt = some s.q.deqPos ∧ s.q.log[s.q.deqPos]? = some i := by
  obtain ⟨A, hA⟩ := h.rel h1 h2 Unit
  have e := h.size_eq
  have hi := hA.inv (by omega) (by omega)
  obtain ⟨k, hk, ek, _⟩ := capacity_pow h1 h2
  have hr := hA.q
  rw [e, ek] at hr
  rw [ek] at hf
  obtain ⟨rfl, hpub⟩ := Mpmc.C22_dequeue_fails_only_if_empty hk hr hq hf
  have hle := hi.deqLe
  by_cases hlt : s.q.deqPos < s.q.enqPos
  · right
    obtain ⟨u, hu⟩ := hi.wex _ hlt hpub
    have hut : u ≠ t := by rintro rfl; rw [hq] at hu; cases hu
    have hsy := hA.sync u
    have hpcs := hi.pcs u
    generalize hpu : s.pc u = p at hsy
    cases p with
    | give i =>
      rcases hsy with hx | ⟨p, hx⟩ | hx | ⟨p, hx⟩ | ⟨p, hx⟩ | ⟨p, hx⟩ <;> rw [hx] at hu hpcs <;> cases hu
      · exact ⟨u, i, hut, hpu, by rw [hx]; rfl, hpcs⟩
      · exact ⟨u, i, hut, hpu, by rw [hx]; rfl, hpcs.1⟩
    | take =>
      rcases hsy with hx | hx
      · rw [hx] at hu; cases hu
      · generalize s.q.pc u = qp at hx hu; cases qp <;> first | (cases hx; done) | (cases hu; done)
    | _ => rw [show s.q.pc u = .idle from hsy] at hu; cases hu
  · left
    have hw : t ∈ A.waiting := (hA.wait t).2 (by rw [St.waits_eq hp hq]; rfl)
    have hqe : A.b.queue = [] := by
      rw [hA.queue, Mpmc.St.items, List.drop_eq_nil_iff, hi.len]; omega
    have hst : A.step (.take t) = none := by
      simp only [RingSys.step, if_pos hw, Buffer.ringTake, hqe]
    obtain ⟨_, hall⟩ := C18_waits_only_if_all_loaned hA.reach t hw hst
    intro i hlt'
    obtain ⟨u, hu⟩ := hall i (by omega)
    exact ⟨u, has_iff.2 ((hA.holds u i).1 hu)⟩

theorem Rel.items_lt {A : RingSys ε} (h : Rel s A) {i : Nat} (hh : s.hand t = some i) :
    s.q.items.length < s.size := by
  have hm := (h.holds t i).2 (Or.inr hh)
  have hp := (ringInv h.reach).perm.length_eq
  simp only [List.length_append, List.length_map, List.length_range, List.length_range'] at hp
  rw [← h.queue]
  have := List.length_pos_of_mem hm
  omega

/-- C98: `returnChunk` finds the queue full only if another thread is in the middle of taking a chunk out of
the slot that is next: it has claimed that position, one round earlier, and not released it. -/
theorem C98_return_waits (h1 : 1 ≤ size) (h2 : size ≤ 2 ^ 32) (h : Reachable size s) {pos i : Nat} (hp : s.pc t = .give i)
    (hq : s.q.pc t = .enqSeq i pos) (hf : Mpmc.enqNext i pos (s.q.seq (Mpmc.idx (capacity size) pos)) = .idle) :
    ∃ u, u ≠ t ∧ s.pc u = .take ∧ capacity size ≤ s.q.enqPos ∧ (s.q.pc u).deqAt = some (s.q.enqPos - capacity size) := by
  obtain ⟨A, hA⟩ := h.rel h1 h2 Unit
  have e := h.size_eq
  have hi := hA.inv (by omega) (by omega)
  obtain ⟨k, hk, ek, hsz⟩ := capacity_pow h1 h2
  have hr := hA.q
  rw [e, ek] at hr
  rw [ek] at hf ⊢
  obtain ⟨rfl, hge, hrel⟩ := Mpmc.C22_enqueue_fails_only_if_full hk hr hq hf
  have hlt := hA.items_lt (t := t) (i := i) (by rw [St.hand_eq hp hq]; rfl)
  rw [Mpmc.St.items, List.length_drop, hi.len] at hlt
  obtain ⟨u, hu⟩ := hi.rex (s.q.enqPos - 2 ^ k) (by omega) hrel
  have hut : u ≠ t := by rintro rfl; rw [hq] at hu; cases hu
  refine ⟨u, hut, ?_, hge, hu⟩
  have hsy := hA.sync u
  generalize hpu : s.pc u = p at hsy
  cases p with
  | take => rfl
  | give j =>
    rcases hsy with hx | ⟨p, hx⟩ | hx | ⟨p, hx⟩ | ⟨p, hx⟩ | ⟨p, hx⟩ <;> rw [hx] at hu <;> cases hu
  | _ => rw [show s.q.pc u = .idle from hsy] at hu; cases hu

/-! ### Waiting for a thread that stands still -/

theorem next_other {v w : Nat} {c : Choice} (hs : s.next v c = .to s') (h : w ≠ v) :
    s'.pc w = s.pc w ∧ s'.q.pc w = s.q.pc w := by
  have acc : ∀ sp, s.access v sp = .to s' → s'.pc w = s.pc w ∧ s'.q.pc w = s.q.pc w := by
    intro sp hs
    unfold St.access at hs
    split at hs
    · cases hs
    · cases hs; exact ⟨goto_pc_ne s _ h, rfl⟩
    · split at hs <;> cases hs
      · exact ⟨rfl, Mpmc.goto_other _ _ h⟩
      · exact ⟨goto_pc_ne s _ h, qnext_other _ _ _ h⟩
      · exact ⟨rfl, qnext_other _ _ _ h⟩
    · cases hs
    · split at hs
      · cases hs; exact ⟨goto_pc_ne s _ h, rfl⟩
      · cases hs
    · cases hs; exact ⟨goto_pc_ne s _ h, rfl⟩
    · split at hs <;> cases hs
      · exact ⟨rfl, Mpmc.goto_other _ _ h⟩
      · exact ⟨goto_pc_ne s _ h, qnext_other _ _ _ h⟩
      · exact ⟨rfl, qnext_other _ _ _ h⟩
    · cases hs; exact ⟨goto_pc_ne s _ h, rfl⟩
  cases c with
  | step => exact acc _ hs
  | spurious => exact acc _ hs
  | get => simp only [St.next] at hs; split at hs <;> cases hs; exact ⟨goto_pc_ne s _ h, rfl⟩
  | ret i => simp only [St.next] at hs; split at hs <;> cases hs; exact ⟨goto_pc_ne s _ h, rfl⟩

/-- Only a successful compare-exchange changes a position; without one a thread that has claimed none stays in its
loop. -/
theorem qnext_stays (n : Nat) (q : Mpmc.St Nat) (t : Nat) (sp : Bool) :
    ((qnext n q t sp).enqPos = q.enqPos ∧ ((q.pc t).inEnq = true → (q.pc t).enqAt = none →
      ((qnext n q t sp).pc t).enqAt = none) ∨ ∃ x, q.pc t = .enqCas x q.enqPos) ∧
    ((qnext n q t sp).deqPos = q.deqPos ∧ ((q.pc t).inDeq = true → (q.pc t).deqAt = none →
      ((qnext n q t sp).pc t).deqAt = none) ∨ q.pc t = .deqCas q.deqPos) := by
  have hself : ∀ p, (q.goto t p).pc t = p := fun p => Mpmc.goto_self q t p
  generalize hq : q.pc t = qp
  cases qp with
  | idle => simp [qnext, hq, Mpmc.Pc.inEnq, Mpmc.Pc.inDeq]
  | enqSeq x pos =>
    simp only [qnext, hq, hself]
    refine ⟨Or.inl ⟨rfl, fun _ _ => ?_⟩, Or.inl ⟨rfl, fun h => by cases h⟩⟩
    rcases enqNext_cases x pos (q.seq (Mpmc.idx n pos)) with e | e | e <;> rw [e] <;> rfl
  | enqReload x =>
    simp only [qnext, hq, hself]
    exact ⟨Or.inl ⟨rfl, fun _ _ => rfl⟩, Or.inl ⟨rfl, fun h => by cases h⟩⟩
  | enqCas x pos =>
    simp only [qnext, hq]
    split
    · rename_i hc
      exact ⟨Or.inr ⟨x, by rw [hc.1]⟩, Or.inl ⟨rfl, fun h => by cases h⟩⟩
    · rw [hself]
      exact ⟨Or.inl ⟨rfl, fun _ _ => rfl⟩, Or.inl ⟨rfl, fun h => by cases h⟩⟩
  | enqWrite x pos =>
    simp only [qnext, hq]
    exact ⟨Or.inl ⟨rfl, fun _ h => by cases h⟩, Or.inl ⟨rfl, fun h => by cases h⟩⟩
  | enqPub x pos =>
    simp only [qnext, hq]
    exact ⟨Or.inl ⟨rfl, fun _ h => by cases h⟩, Or.inl ⟨rfl, fun h => by cases h⟩⟩
  | deqSeq pos =>
    simp only [qnext, hq, hself]
    refine ⟨Or.inl ⟨rfl, fun h => by cases h⟩, Or.inl ⟨rfl, fun _ _ => ?_⟩⟩
    rcases deqNext_cases pos (q.seq (Mpmc.idx n pos)) with e | e | e <;> rw [e] <;> rfl
  | deqReload =>
    simp only [qnext, hq, hself]
    exact ⟨Or.inl ⟨rfl, fun h => by cases h⟩, Or.inl ⟨rfl, fun _ _ => rfl⟩⟩
  | deqCas pos =>
    simp only [qnext, hq]
    split
    · rename_i hc
      exact ⟨Or.inl ⟨rfl, fun h => by cases h⟩, Or.inr (by rw [hc.1])⟩
    · rw [hself]
      exact ⟨Or.inl ⟨rfl, fun h => by cases h⟩, Or.inl ⟨rfl, fun _ _ => rfl⟩⟩
  | deqRead pos =>
    simp only [qnext, hq]
    exact ⟨Or.inl ⟨rfl, fun h => by cases h⟩, Or.inl ⟨rfl, fun _ h => by cases h⟩⟩
  | deqPub pos v =>
    simp only [qnext, hq]
    exact ⟨Or.inl ⟨rfl, fun h => by cases h⟩, Or.inl ⟨rfl, fun _ h => by cases h⟩⟩

/-- Passing on a chunk, no position claimed yet. -/
def St.giving (s : St) (t i : Nat) : Prop := s.pc t = .give i ∧ (s.q.pc t).enqAt = none

/-- Looking for a chunk, no position claimed yet. -/
def St.taking (s : St) (t : Nat) : Prop := s.pc t = .take ∧ (s.q.pc t).deqAt = none

theorem next_stays {A : RingSys ε} (hA : Rel s A) {v : Nat} {c : Choice} (hs : s.next v c = .to s') :
    ((s'.q.enqPos = s.q.enqPos ∧ ∀ i, s.giving v i → s'.giving v i) ∨ ∃ x, s.q.pc v = .enqCas x s.q.enqPos) ∧
    ((s'.q.deqPos = s.q.deqPos ∧ (s.taking v → s'.taking v)) ∨ s.q.pc v = .deqCas s.q.deqPos) := by
  have acc : ∀ sp, s.access v sp = .to s' →
      ((s'.q.enqPos = s.q.enqPos ∧ ∀ i, s.giving v i → s'.giving v i) ∨ ∃ x, s.q.pc v = .enqCas x s.q.enqPos) ∧
      ((s'.q.deqPos = s.q.deqPos ∧ (s.taking v → s'.taking v)) ∨ s.q.pc v = .deqCas s.q.deqPos) := by
    intro sp hs
    have hsy := hA.sync v
    obtain ⟨k1, k2⟩ := qnext_stays (capacity s.size) s.q v sp
    have hself : ∀ p, (s.q.goto v p).pc v = p := fun p => Mpmc.goto_self s.q v p
    have no : ∀ {p : Pc}, s.pc v = p → (∀ i, p ≠ .give i) → p ≠ .take →
        (∀ i, s.giving v i → s'.giving v i) ∧ (s.taking v → s'.taking v) := by
      intro p hp h1 h2
      exact ⟨fun i hg => absurd (hp.symm.trans hg.1) (h1 i), fun hg => absurd (hp.symm.trans hg.1) h2⟩
    unfold St.access at hs
    split at hs
    · cases hs
    · rename_i hp
      obtain ⟨n1, n2⟩ := no hp (by simp) (by simp)
      cases hs
      exact ⟨Or.inl ⟨rfl, n1⟩, Or.inl ⟨rfl, n2⟩⟩
    · rename_i hp
      rw [hp] at hsy
      have ng : ∀ i, ¬ s.giving v i := fun i hg => by have := hg.1; rw [hp] at this; cases this
      split at hs <;> rename_i hq <;> cases hs
      · refine ⟨Or.inl ⟨rfl, fun i hg => absurd hg (ng i)⟩, Or.inl ⟨rfl, fun _ => ⟨hp, ?_⟩⟩⟩
        show ((s.q.goto v _).pc v).deqAt = none
        rw [hself]; rfl
      · refine ⟨k1.imp_left fun h => ⟨h.1, fun i hg => absurd hg (ng i)⟩, k2.imp_left fun h => ⟨h.1, fun hg => ?_⟩⟩
        have := hg.2; rw [hq] at this; cases this
      · refine ⟨k1.imp_left fun h => ⟨h.1, fun i hg => absurd hg (ng i)⟩,
          k2.imp_left fun h => ⟨h.1, fun hg => ⟨hp, h.2 ?_ hg.2⟩⟩⟩
        exact hsy.resolve_left ‹s.q.pc v = .idle → False›
    · cases hs
    · rename_i i hp
      split at hs
      · obtain ⟨n1, n2⟩ := no hp (by simp) (by simp)
        cases hs
        exact ⟨Or.inl ⟨rfl, n1⟩, Or.inl ⟨rfl, n2⟩⟩
      · cases hs
    · rename_i i hp
      obtain ⟨n1, n2⟩ := no hp (by simp) (by simp)
      cases hs
      exact ⟨Or.inl ⟨rfl, n1⟩, Or.inl ⟨rfl, n2⟩⟩
    · rename_i i hp
      rw [hp] at hsy
      have ng : ¬ s.taking v := fun hg => by have := hg.1; rw [hp] at this; cases this
      split at hs <;> rename_i hq <;> cases hs
      · refine ⟨Or.inl ⟨rfl, fun j hg => ⟨hg.1, ?_⟩⟩, Or.inl ⟨rfl, fun hg => absurd hg ng⟩⟩
        show ((s.q.goto v _).pc v).enqAt = none
        rw [hself]; rfl
      · refine ⟨k1.imp_left fun h => ⟨h.1, fun j hg => ?_⟩, k2.imp_left fun h => ⟨h.1, fun hg => absurd hg ng⟩⟩
        have := hg.2; rw [hq] at this; cases this
      · refine ⟨k1.imp_left fun h => ⟨h.1, fun j hg => ⟨hg.1, h.2 ?_ hg.2⟩⟩,
          k2.imp_left fun h => ⟨h.1, fun hg => absurd hg ng⟩⟩
        rcases hsy with hx | ⟨p, hx⟩ | hx | ⟨p, hx⟩ | ⟨p, hx⟩ | ⟨p, hx⟩
        · exact absurd hx ‹s.q.pc v = .idle → False›
        all_goals rw [hx]; rfl
    · rename_i hp
      obtain ⟨n1, n2⟩ := no hp (by simp) (by simp)
      cases hs
      exact ⟨Or.inl ⟨rfl, n1⟩, Or.inl ⟨rfl, n2⟩⟩
  have idle : s.pc v = .idle → s'.q = s.q →
      ((s'.q.enqPos = s.q.enqPos ∧ ∀ i, s.giving v i → s'.giving v i) ∨ ∃ x, s.q.pc v = .enqCas x s.q.enqPos) ∧
      ((s'.q.deqPos = s.q.deqPos ∧ (s.taking v → s'.taking v)) ∨ s.q.pc v = .deqCas s.q.deqPos) := by
    intro hp e
    refine ⟨Or.inl ⟨by rw [e], fun i hg => ?_⟩, Or.inl ⟨by rw [e], fun hg => ?_⟩⟩
    · have := hg.1; rw [hp] at this; cases this
    · have := hg.1; rw [hp] at this; cases this
  cases c with
  | step => exact acc _ hs
  | spurious => exact acc _ hs
  | get => simp only [St.next] at hs; split at hs <;> cases hs; exact idle (by assumption) rfl
  | ret i => simp only [St.next] at hs; split at hs <;> cases hs; exact idle (And.left (by assumption)) rfl

/-- C98, against what a queue is there for: a thread that stands still in `getChunk`, between its claim of a position and
its release of the slot, keeps every thread in `returnChunk` that needs this slot in its loop, whatever the others do. -/
theorem C98_return_stuck (h1 : 1 ≤ size) (h2 : size ≤ 2 ^ 32) (h : Reachable size s) (hc : capacity size ≤ s.q.enqPos)
    (hu : (s.q.pc u).deqAt = some (s.q.enqPos - capacity size)) {l : List (Nat × Choice)} (hl : ∀ p ∈ l, p.1 ≠ u)
    (hr : s.run l = .to s') : s'.q.enqPos = s.q.enqPos ∧ ∀ t i, s.giving t i → s'.giving t i := by
  induction l generalizing s with
  | nil => cases hr; exact ⟨rfl, fun _ _ hg => hg⟩
  | cons p l ih =>
    obtain ⟨v, c⟩ := p
    simp only [St.run] at hr
    split at hr
    · rename_i s1 hs
      obtain ⟨A, hA⟩ := h.rel h1 h2 Unit
      have e := h.size_eq
      have hi := hA.inv (by omega) (by omega)
      have hvu : v ≠ u := hl (v, c) (by simp)
      have hsame : s1.q.enqPos = s.q.enqPos ∧ ∀ i, s.giving v i → s1.giving v i := by
        rcases (next_stays hA hs).1 with hx | ⟨x, hx⟩
        · exact hx
        · exfalso
          have := hi.pcs v
          rw [hx] at this
          have h3 := this.2 rfl (by rw [e]; exact hc)
          have h4 := (hi.rlt u _ hu).2
          rw [e, h4] at h3
          cases h3
      have hq := (next_other hs (Ne.symm hvu)).2
      obtain ⟨g1, g2⟩ := ih (.step h hs) (by rw [hsame.1]; exact hc) (by rw [hq, hsame.1]; exact hu)
        (fun p hp => hl p (List.mem_cons_of_mem _ hp)) hr
      refine ⟨by rw [g1, hsame.1], fun t i hg => g2 t i ?_⟩
      by_cases ht : t = v
      · subst ht; exact hsame.2 i hg
      · have := next_other hs ht
        exact ⟨by rw [this.1]; exact hg.1, by rw [this.2]; exact hg.2⟩
    · rename_i o hs
      exact absurd hr (hs _)

/-- C98: likewise a thread that stands still in `returnChunk`, between its claim of a position and its publication,
keeps every thread in `getChunk` in its loop once its chunk is next, although others may have been returned after it. -/
theorem C98_get_stuck (h1 : 1 ≤ size) (h2 : size ≤ 2 ^ 32) (h : Reachable size s)
    (hu : (s.q.pc u).enqAt = some s.q.deqPos) {l : List (Nat × Choice)} (hl : ∀ p ∈ l, p.1 ≠ u)
    (hr : s.run l = .to s') : s'.q.deqPos = s.q.deqPos ∧ ∀ t, s.taking t → s'.taking t := by
  induction l generalizing s with
  | nil => cases hr; exact ⟨rfl, fun _ hg => hg⟩
  | cons p l ih =>
    obtain ⟨v, c⟩ := p
    simp only [St.run] at hr
    split at hr
    · rename_i s1 hs
      obtain ⟨A, hA⟩ := h.rel h1 h2 Unit
      have e := h.size_eq
      have hi := hA.inv (by omega) (by omega)
      have hvu : v ≠ u := hl (v, c) (by simp)
      have hsame : s1.q.deqPos = s.q.deqPos ∧ (s.taking v → s1.taking v) := by
        rcases (next_stays hA hs).2 with hx | hx
        · exact hx
        · exfalso
          have := hi.pcs v
          rw [hx] at this
          have h3 : s.q.pub s.q.deqPos = true := this.2
          rw [(hi.wlt u _ hu).2] at h3
          cases h3
      have hq := (next_other hs (Ne.symm hvu)).2
      obtain ⟨g1, g2⟩ := ih (.step h hs) (by rw [hq, hsame.1]; exact hu)
        (fun p hp => hl p (List.mem_cons_of_mem _ hp)) hr
      refine ⟨by rw [g1, hsame.1], fun t hg => g2 t ?_⟩
      by_cases ht : t = v
      · subst ht; exact hsame.2 hg
      · have := next_other hs ht
        exact ⟨by rw [this.1]; exact hg.1, by rw [this.2]; exact hg.2⟩
    · rename_i o hs
      exact absurd hr (hs _)

theorem run_reachable {l : List (Nat × Choice)} (h : Reachable size s) (hr : s.run l = .to s') : Reachable size s' := by
  induction l generalizing s with
  | nil => cases hr; exact h
  | cons p l ih =>
    obtain ⟨v, c⟩ := p
    simp only [St.run] at hr
    split at hr
    · rename_i s1 hs; exact ih (.step h hs) hr
    · rename_i o hs; exact absurd hr (hs _)

theorem check_run {l : List (Nat × Choice)} {p : St → Bool}
    (h : (match (St.init size).run l with | .to s => p s | _ => false) = true) :
    ∃ s, (St.init size).run l = .to s ∧ p s = true := by
  split at h
  · exact ⟨_, by assumption, h⟩
  · cases h

/-- `n` steps of thread `t`. -/
def steps (t n : Nat) : List (Nat × Choice) := List.replicate n (t, .step)

/-- Two threads and two chunks: each gets and returns one; then thread 0 asks for one and stands still after its claim
of the first; thread 1 gets the second and returns it, which needs the slot of the first. -/
def stall : List (Nat × Choice) :=
  (0, .get) :: steps 0 3 ++ (1, .get) :: steps 1 3 ++ (0, .ret 0) :: steps 0 6 ++ (1, .ret 1) :: steps 1 6 ++
  (0, .get) :: steps 0 4 ++ (1, .get) :: steps 1 8 ++ [(1, .ret 1)]

/-- C98, the witness: two threads and two chunks are enough for `returnChunk`, and with it `logEvent` of the thread
that calls it, to go round for as long as another thread stands still in `getChunk`. It is not wait free, and not lock
free either. -/
theorem C98_refuted_wait_free : ∃ s, Reachable 2 s ∧ s.giving 1 1 ∧
    (∀ l s', (∀ p ∈ l, p.1 ≠ 0) → s.run l = .to s' → s'.giving 1 1) ∧
    ∀ m, ∃ s', s.run (steps 1 m) = .to s' := by
  obtain ⟨s, hr, hp⟩ := check_run (size := 2) (l := stall) (p := fun s =>
    s.pc 1 == .give 1 && (s.q.pc 1).enqAt == none && s.q.enqPos == 2 && (s.q.pc 0).deqAt == some 0) (by decide +kernel)
  simp only [Bool.and_eq_true, beq_iff_eq] at hp
  have h : Reachable 2 s := run_reachable .init hr
  have hcap : capacity 2 = 2 := by decide +kernel
  have hst : ∀ l s', (∀ p ∈ l, p.1 ≠ 0) → s.run l = .to s' → s'.giving 1 1 := fun l s' hl hr' =>
    (C98_return_stuck (u := 0) (by omega) (by omega) h (by rw [hcap, hp.1.2]; decide) (by rw [hcap, hp.1.2]; exact hp.2) hl hr').2 1 1
      ⟨hp.1.1.1, hp.1.1.2⟩
  refine ⟨s, h, ⟨hp.1.1.1, hp.1.1.2⟩, hst, fun m => ?_⟩
  have key : ∀ m (a : St), Reachable 2 a → (∃ l, (∀ p ∈ l, p.1 ≠ 0) ∧ s.run l = .to a) → ∃ s', a.run (steps 1 m) = .to s' := by
    intro m
    induction m with
    | zero => exact fun a _ _ => ⟨a, rfl⟩
    | succ m ih =>
      rintro a ha ⟨l, hl, hla⟩
      obtain ⟨b, hb⟩ := C98_never_blocked (t := 1) (by omega) (by omega) ha (by rw [(hst l a hl hla).1]; simp)
      have hrun : s.run (l ++ [(1, .step)]) = .to b := by
        have : ∀ (l : List (Nat × Choice)) (x : St), x.run l = .to a → x.run (l ++ [(1, .step)]) = .to b := by
          intro l
          induction l with
          | nil => intro x hx; cases hx; simp [St.run, hb]
          | cons p l ih2 =>
            intro x hx
            obtain ⟨v, c⟩ := p
            simp only [St.run, List.cons_append] at hx ⊢
            split at hx
            · exact ih2 _ hx
            · rename_i hs; exact absurd hx (hs _)
        exact this l s hla
      obtain ⟨s', hs'⟩ := ih b (.step ha hb) ⟨_, fun p hp => by
        rcases List.mem_append.1 hp with hp | hp
        · exact hl p hp
        · simp at hp; rw [hp]; simp, hrun⟩
      exact ⟨s', by simp only [steps, List.replicate_succ, St.run, hb]; exact hs'⟩
  exact key m s h ⟨[], fun _ hm => by simp at hm, rfl⟩

/-- Once thread 0 goes on, thread 1 is through. -/
example : ∃ s, (St.init 2).run (stall ++ steps 1 20 ++ steps 0 2 ++ steps 1 6) = .to s ∧ s.pc 1 = .idle ∧
    s.pc 0 = .reset (some 0) ∧ s.q.items = [1] := by
  obtain ⟨s, hr, hp⟩ := check_run (size := 2) (l := stall ++ steps 1 20 ++ steps 0 2 ++ steps 1 6) (p := fun s =>
    s.pc 1 == .idle && s.pc 0 == .reset (some 0) && s.q.items == [1]) (by decide +kernel)
  simp only [Bool.and_eq_true, beq_iff_eq] at hp
  exact ⟨s, hr, hp.1.1, hp.1.2, hp.2⟩

/-! ### No deadlock -/

/-- Thread `t`, if it runs alone, is through with `returnChunk` after at most `n` steps. -/
def Done (s : St) (t n : Nat) : Prop :=
  ∃ m s', m ≤ n ∧ s.run (steps t m) = .to s' ∧ s'.pc t = .idle ∧ s'.holds = s.holds

theorem Done.step {n : Nat} {s1 : St} (hs : s.next t .step = .to s1) (h : Done s1 t n) (he : s1.holds = s.holds := by rfl) :
    Done s t (n + 1) := by
  obtain ⟨m, s', hm, hr, hp, hh⟩ := h
  exact ⟨m + 1, s', by omega, by simp only [steps, List.replicate_succ, St.run, hs]; exact hr, hp, hh.trans he⟩

theorem Done.mono {m n : Nat} (h : Done s t m) (hmn : m ≤ n) : Done s t n := by
  obtain ⟨k, s', hk, hr⟩ := h
  exact ⟨k, s', by omega, hr⟩

theorem done_unlend (hp : s.pc t = .unlend) : Done s t 1 :=
  .step (s1 := { s.goto t .idle with onLoan := s.onLoan - 1 }) (by simp [St.next, St.access, hp]) ⟨0, _, Nat.le_refl _, rfl, goto_pc s t _, rfl⟩

theorem done_enqPub {i x pos : Nat} (hp : s.pc t = .give i) (hq : s.q.pc t = .enqPub x pos) : Done s t 2 :=
  .step (s1 := { s.goto t .unlend with q := qnext (capacity s.size) s.q t false }) (by simp [St.next, St.access, hp, hq]) (done_unlend (goto_pc s t _))

theorem done_enqWrite {i x pos : Nat} (hp : s.pc t = .give i) (hq : s.q.pc t = .enqWrite x pos) : Done s t 3 := by
  refine .step (s1 := { s with q := qnext (capacity s.size) s.q t false }) (by simp [St.next, St.access, hp, hq])
    (done_enqPub (x := x) (pos := pos) hp ?_)
  simp [qnext, hq, Mpmc.goto_self]

theorem done_enqCas {i x : Nat} (hp : s.pc t = .give i) (hq : s.q.pc t = .enqCas x s.q.enqPos) : Done s t 4 := by
  refine .step (s1 := { s with q := qnext (capacity s.size) s.q t false }) (by simp [St.next, St.access, hp, hq])
    (done_enqWrite (x := x) (pos := s.q.enqPos) hp ?_)
  simp [qnext, hq, Mpmc.goto_self]

/-- The slot for the next chunk is free. -/
def St.ready (s : St) : Prop := capacity s.size ≤ s.q.enqPos → s.q.rel (s.q.enqPos - capacity s.size) = true

theorem idx_capacity (h1 : 1 ≤ size) (h2 : size ≤ 2 ^ 32) (h : Reachable size s) (pos : Nat) :
    Mpmc.idx (capacity s.size) pos = pos % capacity s.size := by
  obtain ⟨k, _, ek, _⟩ := capacity_pow h1 h2
  rw [h.size_eq, ek, Mpmc.idx_eq]

theorem Reachable.inv (h : Reachable size s) (h1 : 1 ≤ size) (h2 : size ≤ 2 ^ 32) : Mpmc.Inv (capacity s.size) s.q := by
  obtain ⟨A, hA⟩ := h.rel h1 h2 Unit
  exact hA.inv (by rw [h.size_eq]; exact h1) (by rw [h.size_eq]; exact h2)

theorem done_enqSeq {i x : Nat} (h1 : 1 ≤ size) (h2 : size ≤ 2 ^ 32) (h : Reachable size s) (hr : s.ready)
    (hp : s.pc t = .give i) (hq : s.q.pc t = .enqSeq x s.q.enqPos) : Done s t 5 := by
  refine .step (s1 := { s with q := qnext (capacity s.size) s.q t false }) (by simp [St.next, St.access, hp, hq])
    (done_enqCas (x := x) hp ?_)
  have : s.q.seq (Mpmc.idx (capacity s.size) s.q.enqPos) = s.q.enqPos := by
    rw [idx_capacity h1 h2 h]; exact (h.inv h1 h2).enq_ready' hr
  simp [qnext, hq, Mpmc.goto_self, this, Mpmc.enqNext]
  rfl

theorem done_toSeq {i x : Nat} {s1 : St} (h1 : 1 ≤ size) (h2 : size ≤ 2 ^ 32) (h : Reachable size s) (hr : s.ready)
    (hp : s.pc t = .give i) (hs : s.next t .step = .to s1)
    (e : s1 = { s with q := s.q.goto t (.enqSeq x s.q.enqPos) }) : Done s t 6 := by
  refine .step hs (done_enqSeq (i := i) (x := x) h1 h2 (.step h hs) ?_ ?_ ?_) (by subst e; rfl) <;> subst e
  · exact hr
  · exact hp
  · exact Mpmc.goto_self _ _ _

/-- Thread `t` in `returnChunk` is through within seven steps once its position is claimed or the slot is free. -/
theorem done_give {i : Nat} (h1 : 1 ≤ size) (h2 : size ≤ 2 ^ 32) (h : Reachable size s) (hp : s.pc t = .give i)
    (hr : s.ready ∨ (s.q.pc t).enqAt ≠ none) : Done s t 7 := by
  obtain ⟨A, hA⟩ := h.rel h1 h2 Unit
  have hsy := hA.sync t
  rw [hp] at hsy
  rcases hsy with hq | ⟨p, hq⟩ | hq | ⟨p, hq⟩ | ⟨p, hq⟩ | ⟨p, hq⟩
  · have hr := hr.resolve_right (by rw [hq]; simp [Mpmc.Pc.enqAt])
    exact (done_toSeq h1 h2 h hr hp (x := i) (by simp [St.next, St.access, hp, hq]) rfl).mono (by omega)
  · have hr := hr.resolve_right (by rw [hq]; simp [Mpmc.Pc.enqAt])
    by_cases hc : p = s.q.enqPos
    · subst hc; exact (done_enqSeq h1 h2 h hr hp hq).mono (by omega)
    · have hs : s.next t .step = .to { s with q := qnext (capacity s.size) s.q t false } := by
        simp [St.next, St.access, hp, hq]
      have h' : Reachable size _ := .step h hs
      have hr' : St.ready { s with q := qnext (capacity s.size) s.q t false } := by
        simpa [St.ready, qnext, hq, Mpmc.St.goto] using hr
      rcases enqNext_cases i p (s.q.seq (Mpmc.idx (capacity s.size) p)) with e | e | e
      · exfalso
        obtain ⟨k, hk, ek, _⟩ := capacity_pow h1 h2
        have hm := hA.q
        rw [h.size_eq, ek] at hm e
        exact hc (Mpmc.C22_enqueue_fails_only_if_full hk hm hq e).1
      · refine .step hs (done_toSeq h1 h2 h' hr' hp (x := i) ?_ rfl)
        have hc' : ¬ s.q.enqPos = p := fun h => hc h.symm
        simp [St.next, St.access, hp, qnext, hq, e, Mpmc.St.goto, hc']
      · refine .step hs (done_toSeq h1 h2 h' hr' hp (x := i) ?_ rfl)
        simp [St.next, St.access, hp, qnext, hq, e, Mpmc.goto_self]
  · have hr := hr.resolve_right (by rw [hq]; simp [Mpmc.Pc.enqAt])
    refine (done_toSeq h1 h2 h hr hp (x := i) ?_ rfl).mono (by omega)
    simp [St.next, St.access, hp, hq, qnext]
  · have hr := hr.resolve_right (by rw [hq]; simp [Mpmc.Pc.enqAt])
    by_cases hc : p = s.q.enqPos
    · subst hc; exact (done_enqCas hp hq).mono (by omega)
    · have hc' : ¬ s.q.enqPos = p := fun h => hc h.symm
      refine (done_toSeq h1 h2 h hr hp (x := i) ?_ rfl).mono (by omega)
      simp [St.next, St.access, hp, hq, qnext, hc']
  · exact (done_enqWrite hp hq).mono (by omega)
  · exact (done_enqPub hp hq).mono (by omega)

/-- Some of thread `u`'s steps and then some of thread `t`'s take `s` to where `t` is through. -/
def Frees (s : St) (u t m n : Nat) : Prop :=
  ∃ a b s', a ≤ m ∧ b ≤ n ∧ s.run (steps u a ++ steps t b) = .to s' ∧ s'.pc t = .idle

theorem Frees.step {m n : Nat} {s1 : St} (hs : s.next u .step = .to s1) (h : Frees s1 u t m n) : Frees s u t (m + 1) n := by
  obtain ⟨a, b, s', ha, hb, hr, hp⟩ := h
  exact ⟨a + 1, b, s', by omega, hb, by simp only [steps, List.replicate_succ, List.cons_append, St.run, hs]; exact hr, hp⟩

theorem Done.frees {n : Nat} (h : Done s t n) (u : Nat) : Frees s u t 0 n := by
  obtain ⟨m, s', hm, hr, hp, _⟩ := h
  exact ⟨0, m, s', by omega, hm, by simpa [steps] using hr, hp⟩

theorem Frees.mono {m n m' n' : Nat} (h : Frees s u t m n) (hm : m ≤ m') (hn : n ≤ n') : Frees s u t m' n' := by
  obtain ⟨a, b, s', ha, hb, hr⟩ := h
  exact ⟨a, b, s', by omega, by omega, hr⟩

theorem deqAt_cases {q : Mpmc.Pc Nat} {p : Nat} (h : q.deqAt = some p) : q = .deqRead p ∨ ∃ v, q = .deqPub p v := by
  cases q <;> simp [Mpmc.Pc.deqAt] at h <;> subst h
  · exact Or.inl rfl
  · exact Or.inr ⟨_, rfl⟩

theorem enqAt_cases {q : Mpmc.Pc Nat} {p : Nat} (h : q.enqAt = some p) : (∃ x, q = .enqWrite x p) ∨ ∃ x, q = .enqPub x p := by
  cases q <;> simp [Mpmc.Pc.enqAt] at h <;> subst h
  · exact Or.inl ⟨_, rfl⟩
  · exact Or.inr ⟨_, rfl⟩

/-- In the loop of `returnChunk`. -/
theorem frees_give (h1 : 1 ≤ size) (h2 : size ≤ 2 ^ 32) (h : Reachable size s) {i : Nat} (hp : s.pc t = .give i) :
    ∃ u, Frees s u t 2 7 := by
  obtain ⟨A, hA⟩ := h.rel h1 h2 Unit
  have hi := h.inv h1 h2
  by_cases hr : s.ready ∨ (s.q.pc t).enqAt ≠ none
  · exact ⟨t, ((done_give h1 h2 h hp hr).frees t).mono (by omega) (by omega)⟩
  have hr1 : ¬ s.ready := fun h => hr (Or.inl h)
  have hn : (s.q.pc t).enqAt = none := Classical.byContradiction fun h => hr (Or.inr h)
  have hge : capacity s.size ≤ s.q.enqPos := Classical.byContradiction fun h => hr1 fun h' => absurd h' h
  have hrel : s.q.rel (s.q.enqPos - capacity s.size) = false := by
    cases hx : s.q.rel (s.q.enqPos - capacity s.size) with
    | false => rfl
    | true => exact absurd (fun _ => hx) hr1
  obtain ⟨k, hk, ek, hsz⟩ := capacity_pow h1 h2
  have hlt := hA.items_lt (t := t) (i := i) (by
    have hsy := hA.sync t
    rw [hp] at hsy
    rcases hsy with hx | ⟨p, hx⟩ | hx | ⟨p, hx⟩ | ⟨p, hx⟩ | ⟨p, hx⟩
    case inr.inr.inr.inr.inl => rw [hx] at hn; cases hn
    case inr.inr.inr.inr.inr => rw [hx] at hn; cases hn
    all_goals rw [St.hand_eq hp hx]; rfl)
  have e := h.size_eq
  have hlt' : s.q.enqPos - capacity s.size < s.q.deqPos := by
    rw [Mpmc.St.items, List.length_drop, hi.len] at hlt
    rw [e, ek] at hge ⊢
    omega
  obtain ⟨u, hu⟩ := hi.rex _ hlt' hrel
  have hut : t ≠ u := by
    rintro rfl
    have hsy := hA.sync t
    rw [hp] at hsy
    rcases hsy with hx | ⟨p, hx⟩ | hx | ⟨p, hx⟩ | ⟨p, hx⟩ | ⟨p, hx⟩ <;> rw [hx] at hu <;> cases hu
  have hpu : s.pc u = .take := by
    have hsy := hA.sync u
    generalize hpu : s.pc u = p at hsy
    cases p with
    | take => rfl
    | give j =>
      rcases hsy with hx | ⟨p, hx⟩ | hx | ⟨p, hx⟩ | ⟨p, hx⟩ | ⟨p, hx⟩ <;> rw [hx] at hu <;> cases hu
    | _ => rw [show s.q.pc u = .idle from hsy] at hu; cases hu
  have last : ∀ {s : St} {v : Option Nat}, Reachable size s → s.pc t = .give i → s.pc u = .take →
      s.q.pc u = .deqPub (s.q.enqPos - capacity s.size) v → Frees s u t 1 7 := by
    intro s v h hp hpu hqu
    have hs : s.next u .step = .to { s.goto u (.reset v) with q := qnext (capacity s.size) s.q u false } := by
      simp [St.next, St.access, hpu, hqu]
    refine .step hs ((done_give h1 h2 (.step h hs) (i := i) ?_ (Or.inl ?_)).frees u)
    · exact (goto_pc_ne s _ hut).trans hp
    · intro _
      show (qnext (capacity s.size) s.q u false).rel ((qnext (capacity s.size) s.q u false).enqPos - capacity s.size) = true
      simp [qnext, hqu, Mpmc.St.goto]
  refine ⟨u, ?_⟩
  rcases deqAt_cases hu with hqu | ⟨v, hqu⟩
  · have hs : s.next u .step = .to { s with q := qnext (capacity s.size) s.q u false } := by
      simp [St.next, St.access, hpu, hqu]
    refine .step hs (last (v := s.q.data (Mpmc.idx (capacity s.size) (s.q.enqPos - capacity s.size))) (.step h hs) hp hpu ?_)
    simp [qnext, hqu, Mpmc.goto_self]
    rfl
  · exact (last h hp hpu hqu).mono (by omega) (by omega)

/-- Thread `t`, if it runs alone, is through with `getChunk` after at most `n` steps, and has a chunk. -/
def Gets (s : St) (t n : Nat) : Prop :=
  ∃ m s', m ≤ n ∧ s.run (steps t m) = .to s' ∧ s'.pc t = .idle ∧ ∃ i, (t, i) ∈ s'.holds

theorem Gets.step {n : Nat} {s1 : St} (hs : s.next t .step = .to s1) (h : Gets s1 t n) : Gets s t (n + 1) := by
  obtain ⟨m, s', hm, hr, hp⟩ := h
  exact ⟨m + 1, s', by omega, by simp only [steps, List.replicate_succ, St.run, hs]; exact hr, hp⟩

theorem Gets.mono {m n : Nat} (h : Gets s t m) (hmn : m ≤ n) : Gets s t n := by
  obtain ⟨k, s', hk, hr⟩ := h
  exact ⟨k, s', by omega, hr⟩

theorem done_lend {i : Nat} (hp : s.pc t = .lend i) : Gets s t 1 :=
  .step (s1 := { s.goto t .idle with onLoan := s.onLoan + 1, holds := (t, i) :: s.holds })
    (by simp [St.next, St.access, hp]) ⟨0, _, Nat.le_refl _, rfl, goto_pc s t _, i, by simp⟩

theorem done_reset {o : Option Nat} (h1 : 1 ≤ size) (h2 : size ≤ 2 ^ 32) (h : Reachable size s)
    (hp : s.pc t = .reset o) : Gets s t 2 := by
  have hd := C98_defined h1 h2 h (t := t) .step
  cases o with
  | none => simp [St.next, St.access, hp] at hd
  | some i =>
    by_cases hi : i < s.size
    · exact .step (s1 := { s.goto t (.lend i) with owner := setf s.owner i (some t) })
        (by simp [St.next, St.access, hp, hi]) (done_lend (goto_pc s t _))
    · simp [St.next, St.access, hp, hi] at hd

theorem done_deqPub {pos : Nat} {v : Option Nat} (h1 : 1 ≤ size) (h2 : size ≤ 2 ^ 32) (h : Reachable size s)
    (hp : s.pc t = .take) (hq : s.q.pc t = .deqPub pos v) : Gets s t 3 := by
  have hs : s.next t .step = .to { s.goto t (.reset v) with q := qnext (capacity s.size) s.q t false } := by
    simp [St.next, St.access, hp, hq]
  exact .step hs (done_reset h1 h2 (.step h hs) (goto_pc s t _))

theorem done_deqRead {pos : Nat} (h1 : 1 ≤ size) (h2 : size ≤ 2 ^ 32) (h : Reachable size s)
    (hp : s.pc t = .take) (hq : s.q.pc t = .deqRead pos) : Gets s t 4 := by
  have hs : s.next t .step = .to { s with q := qnext (capacity s.size) s.q t false } := by
    simp [St.next, St.access, hp, hq]
  refine .step hs (done_deqPub (pos := pos) (v := s.q.data (Mpmc.idx (capacity s.size) pos)) h1 h2 (.step h hs) hp ?_)
  simp [qnext, hq, Mpmc.goto_self]

theorem done_deqCas (h1 : 1 ≤ size) (h2 : size ≤ 2 ^ 32) (h : Reachable size s)
    (hp : s.pc t = .take) (hq : s.q.pc t = .deqCas s.q.deqPos) : Gets s t 5 := by
  have hs : s.next t .step = .to { s with q := qnext (capacity s.size) s.q t false } := by
    simp [St.next, St.access, hp, hq]
  refine .step hs (done_deqRead (pos := s.q.deqPos) h1 h2 (.step h hs) hp ?_)
  simp [qnext, hq, Mpmc.goto_self]

theorem done_deqSeq (h1 : 1 ≤ size) (h2 : size ≤ 2 ^ 32) (h : Reachable size s) (hr : s.q.pub s.q.deqPos = true)
    (hp : s.pc t = .take) (hq : s.q.pc t = .deqSeq s.q.deqPos) : Gets s t 6 := by
  have hs : s.next t .step = .to { s with q := qnext (capacity s.size) s.q t false } := by
    simp [St.next, St.access, hp, hq]
  refine .step hs (done_deqCas h1 h2 (.step h hs) hp ?_)
  have hi := h.inv h1 h2
  have : s.q.seq (Mpmc.idx (capacity s.size) s.q.deqPos) = s.q.deqPos + 1 := by
    rw [idx_capacity h1 h2 h]
    refine (hi.full _ hr ?_).1
    cases hx : s.q.rel s.q.deqPos with
    | false => rfl
    | true => have := hi.relLt _ hx; omega
  simp [qnext, hq, Mpmc.goto_self, this, Mpmc.deqNext]
  rfl

theorem done_toDeqSeq {s1 : St} (h1 : 1 ≤ size) (h2 : size ≤ 2 ^ 32) (h : Reachable size s)
    (hr : s.q.pub s.q.deqPos = true) (hp : s.pc t = .take) (hs : s.next t .step = .to s1)
    (e : s1 = { s with q := s.q.goto t (.deqSeq s.q.deqPos) }) : Gets s t 7 := by
  refine .step hs (done_deqSeq h1 h2 (.step h hs) ?_ ?_ ?_) <;> subst e
  · exact hr
  · exact hp
  · exact Mpmc.goto_self _ _ _

/-- Thread `t` in the loop of `getChunk` is through within eight steps once its position is claimed or a chunk has
been published at the next one. -/
theorem done_take (h1 : 1 ≤ size) (h2 : size ≤ 2 ^ 32) (h : Reachable size s) (hp : s.pc t = .take)
    (hr : s.q.pub s.q.deqPos = true ∨ (s.q.pc t).deqAt ≠ none) : Gets s t 8 := by
  obtain ⟨A, hA⟩ := h.rel h1 h2 Unit
  have hsy := hA.sync t
  rw [hp] at hsy
  generalize hq : s.q.pc t = qp at hsy hr
  cases qp with
  | idle =>
    have hr := hr.resolve_right (by simp [Mpmc.Pc.deqAt])
    exact (done_toDeqSeq h1 h2 h hr hp (by simp [St.next, St.access, hp, hq]) rfl).mono (by omega)
  | deqSeq p =>
    replace hr := hr.resolve_right (by simp [Mpmc.Pc.deqAt])
    by_cases hc : p = s.q.deqPos
    · subst hc; exact (done_deqSeq h1 h2 h hr hp hq).mono (by omega)
    · have hs : s.next t .step = .to { s with q := qnext (capacity s.size) s.q t false } := by
        simp [St.next, St.access, hp, hq]
      have h' : Reachable size _ := .step h hs
      have hr' : (qnext (capacity s.size) s.q t false).pub (qnext (capacity s.size) s.q t false).deqPos = true := by
        simpa [qnext, hq, Mpmc.St.goto] using hr
      rcases deqNext_cases p (s.q.seq (Mpmc.idx (capacity s.size) p)) with e | e | e
      · exfalso
        obtain ⟨k, hk, ek, _⟩ := capacity_pow h1 h2
        have hm := hA.q
        rw [h.size_eq, ek] at hm e
        exact hc (Mpmc.C22_dequeue_fails_only_if_empty hk hm hq e).1
      · refine .step hs (done_toDeqSeq h1 h2 h' hr' hp ?_ rfl)
        have hc' : ¬ s.q.deqPos = p := fun h => hc h.symm
        simp [St.next, St.access, hp, qnext, hq, e, Mpmc.St.goto, hc']
      · refine .step hs (done_toDeqSeq h1 h2 h' hr' hp ?_ rfl)
        simp [St.next, St.access, hp, qnext, hq, e, Mpmc.goto_self]
  | deqReload =>
    have hr := hr.resolve_right (by simp [Mpmc.Pc.deqAt])
    refine (done_toDeqSeq h1 h2 h hr hp ?_ rfl).mono (by omega)
    simp [St.next, St.access, hp, hq, qnext]
  | deqCas p =>
    have hr := hr.resolve_right (by simp [Mpmc.Pc.deqAt])
    by_cases hc : p = s.q.deqPos
    · subst hc; exact (done_deqCas h1 h2 h hp hq).mono (by omega)
    · have hc' : ¬ s.q.deqPos = p := fun h => hc h.symm
      refine (done_toDeqSeq h1 h2 h hr hp ?_ rfl).mono (by omega)
      simp [St.next, St.access, hp, hq, qnext, hc']
  | deqRead p => exact (done_deqRead h1 h2 h hp hq).mono (by omega)
  | deqPub p v => exact (done_deqPub h1 h2 h hp hq).mono (by omega)
  | _ => rcases hsy with hx | hx <;> cases hx

/-- Some of thread `u`'s steps and then some of thread `t`'s take `s` to where `t` is through and has a chunk. -/
def FreesGet (s : St) (u t m n : Nat) : Prop :=
  ∃ a b s', a ≤ m ∧ b ≤ n ∧ s.run (steps u a ++ steps t b) = .to s' ∧ s'.pc t = .idle ∧ ∃ i, (t, i) ∈ s'.holds

theorem FreesGet.step {m n : Nat} {s1 : St} (hs : s.next u .step = .to s1) (h : FreesGet s1 u t m n) :
    FreesGet s u t (m + 1) n := by
  obtain ⟨a, b, s', ha, hb, hr, hp⟩ := h
  exact ⟨a + 1, b, s', by omega, hb, by simp only [steps, List.replicate_succ, List.cons_append, St.run, hs]; exact hr, hp⟩

theorem Gets.frees {n : Nat} (h : Gets s t n) (u : Nat) : FreesGet s u t 0 n := by
  obtain ⟨m, s', hm, hr, hp⟩ := h
  exact ⟨0, m, s', by omega, hm, by simpa [steps] using hr, hp⟩

theorem FreesGet.mono {m n m' n' : Nat} (h : FreesGet s u t m n) (hm : m ≤ m') (hn : n ≤ n') : FreesGet s u t m' n' := by
  obtain ⟨a, b, s', ha, hb, hr⟩ := h
  exact ⟨a, b, s', by omega, by omega, hr⟩

/-- In the loop of `getChunk`, with a chunk in the queue. -/
theorem frees_take (h1 : 1 ≤ size) (h2 : size ≤ 2 ^ 32) (h : Reachable size s) (hp : s.pc t = .take)
    (hne : s.q.deqPos < s.q.enqPos ∨ (s.q.pc t).deqAt ≠ none) : ∃ u, FreesGet s u t 2 8 := by
  obtain ⟨A, hA⟩ := h.rel h1 h2 Unit
  have hi := h.inv h1 h2
  by_cases hr : s.q.pub s.q.deqPos = true ∨ (s.q.pc t).deqAt ≠ none
  · exact ⟨t, ((done_take h1 h2 h hp hr).frees t).mono (by omega) (by omega)⟩
  have hne := hne.resolve_right fun h => hr (Or.inr h)
  have hpub : s.q.pub s.q.deqPos = false := by
    cases hx : s.q.pub s.q.deqPos with
    | false => rfl
    | true => exact absurd (Or.inl hx) hr
  obtain ⟨u, hu⟩ := hi.wex _ hne hpub
  have hut : t ≠ u := by
    rintro rfl
    have hsy := hA.sync t
    rw [hp] at hsy
    rcases hsy with hx | hx
    · rw [hx] at hu; cases hu
    · generalize s.q.pc t = qp at hx hu; cases qp <;> first | (cases hx; done) | (cases hu; done)
  have hpu : ∃ j, s.pc u = .give j := by
    have hsy := hA.sync u
    generalize hpu : s.pc u = p at hsy
    cases p with
    | give j => exact ⟨j, rfl⟩
    | take =>
      rcases hsy with hx | hx
      · rw [hx] at hu; cases hu
      · generalize s.q.pc u = qp at hx hu; cases qp <;> first | (cases hx; done) | (cases hu; done)
    | _ => rw [show s.q.pc u = .idle from hsy] at hu; cases hu
  obtain ⟨j, hpu⟩ := hpu
  have last : ∀ {s : St} {x : Nat}, Reachable size s → s.pc t = .take → s.pc u = .give j →
      s.q.pc u = .enqPub x s.q.deqPos → FreesGet s u t 1 8 := by
    intro s x h hp hpu hqu
    have hs : s.next u .step = .to { s.goto u .unlend with q := qnext (capacity s.size) s.q u false } := by
      simp [St.next, St.access, hpu, hqu]
    refine .step hs ((done_take h1 h2 (.step h hs) ?_ (Or.inl ?_)).frees u)
    · exact (goto_pc_ne s _ hut).trans hp
    · show (qnext (capacity s.size) s.q u false).pub (qnext (capacity s.size) s.q u false).deqPos = true
      simp [qnext, hqu, Mpmc.St.goto]
  refine ⟨u, ?_⟩
  rcases enqAt_cases hu with ⟨x, hqu⟩ | ⟨x, hqu⟩
  · have hs : s.next u .step = .to { s with q := qnext (capacity s.size) s.q u false } := by
      simp [St.next, St.access, hpu, hqu]
    refine .step hs (last (x := x) (.step h hs) hp hpu ?_)
    simp [qnext, hqu, Mpmc.goto_self]
    rfl
  · exact (last h hp hpu hqu).mono (by omega) (by omega)

/-- Thread `t` can get through its call with at most `n` steps of its own and of one other thread, to a state as
described. -/
def St.canFinish (s : St) (t n : Nat) (Q : St → Prop) : Prop :=
  ∃ u l s', (∀ p ∈ l, p = (t, .step) ∨ p = (u, .step)) ∧ l.length ≤ n ∧ s.run l = .to s' ∧ s'.pc t = .idle ∧ Q s'

theorem Frees.canFinish {m n : Nat} (h : Frees s u t m n) : s.canFinish t (m + n) (fun _ => True) := by
  obtain ⟨a, b, s', ha, hb, hr, hp⟩ := h
  refine ⟨u, _, s', fun p hp => ?_, ?_, hr, hp, trivial⟩
  · rcases List.mem_append.1 hp with hp | hp
    · exact Or.inr (List.eq_of_mem_replicate hp)
    · exact Or.inl (List.eq_of_mem_replicate hp)
  · simp [steps]; omega

theorem FreesGet.canFinish {m n : Nat} (h : FreesGet s u t m n) :
    s.canFinish t (m + n) (fun s' => ∃ i, (t, i) ∈ s'.holds) := by
  obtain ⟨a, b, s', ha, hb, hr, hp⟩ := h
  refine ⟨u, _, s', fun p hp => ?_, ?_, hr, hp⟩
  · rcases List.mem_append.1 hp with hp | hp
    · exact Or.inr (List.eq_of_mem_replicate hp)
    · exact Or.inl (List.eq_of_mem_replicate hp)
  · simp [steps]; omega

theorem canFinish_step {n : Nat} {s1 : St} {Q : St → Prop} (hs : s.next t .step = .to s1)
    (h : s1.canFinish t n Q) : s.canFinish t (n + 1) Q := by
  obtain ⟨u, l, s', hl, hn, hr, hp⟩ := h
  refine ⟨u, (t, .step) :: l, s', fun p hp => ?_, by simpa using hn, by simpa only [St.run, hs] using hr, hp⟩
  rcases List.mem_cons.1 hp with rfl | hp
  · exact Or.inl rfl
  · exact hl p hp

theorem canFinish_mono {m n : Nat} {Q : St → Prop} (h : s.canFinish t m Q) (hmn : m ≤ n) : s.canFinish t n Q := by
  obtain ⟨u, l, s', hl, hm, hr⟩ := h
  exact ⟨u, l, s', hl, by omega, hr⟩

/-- C98, no deadlock: whatever the others have done and wherever they stand, a thread in `returnChunk` can get through
with nine steps, of its own and of one other thread: the one that is taking a chunk from the slot it needs. -/
theorem C98_return_possible (h1 : 1 ≤ size) (h2 : size ≤ 2 ^ 32) (h : Reachable size s)
    (hp : (∃ i, s.pc t = .give i) ∨ s.pc t = .unlend) : s.canFinish t 9 (fun _ => True) := by
  rcases hp with ⟨i, hp⟩ | hp
  · obtain ⟨u, hf⟩ := frees_give h1 h2 h hp
    exact hf.canFinish
  · exact canFinish_mono ((done_unlend hp).frees t).canFinish (by omega)

/-- C98, no deadlock: as long as some chunk is with no thread, a thread in `getChunk` can get through with eleven
steps, of its own and of one other thread: the one that is putting the next chunk into the queue; it then holds a
chunk. -/
theorem C98_get_possible (h1 : 1 ≤ size) (h2 : size ≤ 2 ^ 32) (h : Reachable size s)
    (hp : s.pc t = .count ∨ s.pc t = .take ∨ (∃ o, s.pc t = .reset o) ∨ ∃ i, s.pc t = .lend i)
    {i : Nat} (hi : i < size) (hfree : ∀ u, ¬ s.has u i) :
    s.canFinish t 11 (fun s' => ∃ j, (t, j) ∈ s'.holds) := by
  have take : ∀ {s : St}, Reachable size s → s.pc t = .take → (∀ u, ¬ s.has u i) → s.canFinish t 10 (fun s' => ∃ j, (t, j) ∈ s'.holds) := by
    intro s h hp hfree
    obtain ⟨A, hA⟩ := h.rel h1 h2 Unit
    have hinv := h.inv h1 h2
    have : ∃ u, FreesGet s u t 2 8 := by
      refine frees_take h1 h2 h hp ?_
      by_cases hd : (s.q.pc t).deqAt = none
      · left
        have hw : t ∈ A.waiting := (hA.wait t).2 (by
          generalize hq : s.q.pc t = qp at hd
          have hsy := hA.sync t
          rw [hp, hq] at hsy
          rw [St.waits_eq hp hq]
          cases qp <;> first | rfl | (cases hd; done) | (rcases hsy with hx | hx <;> cases hx; done))
        apply Classical.byContradiction
        intro hlt
        have hqe : A.b.queue = [] := by
          rw [hA.queue, Mpmc.St.items, List.drop_eq_nil_iff, hinv.len]; omega
        have hst : A.step (.take t) = none := by
          simp only [RingSys.step, if_pos hw, Buffer.ringTake, hqe]
        obtain ⟨_, hall⟩ := C18_waits_only_if_all_loaned hA.reach t hw hst
        obtain ⟨u, hu⟩ := hall i (by rw [h.size_eq]; exact hi)
        exact hfree u (has_iff.2 ((hA.holds u i).1 hu))
      · exact Or.inr hd
    obtain ⟨u, hf⟩ := this
    exact hf.canFinish
  rcases hp with hp | hp | ⟨o, hp⟩ | ⟨j, hp⟩
  · obtain ⟨s1, hs⟩ := C98_never_blocked (t := t) h1 h2 h (by rw [hp]; simp)
    refine canFinish_step hs ?_
    have h' : Reachable size s1 := .step h hs
    have e : s1 = { s.goto t (if s.counter ≥ s.size then .take else .reset (some s.counter)) with
        counter := s.counter + 1 } := by
      simp only [St.next, St.access, hp] at hs
      cases hs; rfl
    by_cases hc : s.counter ≥ s.size
    · rw [if_pos hc] at e
      have hp1 : s1.pc t = .take := by subst e; exact goto_pc s t _
      refine take h' hp1 fun u hu => hfree u ?_
      have hq0 : s.q.pc t = .idle := by
        obtain ⟨A, hA⟩ := h.rel h1 h2 Unit
        have := hA.sync t
        rw [hp] at this; exact this
      by_cases hut : u = t
      · subst hut
        unfold St.has at hu ⊢
        rw [hp1] at hu
        rcases hu with hu | hu | hu | ⟨hu, _⟩ | ⟨_, pos, hu, _⟩
        · left; subst e; exact hu
        · cases hu
        · cases hu
        · cases hu
        · subst e
          have hu : (s.q.pc u).deqAt = some pos := hu
          rw [hq0] at hu; cases hu
      · unfold St.has at hu ⊢
        rw [(next_other hs hut).1, (next_other hs hut).2] at hu
        subst e; exact hu
    · rw [if_neg hc] at e
      have hp1 : s1.pc t = .reset (some s.counter) := by subst e; exact goto_pc s t _
      exact canFinish_mono ((done_reset h1 h2 h' hp1).frees t).canFinish (by omega)
  · exact canFinish_mono (take h hp hfree) (by omega)
  · exact canFinish_mono ((done_reset h1 h2 h hp).frees t).canFinish (by omega)
  · exact canFinish_mono ((done_lend hp).frees t).canFinish (by omega)

/-! ### on_loan -/

/-- In `returnChunk`. -/
def Pc.returning : Pc → Bool
  | .give _ | .unlend => true
  | _ => false

/-- C98: `on_loan` counts the chunks threads hold and, besides them, those in `returnChunk`, even after they have
been put into the queue. -/
theorem C98_on_loan (h : Reachable size s) : ∃ T : List Nat, T.Nodup ∧ (∀ t, t ∈ T ↔ (s.pc t).returning = true) ∧
    s.onLoan = s.holds.length + T.length := by
  induction h with
  | init => exact ⟨[], List.nodup_nil, fun t => by simp [St.init, Pc.returning], rfl⟩
  | @step s s' t c hr hs ih =>
    obtain ⟨T, hT, hm, hl⟩ := ih
    have same : s'.holds = s.holds → s'.onLoan = s.onLoan → (s'.pc t).returning = (s.pc t).returning →
        ∃ T : List Nat, T.Nodup ∧ (∀ t, t ∈ T ↔ (s'.pc t).returning = true) ∧
          s'.onLoan = s'.holds.length + T.length := by
      intro e1 e2 e3
      refine ⟨T, hT, fun u => ?_, by rw [e1, e2]; exact hl⟩
      by_cases hu : u = t
      · subst hu; rw [e3]; exact hm u
      · rw [(next_other hs hu).1]; exact hm u
    have acc : ∀ sp, s.access t sp = .to s' → ∃ T : List Nat, T.Nodup ∧
        (∀ t, t ∈ T ↔ (s'.pc t).returning = true) ∧ s'.onLoan = s'.holds.length + T.length := by
      intro sp ha
      unfold St.access at ha
      split at ha
      · cases ha
      · rename_i hp
        cases ha
        refine same rfl rfl ?_
        show ((s.goto t _).pc t).returning = _
        rw [goto_pc, hp]; split <;> rfl
      · rename_i hp
        split at ha <;> cases ha
        · exact same rfl rfl rfl
        · refine same rfl rfl ?_
          show ((s.goto t _).pc t).returning = _
          rw [goto_pc, hp]; rfl
        · exact same rfl rfl rfl
      · cases ha
      · rename_i hp
        split at ha <;> cases ha
        refine same rfl rfl ?_
        show ((s.goto t _).pc t).returning = _
        rw [goto_pc, hp]; rfl
      · rename_i i hp
        cases ha
        refine ⟨T, hT, fun u => ?_, ?_⟩
        · show u ∈ T ↔ ((s.goto t _).pc u).returning = true
          by_cases hu : u = t
          · subst hu; rw [goto_pc, hm u, hp]; rfl
          · rw [goto_pc_ne s _ hu]; exact hm u
        · show s.onLoan + 1 = (((t, i) :: s.holds).length : Int) + _
          rw [hl, List.length_cons]; push_cast; omega
      · rename_i i hp
        split at ha <;> cases ha
        · exact same rfl rfl rfl
        · refine same rfl rfl ?_
          show ((s.goto t _).pc t).returning = _
          rw [goto_pc, hp]; rfl
        · exact same rfl rfl rfl
      · rename_i hp
        cases ha
        have ht : t ∈ T := (hm t).2 (by rw [hp]; rfl)
        refine ⟨T.erase t, hT.erase t, fun u => ?_, ?_⟩
        · show u ∈ T.erase t ↔ ((s.goto t _).pc u).returning = true
          rw [hT.mem_erase_iff]
          by_cases hu : u = t
          · subst hu; rw [goto_pc]; simp [Pc.returning]
          · rw [goto_pc_ne s _ hu, hm u]; simp [hu]
        · show s.onLoan - 1 = (s.holds.length : Int) + _
          have := List.length_pos_of_mem ht
          rw [hl, List.length_erase_of_mem ht]; omega
    cases c with
    | step => exact acc _ hs
    | spurious => exact acc _ hs
    | get =>
      simp only [St.next] at hs
      split at hs
      · rename_i hp
        cases hs
        refine same rfl rfl ?_
        rw [goto_pc, hp]; rfl
      · cases hs
    | ret i =>
      simp only [St.next] at hs
      split at hs
      · rename_i hp
        cases hs
        have ht : t ∉ T := fun h => by have := (hm t).1 h; rw [hp.1] at this; cases this
        refine ⟨t :: T, List.nodup_cons.2 ⟨ht, hT⟩, fun u => ?_, ?_⟩
        · show u ∈ t :: T ↔ ((s.goto t _).pc u).returning = true
          by_cases hu : u = t
          · subst hu; rw [goto_pc]; simp [Pc.returning]
          · rw [goto_pc_ne s _ hu, List.mem_cons, hm u]; simp [hu]
        · show s.onLoan = ((s.holds.erase (t, i)).length : Int) + ((t :: T).length : Int)
          have := List.length_pos_of_mem hp.2
          rw [hl, List.length_erase_of_mem hp.2, List.length_cons]; omega
      · cases hs

theorem length_le_of_mem {α : Type} [BEq α] [LawfulBEq α] {l m : List α} (hl : l.Nodup) (h : ∀ v ∈ l, v ∈ m) :
    l.length ≤ m.length := by
  induction l generalizing m with
  | nil => simp
  | cons a l ih =>
    have ⟨ha, hl⟩ := List.nodup_cons.1 hl
    have hm := h a (by simp)
    have := ih (m := m.erase a) hl fun v hv => by
      have : v ≠ a := by rintro rfl; exact ha hv
      exact (List.mem_erase_of_ne this).2 (h v (by simp [hv]))
    rw [List.length_erase_of_mem hm] at this
    have := List.length_pos_of_mem hm
    simp; omega

/-- C98: between calls `on_loan` is the number of chunks with threads, and at most that of all chunks. -/
theorem C98_on_loan_quiet (h1 : 1 ≤ size) (h2 : size ≤ 2 ^ 32) (h : Reachable size s) (hq : ∀ t, (s.pc t).returning = false) :
    s.onLoan = s.holds.length ∧ s.holds.length ≤ size := by
  obtain ⟨T, _, hm, hl⟩ := C98_on_loan h
  have hT : T = [] := List.eq_nil_iff_forall_not_mem.2 fun t ht => by
    have := (hm t).1 ht; rw [hq t] at this; cases this
  refine ⟨by rw [hl, hT]; simp, ?_⟩
  obtain ⟨A, hA⟩ := h.rel h1 h2 Unit
  have hle : s.holds.length ≤ A.holds.length :=
    length_le_of_mem hA.nodup fun ⟨t, i⟩ hm => (hA.holds t i).2 (Or.inl hm)
  have hp := (ringInv hA.reach).perm.length_eq
  simp only [List.length_append, List.length_map, List.length_range, List.length_range'] at hp
  have e := h.size_eq
  omega

/-- C98, against C52: with one chunk, `on_loan` is 2 for a moment, since `returnChunk` lowers it only after the chunk
is in the queue, where `getChunk` of another thread finds it. -/
theorem C98_refuted_on_loan : ∃ s, Reachable 1 s ∧ s.onLoan = 2 := by
  obtain ⟨s, hr, hp⟩ := check_run (size := 1) (l := (0, .get) :: steps 0 3 ++ (0, .ret 0) :: steps 0 5 ++
    (1, .get) :: steps 1 8) (p := fun s => s.onLoan == 2) (by decide +kernel)
  exact ⟨s, run_reachable .init hr, by simpa using hp⟩

/-! ### Cases that meet the hypotheses -/

deriving instance DecidableEq for Mpmc.Pc

/-- C98_exclusive, C98_return_waits, C98_return_stuck, C98_return_possible: thread 1 has read the sequence number of
the slot that thread 0 has claimed and not released; each has a chunk. -/
example : ∃ s, Reachable 2 s ∧ s.has 0 0 ∧ s.has 1 1 ∧ s.pc 1 = .give 1 ∧ s.q.pc 1 = .enqSeq 1 2 ∧
    Mpmc.enqNext 1 2 (s.q.seq (Mpmc.idx (capacity 2) 2)) = .idle ∧ capacity 2 ≤ s.q.enqPos ∧
    (s.q.pc 0).deqAt = some (s.q.enqPos - capacity 2) := by
  obtain ⟨s, hr, hp⟩ := check_run (size := 2) (l := stall ++ steps 1 1) (p := fun s =>
    s.pc 0 == .take && (s.q.pc 0).deqAt == some 0 && s.q.log[0]? == some 0 && s.pc 1 == .give 1 &&
    s.q.pc 1 == .enqSeq 1 2 && Mpmc.enqNext 1 2 (s.q.seq (Mpmc.idx (capacity 2) 2)) == .idle && s.q.enqPos == 2)
    (by decide +kernel)
  simp only [Bool.and_eq_true, beq_iff_eq] at hp
  obtain ⟨⟨⟨⟨⟨⟨a, b⟩, c⟩, d⟩, e⟩, f⟩, g⟩ := hp
  have hcap : capacity 2 = 2 := by decide +kernel
  exact ⟨s, run_reachable .init hr, .inr (.inr (.inr (.inr ⟨a, 0, b, c⟩))),
    .inr (.inr (.inr (.inl ⟨d, by rw [e]; rfl⟩))), d, e, f, by rw [hcap, g]; decide, by rw [hcap, g]; exact b⟩

/-- C98_get_waits, first case: with one chunk, which thread 0 holds, thread 1 finds the queue empty. -/
example : ∃ s, Reachable 1 s ∧ s.pc 1 = .take ∧ s.q.pc 1 = .deqSeq 0 ∧
    (Mpmc.deqNext 0 (s.q.seq (Mpmc.idx (capacity 1) 0)) : Mpmc.Pc Nat) = .idle ∧ s.has 0 0 ∧ s.owner 0 = some 0 := by
  obtain ⟨s, hr, hp⟩ := check_run (size := 1) (l := (0, .get) :: steps 0 3 ++ (1, .get) :: steps 1 4) (p := fun s =>
    s.pc 1 == .take && s.q.pc 1 == .deqSeq 0 &&
    (Mpmc.deqNext 0 (s.q.seq (Mpmc.idx (capacity 1) 0)) : Mpmc.Pc Nat) == .idle && s.holds == [(0, 0)] &&
    s.owner 0 == some 0) (by decide +kernel)
  simp only [Bool.and_eq_true, beq_iff_eq] at hp
  obtain ⟨⟨⟨⟨a, b⟩, c⟩, d⟩, e⟩ := hp
  exact ⟨s, run_reachable .init hr, a, b, c, .inl (by rw [d]; simp), e⟩

/-- C98_get_waits, second case, C98_get_stuck and C98_get_possible: thread 0 stands still in `returnChunk` of chunk 0
after its claim, thread 1 has returned chunk 1 and asks for one; it goes round although no thread holds a chunk, until
thread 0 goes on. -/
example : ∃ s, Reachable 2 s ∧ s.taking 1 ∧ (s.q.pc 0).enqAt = some s.q.deqPos ∧ s.q.items = [0, 1] ∧
    s.holds = [] ∧ s.q.pc 1 = .deqSeq 0 ∧
    (Mpmc.deqNext 0 (s.q.seq (Mpmc.idx (capacity 2) 0)) : Mpmc.Pc Nat) = .idle ∧
    ∃ s', s.run (steps 1 20 ++ steps 0 2 ++ steps 1 6) = .to s' ∧ s'.pc 1 = .idle ∧ s'.holds = [(1, 0)] := by
  obtain ⟨s, hr, hp⟩ := check_run (size := 2) (l := (0, .get) :: steps 0 3 ++ (1, .get) :: steps 1 3 ++
    (0, .ret 0) :: steps 0 3 ++ (1, .ret 1) :: steps 1 6 ++ (1, .get) :: steps 1 2) (p := fun s =>
    s.pc 1 == .take && (s.q.pc 1).deqAt == none && (s.q.pc 0).enqAt == some s.q.deqPos && s.q.items == [0, 1] &&
    s.holds == [] && s.q.pc 1 == .deqSeq 0 &&
    (Mpmc.deqNext 0 (s.q.seq (Mpmc.idx (capacity 2) 0)) : Mpmc.Pc Nat) == .idle &&
    (match s.run (steps 1 20 ++ steps 0 2 ++ steps 1 6) with
      | .to s' => s'.pc 1 == .idle && s'.holds == [(1, 0)] | _ => false)) (by decide +kernel)
  simp only [Bool.and_eq_true, beq_iff_eq] at hp
  obtain ⟨⟨⟨⟨⟨⟨⟨a, b⟩, c⟩, d⟩, e⟩, f⟩, g⟩, h⟩ := hp
  refine ⟨s, run_reachable .init hr, ⟨a, b⟩, c, d, e, f, g, ?_⟩
  split at h
  · simp only [Bool.and_eq_true, beq_iff_eq] at h
    exact ⟨_, by assumption, h.1, h.2⟩
  · cases h

end Phosphor.RingConc
