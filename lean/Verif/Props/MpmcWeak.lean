import Verif.Proof.MpmcWeak
/-
Property C62: the bounded return queue with the memory orders of the source, for every
capacity 2^k with k ≥ 1, any number of threads and every execution of the release/acquire
memory model of Verif/Model/Weak.lean.
-/
namespace Phosphor.Mpmc.W
open Phosphor.Weak
variable {α : Type}

/-- C62: the store of an item into a slot never races with an earlier access to that slot. -/
theorem C62_write_no_race {k : Nat} (hk : 1 ≤ k) {w : St α} (h : Reachable (2 ^ k) w) {t p : Nat}
    {x : α} (hpc : w.pc t = .enqWrite x p) : ¬ w.mem.racyWrite t (idx (2 ^ k) p) := by
  obtain ⟨s, top, hr⟩ := rel_reachable hk h
  rw [hr.pc] at hpc
  have := (hr.own t (idx (2 ^ k) p) ⟨p, .inl (by rw [hpc]; rfl), (idx_eq _ _).symm⟩).2
  rintro ⟨u, hu | hu⟩
  · exact Nat.not_lt.2 (this u).1 hu
  · exact Nat.not_lt.2 (this u).2 hu

/-- C62: the read of an item from a slot never races with an earlier store to that slot. -/
theorem C62_read_no_race {k : Nat} (hk : 1 ≤ k) {w : St α} (h : Reachable (2 ^ k) w) {t p : Nat}
    (hpc : w.pc t = .deqRead p) : ¬ w.mem.racyRead t (idx (2 ^ k) p) := by
  obtain ⟨s, top, hr⟩ := rel_reachable hk h
  rw [hr.pc] at hpc
  have := (hr.own t (idx (2 ^ k) p) ⟨p, .inr (by rw [hpc]; rfl), (idx_eq _ _).symm⟩).2
  rintro ⟨u, hu⟩
  exact Nat.not_lt.2 (this u).1 hu

/-- C62: first in, first out: a finished dequeue that claimed the `p`-th dequeue position
carries the item of the `p`-th enqueue claim. -/
theorem C62_fifo {k : Nat} (hk : 1 ≤ k) {w : St α} (h : Reachable (2 ^ k) w) (p : Nat)
    (v : Option α) (hg : (p, v) ∈ w.got) : p < w.log.length ∧ v = w.log[p]? := by
  obtain ⟨s, top, hr⟩ := rel_reachable hk h
  rw [hr.got] at hg
  obtain ⟨h1, h2⟩ := hr.inv.gotOk p v hg
  have h3 := hr.inv.relLt p h1
  have h4 := hr.inv.deqLe
  rw [hr.log]
  exact ⟨by rw [hr.inv.len]; omega, h2.symm⟩

/-- C62: no two finished dequeues took the same item. -/
theorem C62_once {k : Nat} (hk : 1 ≤ k) {w : St α} (h : Reachable (2 ^ k) w) :
    (w.got.map Prod.fst).Nodup := by
  obtain ⟨s, top, hr⟩ := rel_reachable hk h
  rw [hr.got]; exact hr.inv.gotNodup

/-- C62: an item enters the history only in the step in which an `enqueue` call of some
thread claims its position, with the item of that call. -/
theorem C62_log {n : Nat} {w w' : St α} (hst : Step n w w') :
    w'.log = w.log ∨ ∃ t x pos, w.pc t = .enqCas x pos ∧ w'.pc t = .enqWrite x pos ∧
      w'.log = w.log ++ [x] := by
  cases hst with
  | @enqCasOk t x pos ts m hpc hr hv hf => exact Or.inr ⟨t, x, pos, hpc, by simp [St.goto], rfl⟩
  | _ => exact Or.inl rfl

/-- C62: a slot is only overwritten after its previous item has been read, and the items in
the queue never exceed its capacity. -/
theorem C62_no_overwrite {k : Nat} (hk : 1 ≤ k) {w : St α} (h : Reachable (2 ^ k) w) {t p : Nat}
    {x : α} (hpc : w.pc t = .enqWrite x p) (hp : 2 ^ k ≤ p) : w.rel (p - 2 ^ k) = true := by
  obtain ⟨s, top, hr⟩ := rel_reachable hk h
  rw [hr.pc] at hpc
  have := hr.inv.wlt t p (by rw [hpc]; rfl)
  rw [hr.rel]
  exact hr.inv.room p hp this.1

/-- Any number of steps. -/
inductive Steps (n : Nat) : St α → St α → Prop
  | refl {w} : Steps n w w
  | step {a b c} : Steps n a b → Step n b c → Steps n a c

theorem Steps.reachable {n : Nat} {a b : St α} (h : Steps n a b) (ha : Reachable n a) :
    Reachable n b := by
  induction h with
  | refl => exact ha
  | step _ hst ih => exact ih.step hst

theorem pub_stays {k : Nat} (hk : 1 ≤ k) {w w' : St α} (h : Reachable (2 ^ k) w)
    (hst : Step (2 ^ k) w w') {p : Nat} (hp : w.pub p = true) :
    w'.pub p = true ∧ w'.sent p = w.sent p := by
  obtain ⟨s, top, hr⟩ := rel_reachable hk h
  cases hst with
  | @enqPub t x pos ts hpc hf =>
    rw [hr.pc] at hpc
    have h1 := (hr.inv.wlt t pos (by rw [hpc]; rfl)).2
    rw [hr.pub] at hp
    have hne : p ≠ pos := by rintro rfl; rw [h1] at hp; cases hp
    refine ⟨?_, ?_⟩
    · show setf w.pub pos true p = true
      rw [setf_ne _ _ hne, hr.pub]; exact hp
    · show setf w.sent pos _ p = w.sent p
      rw [setf_ne _ _ hne]
  | _ => exact ⟨hp, rfl⟩

/-- C62: everything that happened before an item was published by its enqueuer `u` has
happened before the dequeue of that item returns, including all accesses `u` made itself. So
memory the item points to can be used by the new owner without a data race. -/
theorem C62_handover {k : Nat} (hk : 1 ≤ k) {w0 w1 w2 : St α} (h : Reachable (2 ^ k) w0)
    {t u p : Nat} {x : α} {v : Option α} (h0 : w0.pc u = .enqPub x p)
    (hst : Step (2 ^ k) w0 w1) (h1 : w1.pc u = .idle) (hs : Steps (2 ^ k) w1 w2)
    (h2 : w2.pc t = .deqPub p v) :
    ∀ a, (w0.mem.view u).clk a ≤ (w2.mem.view t).clk a := by
  have hr1 : Reachable (2 ^ k) w1 := h.step hst
  have hp1 : w1.pub p = true ∧ w1.sent p = (w0.mem.view u).clk := by
    have key : ∀ (t' : Nat) (q : Pc α), setf w0.pc t' q u = .idle → t' = u := by
      intro t' q hq
      apply Classical.byContradiction; intro hne
      have hne' : u ≠ t' := fun e => hne e.symm
      rw [setf_ne _ _ hne', h0] at hq
      cases hq
    cases hst with
    | @enqPub t' y pos ts hpc hf =>
      have := key t' _ h1; subst this
      rw [h0] at hpc; cases hpc
      exact ⟨by simp, by simp⟩
    | @other t' hpc =>
      have h1' : w0.pc u = .idle := h1
      rw [h0] at h1'; cases h1'
    | @callEnq t' y ts m hpc hr => have := key t' _ h1; subst this; rw [h0] at hpc; cases hpc
    | @enqSeq t' y pos ts m hpc hr => have := key t' _ h1; subst this; rw [h0] at hpc; cases hpc
    | @enqReload t' y ts m hpc hr => have := key t' _ h1; subst this; rw [h0] at hpc; cases hpc
    | @enqCasOk t' y pos ts m hpc hr hv hf =>
      have := key t' _ h1; subst this; rw [h0] at hpc; cases hpc
    | @enqCasFail t' y pos ts m hpc hr => have := key t' _ h1; subst this; rw [h0] at hpc; cases hpc
    | @enqWrite t' y pos hpc => have := key t' _ h1; subst this; rw [h0] at hpc; cases hpc
    | @callDeq t' ts m hpc hr => have := key t' _ h1; subst this; rw [h0] at hpc; cases hpc
    | @deqSeq t' pos ts m hpc hr => have := key t' _ h1; subst this; rw [h0] at hpc; cases hpc
    | @deqReload t' ts m hpc hr => have := key t' _ h1; subst this; rw [h0] at hpc; cases hpc
    | @deqCasOk t' pos ts m hpc hr hv hf =>
      have := key t' _ h1; subst this; rw [h0] at hpc; cases hpc
    | @deqCasFail t' pos ts m hpc hr => have := key t' _ h1; subst this; rw [h0] at hpc; cases hpc
    | @deqRead t' pos hpc => have := key t' _ h1; subst this; rw [h0] at hpc; cases hpc
    | @deqPub t' pos v ts hpc hf => have := key t' _ h1; subst this; rw [h0] at hpc; cases hpc
  have hp2 : w2.pub p = true ∧ w2.sent p = (w0.mem.view u).clk := by
    clear h2
    induction hs with
    | refl => exact hp1
    | step hs' hst' ih =>
      have h3 := pub_stays hk (hs'.reachable hr1) hst' ih.1
      exact ⟨h3.1, h3.2.trans ih.2⟩
  obtain ⟨s, top, hr⟩ := rel_reachable hk (hs.reachable hr1)
  rw [hr.pc] at h2
  intro a
  have := hr.sentOwn t p (by rw [h2]; rfl) a
  rw [hp2.2] at this
  exact this

/-- C62: `enqueue` reports a full queue only if the slot it needs is still occupied, or if it
saw an outdated sequence number: a newer one was stored that it had not yet been shown. -/
theorem C62_enqueue_fails {k : Nat} (hk : 1 ≤ k) {w : St α} (h : Reachable (2 ^ k) w)
    {t pos ts : Nat} {x : α} {m : Msg Loc Nat} (hpc : w.pc t = .enqSeq x pos)
    (hr : w.mem.readable t (.seq (idx (2 ^ k) pos)) ts m)
    (hfail : (enqNext x pos m.val : Pc α) = .idle) :
    (pos = w.log.length ∧ 2 ^ k ≤ pos ∧ w.rel (pos - 2 ^ k) = false) ∨
      ∃ ts' m', ts < ts' ∧ w.mem.hist (.seq (idx (2 ^ k) pos)) ts' = some m' ∧ m.val < m'.val := by
  obtain ⟨s, top, hR⟩ := rel_reachable hk h
  rw [hR.pc] at hpc
  have hp := hR.inv.pcs t; rw [hpc] at hp
  have hle : pos ≤ s.enqPos := hp
  have hlt : m.val < pos := by
    rcases enqNext_cases x pos m.val with ⟨h1, _⟩ | ⟨_, h2⟩ | ⟨h1, _⟩
    · rw [h1] at hfail; cases hfail
    · exact h2
    · rw [h1] at hfail; cases hfail
  by_cases hst : s.seq (pos % 2 ^ k) < pos
  · left
    obtain ⟨h1, h2, h3⟩ := hR.inv.enq_fail hle hst
    refine ⟨by rw [hR.log, hR.inv.len]; exact h1, h2, by rw [hR.rel]; exact h3⟩
  · right
    obtain ⟨m', hm', hv'⟩ := hR.topMsg (idx (2 ^ k) pos)
    rw [idx_eq] at hm' hv' hr ⊢
    refine ⟨top (pos % 2 ^ k), m', ?_, hm', by omega⟩
    have h1 := (hR.seqLe _ _ _ hr.1).2
    have h2 : ts ≠ top (pos % 2 ^ k) := by
      rintro rfl
      have := hr.1; rw [hm'] at this; cases this; omega
    omega

/-- C62: the same for `dequeue` and an empty queue. -/
theorem C62_dequeue_fails {k : Nat} (hk : 1 ≤ k) {w : St α} (h : Reachable (2 ^ k) w)
    {t pos ts : Nat} {m : Msg Loc Nat} (hpc : w.pc t = .deqSeq pos)
    (hr : w.mem.readable t (.seq (idx (2 ^ k) pos)) ts m)
    (hfail : (deqNext pos m.val : Pc α) = .idle) :
    w.pub pos = false ∨
      ∃ ts' m', ts < ts' ∧ w.mem.hist (.seq (idx (2 ^ k) pos)) ts' = some m' ∧ m.val < m'.val := by
  obtain ⟨s, top, hR⟩ := rel_reachable hk h
  rw [hR.pc] at hpc
  have hp := hR.inv.pcs t; rw [hpc] at hp
  have hle : pos ≤ s.deqPos := hp
  have hlt : m.val < pos + 1 := by
    rcases deqNext_cases (α := α) pos m.val with ⟨h1, _⟩ | ⟨_, h2⟩ | ⟨h1, _⟩
    · rw [h1] at hfail; cases hfail
    · exact h2
    · rw [h1] at hfail; cases hfail
  by_cases hst : s.seq (pos % 2 ^ k) < pos + 1
  · left
    rw [hR.pub]; exact (hR.inv.deq_fail hle hst).2
  · right
    obtain ⟨m', hm', hv'⟩ := hR.topMsg (idx (2 ^ k) pos)
    rw [idx_eq] at hm' hv' hr ⊢
    refine ⟨top (pos % 2 ^ k), m', ?_, hm', by omega⟩
    have h1 := (hR.seqLe _ _ _ hr.1).2
    have h2 : ts ≠ top (pos % 2 ^ k) := by
      rintro rfl
      have := hr.1; rw [hm'] at this; cases this; omega
    omega

/-- C62 refuted for the answer of a single call: with these memory orders `enqueue` may report
a full queue although the slot it needs has been emptied and nobody else is using the queue.
(`returnChunk`, trace_buffer.cc:224-228, repeats the call until it succeeds.) -/
theorem C62_refuted_spurious_full :
    ∃ (w : St Nat) (t x pos ts : Nat) (m : Msg Loc Nat), Reachable (2 ^ 1) w ∧
      w.pc t = .enqSeq x pos ∧ (∀ u, u ≠ t → w.pc u = .idle) ∧
      w.mem.readable t (.seq (idx (2 ^ 1) pos)) ts m ∧ (enqNext x pos m.val : Pc Nat) = .idle ∧
      pos = w.log.length ∧ w.rel (pos - 2 ^ 1) = true := by
  have r := Reachable.init (α := Nat) (n := 2 ^ 1)
  have r := r.step (.callEnq (t := 0) (x := 7) (ts := 0) rfl ⟨rfl, Nat.le_refl _⟩)
  have r := r.step (.enqSeq (t := 0) (ts := 0) rfl ⟨rfl, Nat.le_refl _⟩)
  have r := r.step (.enqCasOk (t := 0) (ts := 0) rfl ⟨rfl, Nat.le_refl _⟩ rfl ⟨rfl, by decide⟩)
  have r := r.step (.enqWrite (t := 0) rfl)
  have r := r.step (.enqPub (t := 0) (ts := 1) rfl ⟨rfl, by decide⟩)
  have r := r.step (.callEnq (t := 0) (x := 8) (ts := 1) rfl ⟨rfl, by decide⟩)
  have r := r.step (.enqSeq (t := 0) (ts := 0) rfl ⟨rfl, by decide⟩)
  have r := r.step (.enqCasOk (t := 0) (ts := 1) rfl ⟨rfl, by decide⟩ rfl ⟨rfl, by decide⟩)
  have r := r.step (.enqWrite (t := 0) rfl)
  have r := r.step (.enqPub (t := 0) (ts := 1) rfl ⟨rfl, by decide⟩)
  have r := r.step (.callDeq (t := 1) (ts := 0) rfl ⟨rfl, by decide⟩)
  have r := r.step (.deqSeq (t := 1) (ts := 1) rfl ⟨rfl, by decide⟩)
  have r := r.step (.deqCasOk (t := 1) (ts := 0) rfl ⟨rfl, by decide⟩ rfl ⟨rfl, by decide⟩)
  have r := r.step (.deqRead (t := 1) rfl)
  have r := r.step (.deqPub (t := 1) (ts := 2) rfl ⟨rfl, by decide⟩)
  have r := r.step (.callEnq (t := 0) (x := 9) (ts := 2) rfl ⟨rfl, by decide⟩)
  refine ⟨_, 0, 9, 2, 1, _, r, rfl, ?_, ⟨rfl, by decide⟩, rfl, rfl, rfl⟩
  intro u hu
  by_cases h1 : u = 1
  · subst h1; rfl
  · simp [St.goto, setf, hu, h1, St.init]

/-- The claims above are about something: thread 1 is reading the item thread 0 stored,
after thread 0 has made two other accesses; and a store into a slot that was read before. -/
example : ∃ w : St Nat, Reachable (2 ^ 1) w ∧ w.pc 1 = .deqPub 0 (some 7) ∧
    (w.mem.view 1).clk 0 = 3 := by
  have r := Reachable.init (α := Nat) (n := 2 ^ 1)
  have r := r.step (.other (t := 0) rfl)
  have r := r.step (.other (t := 0) rfl)
  have r := r.step (.callEnq (t := 0) (x := 7) (ts := 0) rfl ⟨rfl, Nat.le_refl _⟩)
  have r := r.step (.enqSeq (t := 0) (ts := 0) rfl ⟨rfl, Nat.le_refl _⟩)
  have r := r.step (.enqCasOk (t := 0) (ts := 0) rfl ⟨rfl, Nat.le_refl _⟩ rfl ⟨rfl, by decide⟩)
  have r := r.step (.enqWrite (t := 0) rfl)
  have r := r.step (.enqPub (t := 0) (ts := 1) rfl ⟨rfl, by decide⟩)
  have r := r.step (.callDeq (t := 1) (ts := 0) rfl ⟨rfl, by decide⟩)
  have r := r.step (.deqSeq (t := 1) (ts := 1) rfl ⟨rfl, by decide⟩)
  have r := r.step (.deqCasOk (t := 1) (ts := 0) rfl ⟨rfl, by decide⟩ rfl ⟨rfl, by decide⟩)
  have r := r.step (.deqRead (t := 1) rfl)
  exact ⟨_, r, rfl, rfl⟩

end Phosphor.Mpmc.W
