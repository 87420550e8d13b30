import Verif.Proof.ChunkLockWeak
/-
Property C63: the chunk lock with the memory orders of the source, for any number of threads
and every execution of the release/acquire memory model of Verif/Model/Weak.lean.
-/
namespace Phosphor.ChunkLock.W
open Phosphor.Weak

/-- C63: at most one thread holds the lock, as slave or as master. -/
theorem C63_exclusive {w : St} (h : Reachable w) {t u : Nat} (ht : Holds w t) (hu : Holds w u) :
    t = u := by
  obtain ⟨top, hi⟩ := inv_reachable h
  exact hi.one t u ht hu

/-- C63: an access of the holder to the protected location is not a data race. -/
theorem C63_no_race {w : St} (h : Reachable w) {t : Nat} (ht : Holds w t) :
    ¬ w.mem.racyRead t () ∧ ¬ w.mem.racyWrite t () := by
  obtain ⟨top, hi⟩ := inv_reachable h
  have := hi.data _ (.inl ⟨t, ht, rfl⟩)
  constructor
  · rintro ⟨u, hu⟩; exact Nat.not_lt.2 (this u).1 hu
  · rintro ⟨u, hu | hu⟩
    · exact Nat.not_lt.2 (this u).1 hu
    · exact Nat.not_lt.2 (this u).2 hu

/-- Any number of steps. -/
inductive Steps : St → St → Prop
  | refl {w} : Steps w w
  | step {a b c} : Steps a b → Step b c → Steps a c

/-- C63: what a holder did and knew happened before everything a later holder does: its plain
accesses happened before, and no older value of any atomic can be read any more. -/
theorem C63_handover {w w' : St} (h : Reachable w) (hs : Steps w w') {t u : Nat}
    (ht : Holds w t) (hu : Holds w' u) :
    (∀ a, (w.mem.view t).clk a ≤ (w'.mem.view u).clk a) ∧
    ∀ l, (w.mem.view t).ts l ≤ (w'.mem.view u).ts l := by
  have key : ∃ top, Inv w' top ∧ ∃ v', LView w' top v' ∧ Le (w.mem.view t) v' := by
    clear hu
    induction hs with
    | refl =>
      obtain ⟨top, hi⟩ := inv_reachable h
      exact ⟨top, hi, _, .inl ⟨t, ht, rfl⟩, Le.refl _⟩
    | step _ hst ih =>
      obtain ⟨top, hi, v, hv, hle⟩ := ih
      obtain ⟨top', hi', hstep⟩ := inv_step hi hst
      obtain ⟨v', hv', hle'⟩ := hstep v hv
      exact ⟨top', hi', v', hv', hle.trans hle'⟩
  obtain ⟨top, hi, v, hv, hle⟩ := key
  rcases hv with ⟨a, h1, rfl⟩ | ⟨h1, _⟩
  · rw [hi.one a u h1 hu] at hle; exact ⟨hle.2, hle.1⟩
  · exact absurd hu (h1 u)

/-- C63: the assertions of a debug build hold: whatever message the compare-exchange of an unlock
reads, it has the expected value, and the exchange can store. -/
theorem C63_debug_assert {w : St} (h : Reachable w) {t ts : Nat} {m : Msg Loc State}
    (ht : Holds w t) (hr : w.mem.readable t .lock ts m) :
    some m.val = heldState (w.pc t) ∧ w.mem.hist .lock (ts + 1) = none := by
  obtain ⟨top, hi⟩ := inv_reachable h
  have h1 := (hi.held t ht).1
  have h2 := hi.le _ _ hr.1
  have h3 := hr.2
  have e : ts = top := by omega
  subst e
  refine ⟨(hi.held t ht).2 m hr.1, ?_⟩
  cases hn : w.mem.hist .lock (ts + 1) with
  | none => rfl
  | some m' => have := hi.le _ _ hn; omega

/-- C63: a free lock can be taken by any thread that asks for it: there is a message it may read
with which its exchange succeeds. -/
theorem C63_available {w : St} (h : Reachable w) (hn : ∀ u, ¬ Holds w u) {t : Nat} {d : State}
    {q : Pc} (ht : exchange (w.pc t) = some (d, q)) : ∃ w', Step w w' ∧ w'.pc t = q := by
  obtain ⟨top, hi⟩ := inv_reachable h
  obtain ⟨m, h1, h2⟩ := hi.topMsg
  obtain ⟨ts, m', h3, h4⟩ := (ok_reachable h).view t .lock
  refine ⟨_, .casOk (ts := top) ht ⟨h1, Nat.le_trans h3 (hi.le _ _ h4)⟩ (h2.2 hn) ?_, setf_self _ _ _⟩
  cases hn : w.mem.hist .lock (top + 1) with
  | none => rfl
  | some m' => have := hi.le _ _ hn; omega

/-- C63: `tryLockSlave` gives up only if it read that the master holds the lock. -/
theorem C63_try_fails {w w' : St} (hst : Step w w') {t : Nat} (ht : w.pc t = .tryS)
    (hi : w'.pc t = .idle) :
    ∃ ts m, w.mem.readable t .lock ts m ∧ m.val = .masterLocked := by
  have key : ∀ (u : Nat) (q : Pc), setf w.pc u q t = .idle → u = t ∧ q = .idle := by
    intro u q h
    by_cases e : t = u
    · subst e; rw [setf_self] at h; exact ⟨rfl, h⟩
    · rw [setf_ne _ _ e, ht] at h; cases h
  cases hst with
  | @casOk u d q ts m hex hr hm hf =>
    obtain ⟨rfl, rfl⟩ := key _ _ hi
    rw [ht] at hex; simp only [exchange] at hex; cases hex
  | @casFail u d q ts m hex hr =>
    obtain ⟨rfl, h1⟩ := key _ _ hi
    refine ⟨ts, m, hr, ?_⟩
    rw [ht] at h1; unfold afterFail at h1; split at h1
    · next h2 => exact h2.2
    · cases h1
  | @unlock u ts hu hf => obtain ⟨rfl, _⟩ := key _ _ hi; simp [Holds, ht] at hu
  | @unlockDebug u ts m hu hr hm hf => obtain ⟨rfl, _⟩ := key _ _ hi; simp [Holds, ht] at hu
  | @callLockS u hu => have := (key _ _ hi).2; cases this
  | @callTryS u hu => have := (key _ _ hi).2; cases this
  | @callLockM u hu => have := (key _ _ hi).2; cases this
  | other => exact absurd (ht.symm.trans hi) (by simp)
  | otherLoad => exact absurd (ht.symm.trans hi) (by simp)
  | otherStore => exact absurd (ht.symm.trans hi) (by simp)
  | otherRmw => exact absurd (ht.symm.trans hi) (by simp)
  | read => exact absurd (ht.symm.trans hi) (by simp)
  | write => exact absurd (ht.symm.trans hi) (by simp)

/-- C63 refuted for a single call: `tryLockSlave` may give up although nobody holds the lock,
because it read an outdated value. (`logEvent` then loses the event; harmless, since the value
was stored by a stop that did not happen before the call.) -/
theorem C63_refuted_spurious_fail : ∃ w w', Reachable w ∧ Step w w' ∧ (∀ u, w.pc u ≠ .heldS ∧
    w.pc u ≠ .heldM) ∧ w.pc 0 = .tryS ∧ w'.pc 0 = .idle := by
  have r := Reachable.init
  have r := r.step (.callLockM (t := 1) rfl)
  have r := r.step (.casOk (t := 1) (ts := 0) rfl ⟨rfl, Nat.le_refl _⟩ rfl rfl)
  have r := r.step (.unlock (t := 1) (ts := 2) (.inr rfl) ⟨rfl, by decide⟩)
  have r := r.step (.callTryS (t := 0) rfl)
  refine ⟨_, _, r, .casFail (t := 0) (ts := 1) rfl ⟨rfl, by decide⟩, ?_, rfl, rfl⟩
  intro u
  by_cases e : u = 0
  · subst e; exact ⟨by decide, by decide⟩
  · by_cases e1 : u = 1
    · subst e1; exact ⟨by decide, by decide⟩
    · simp [setf, e, e1, St.init]

/-- The claims above are about something: thread 0 writes as slave, then thread 1 as master, and
knows of the write of thread 0. -/
example : ∃ w, Reachable w ∧ w.pc 1 = .heldM ∧ w.mem.wr () 0 = 1 ∧ w.mem.wr () 1 = 1 ∧
    (w.mem.view 1).clk 0 = 1 := by
  have r := Reachable.init
  have r := r.step (.callTryS (t := 0) rfl)
  have r := r.step (.casOk (t := 0) (ts := 0) rfl ⟨rfl, Nat.le_refl _⟩ rfl rfl)
  have r := r.step (.write (t := 0) (.inl rfl))
  have r := r.step (.unlock (t := 0) (ts := 2) (.inl rfl) ⟨rfl, by decide⟩)
  have r := r.step (.callLockM (t := 1) rfl)
  have r := r.step (.casOk (t := 1) (ts := 2) rfl ⟨rfl, by decide⟩ rfl rfl)
  have r := r.step (.write (t := 1) (.inr rfl))
  exact ⟨_, r, rfl, rfl, rfl, rfl⟩

end Phosphor.ChunkLock.W
