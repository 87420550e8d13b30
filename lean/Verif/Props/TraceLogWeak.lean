import Verif.Proof.TraceLogWeakSafe

/-!
# C65: the trace log is race free under release/acquire memory

Any number of threads log events, register, deregister, start, stop, restart, read statistics, take
the buffer, read it and destroy it, over a memory where an acquire load may return any store that
the thread does not know to be overwritten. No plain access is a data race, none touches a destroyed
buffer, and no null pointer is followed, provided that a stopped callback which runs because `start`
restarts tracing does not itself call `start`; without that proviso there is a race.
-/
namespace Phosphor.TLog.W
open Phosphor.Weak

/-- C65: no step of any execution reads a plain location some write of which the thread does not
know, or writes one some access to which it does not know. -/
theorem C65_no_race {w w' : St} (h : Reachable true w) (hs : Step true w w') (t : Nat) (d : Plain) :
    (w'.mem.rd d t ≠ w.mem.rd d t → ∀ u, w.mem.wr d u ≤ (w.mem.view t).clk u) ∧
    (w'.mem.wr d t ≠ w.mem.wr d t → ∀ u, w.mem.wr d u ≤ (w.mem.view t).clk u ∧
      w.mem.rd d u ≤ (w.mem.view t).clk u) := by
  obtain ⟨g, hg⟩ := inv_reachable h
  obtain ⟨h1, h2⟩ := hg.safe hs t d
  refine ⟨fun hc u => ?_, fun hc u => ?_⟩
  · exact Nat.le_of_not_lt fun hlt => (h1 hc).1 ⟨u, hlt⟩
  · exact ⟨Nat.le_of_not_lt fun hlt => (h2 hc).1 ⟨u, .inl hlt⟩,
      Nat.le_of_not_lt fun hlt => (h2 hc).1 ⟨u, .inr hlt⟩⟩

/-- C65: no step accesses the members or a chunk of a buffer that has been destroyed, so none
destroys a buffer twice either. -/
theorem C65_no_use_after_free {w w' : St} (h : Reachable true w) (hs : Step true w w') (t b i : Nat) :
    (w'.mem.rd (.obj b) t ≠ w.mem.rd (.obj b) t ∨ w'.mem.wr (.obj b) t ≠ w.mem.wr (.obj b) t ∨
      w'.mem.rd (.cell b i) t ≠ w.mem.rd (.cell b i) t ∨
      w'.mem.wr (.cell b i) t ≠ w.mem.wr (.cell b i) t) → w.freed b = false := by
  obtain ⟨g, hg⟩ := inv_reachable h
  have h1 := hg.safe hs t (.obj b)
  have h2 := hg.safe hs t (.cell b i)
  have p1 : part b (.obj b) = true := by simp [part]
  have p2 : part b (.cell b i) = true := by simp [part]
  rintro (hc | hc | hc | hc)
  · exact ((h1.1 hc).2 b p1).1
  · exact ((h1.2 hc).2 b p1).1
  · exact ((h2.1 hc).2 b p2).1
  · exact ((h2.2 hc).2 b p2).1

/-- C65: `buffer->returnChunk(*ct.chunk)` (line 305) finds a buffer, and it is the one the chunk
belongs to; so does the one in `deregisterThread` (line 222), if it is reached. -/
theorem C65_return {w : St} (h : Reachable true w) {t : Nat} {c : Chunk}
    (hp : w.pc t = .giveBack c ∨ ∃ d, w.pc t = .dReturn c d) :
    w.buf = some c.1 ∧ w.freed c.1 = false := by
  obtain ⟨g, hg⟩ := inv_reachable h
  have hc : held w t = some c := by
    rcases hp with hq | ⟨d, hq⟩
    · rw [held_eq, hq]; exact (hg.here hq).2
    · rw [held_eq, hq]; exact (hg.here hq).2.2.2
  have h1 := (hg.heldOk t c hc).1
  exact ⟨h1, (hg.bufOk _ h1).1⟩

/-- C65: a thread that stores an event has a chunk, of the current buffer, which nobody has taken
or destroyed. -/
theorem C65_write {w : St} (h : Reachable true w) {t : Nat} (hq : w.pc t = .write) :
    ∃ c, w.tc t = some c ∧ w.buf = some c.1 ∧ w.freed c.1 = false ∧ w.own c.1 = none := by
  obtain ⟨g, hg⟩ := inv_reachable h
  cases hc : w.tc t with
  | none => exact absurd hc (hg.here hq).2
  | some c =>
    have h1 := (hg.heldOk t c (by rw [held_eq, hq]; exact hc)).1
    refine ⟨c, rfl, h1, (hg.bufOk _ h1).1, ?_⟩
    cases ho : w.own c.1 with
    | none => rfl
    | some u => exact absurd h1 (hg.ownOk _ _ ho).2.1

/-- C65: no two threads store events in, or reset, the same chunk. -/
theorem C65_exclusive {w : St} (h : Reachable true w) {t u : Nat} {c : Chunk}
    (ht : (w.pc t = .write ∧ w.tc t = some c) ∨ w.pc t = .reset c)
    (hu : (w.pc u = .write ∧ w.tc u = some c) ∨ w.pc u = .reset c) : t = u := by
  obtain ⟨g, hg⟩ := inv_reachable h
  have key : ∀ x, (w.pc x = .write ∧ w.tc x = some c) ∨ w.pc x = .reset c → held w x = some c := by
    intro x hx
    rcases hx with ⟨h1, h2⟩ | h1
    · rw [held_eq, h1]; exact h2
    · rw [held_eq, h1]; rfl
  exact hg.heldInj t u c (key t ht) (key u hu)

/-- C65: while a thread owns a buffer it has taken, no other thread reads or writes it. -/
theorem C65_taken {w w' : St} (h : Reachable true w) (hs : Step true w w') {b t : Nat}
    (ho : w.own b = some t) {u : Nat} (hu : u ≠ t) {d : Plain}
    (hd : d = .obj b ∨ ∃ i, d = .cell b i) :
    w'.mem.wr d u = w.mem.wr d u ∧ w'.mem.rd d u = w.mem.rd d u := by
  obtain ⟨g, hg⟩ := inv_reachable h
  have hp : part b d = true := by
    rcases hd with rfl | ⟨i, rfl⟩ <;> simp [part]
  obtain ⟨h1, h2⟩ := hg.safe hs u d
  refine ⟨?_, ?_⟩
  · apply Classical.byContradiction
    intro hc
    exact hu (((h2 hc).2 b hp).2 t ho).symm
  · apply Classical.byContradiction
    intro hc
    exact hu (((h1 hc).2 b hp).2 t ho).symm

/-- C65: a thread that takes the buffer knows every event stored in it. -/
theorem C65_take_knows {w : St} (h : Reachable true w) {t b : Nat} (ho : w.own b = some t) {d : Plain}
    (hd : d = .obj b ∨ ∃ i, d = .cell b i) (u : Nat) :
    w.mem.wr d u ≤ (w.mem.view t).clk u := by
  obtain ⟨g, hg⟩ := inv_reachable h
  have hp : part b d = true := by
    rcases hd with rfl | ⟨i, rfl⟩ <;> simp [part]
  exact Nat.le_trans (wr_le_acc _ _ _) ((hg.ownOk b t ho).2.2.2 d hp u)

/-- Thread 0 starts tracing, thread 1 registers and logs an event. -/
theorem exLogged : ∃ w w' : St, Reachable true w ∧ Step true w w' ∧ Reachable true w' ∧
    w.pc 1 = .write ∧ w.tc 1 = some (0, 0) ∧ w'.mem.wr (.cell 0 0) 1 ≠ w.mem.wr (.cell 0 0) 1 ∧
    (w'.mem.view 0).clk 1 < w'.mem.wr (.cell 0 0) 1 := by
  have r := Reachable.init (pol := true)
  have r := r.step (.lockM (t := 0) rfl rfl)
  have r := r.step (.start (t := 0) rfl (fun _ => rfl))
  have r := r.step (.startOff (t := 0) (ts := 0) rfl ⟨rfl, by decide⟩ rfl)
  have r := r.step (.newBuf (t := 0) true 4 rfl)
  have r := r.step (.turnOn (t := 0) (ts := 1) rfl ⟨rfl, by decide⟩)
  have r := r.step (.unlockM (t := 0) rfl)
  have r := r.step (.lockM (t := 1) rfl rfl)
  have r := r.step (.register (t := 1) rfl rfl)
  have r := r.step (.unlockM (t := 1) rfl)
  have r := r.step (.logOn (t := 1) (ts := 1) rfl ⟨rfl, by decide⟩ (by decide))
  have r := r.step (.tryOk (t := 1) rfl rfl)
  have r := r.step (.noChunk (t := 1) rfl rfl rfl)
  have r := r.step (.checkOn (t := 1) (ts := 1) rfl ⟨rfl, by decide⟩ (by decide))
  have r := r.step (.replaceNone (t := 1) rfl rfl)
  have r := r.step (.againOn (t := 1) (ts := 1) rfl ⟨rfl, by decide⟩ (by decide))
  have r := r.step (.bufSome (t := 1) rfl rfl)
  have r := r.step (.fresh (t := 1) rfl (by decide))
  have r := r.step (.reset (t := 1) rfl)
  have r := r.step (.setChunk (t := 1) rfl)
  exact ⟨_, _, r, .write (t := 1) (c := (0, 0)) rfl rfl,
    r.step (.write (t := 1) (c := (0, 0)) rfl rfl), rfl, rfl, by decide, by decide⟩

/-- The claims above are about something: thread 0 starts tracing, thread 1 registers, logs an event
and keeps its chunk, thread 0 stops tracing, takes the buffer and is about to read the event. -/
example : ∃ w w' : St, Reachable true w ∧ Step true w w' ∧ w.own 0 = some 0 ∧
    w'.mem.rd (.cell 0 0) 0 ≠ w.mem.rd (.cell 0 0) 0 ∧ 0 < w.mem.wr (.cell 0 0) 1 := by
  have r := Reachable.init (pol := true)
  have r := r.step (.lockM (t := 0) rfl rfl)
  have r := r.step (.start (t := 0) rfl (fun _ => rfl))
  have r := r.step (.startOff (t := 0) (ts := 0) rfl ⟨rfl, by decide⟩ rfl)
  have r := r.step (.newBuf (t := 0) true 4 rfl)
  have r := r.step (.turnOn (t := 0) (ts := 1) rfl ⟨rfl, by decide⟩)
  have r := r.step (.unlockM (t := 0) rfl)
  have r := r.step (.lockM (t := 1) rfl rfl)
  have r := r.step (.register (t := 1) rfl rfl)
  have r := r.step (.unlockM (t := 1) rfl)
  have r := r.step (.logOn (t := 1) (ts := 1) rfl ⟨rfl, by decide⟩ (by decide))
  have r := r.step (.tryOk (t := 1) rfl rfl)
  have r := r.step (.noChunk (t := 1) rfl rfl rfl)
  have r := r.step (.checkOn (t := 1) (ts := 1) rfl ⟨rfl, by decide⟩ (by decide))
  have r := r.step (.replaceNone (t := 1) rfl rfl)
  have r := r.step (.againOn (t := 1) (ts := 1) rfl ⟨rfl, by decide⟩ (by decide))
  have r := r.step (.bufSome (t := 1) rfl rfl)
  have r := r.step (.fresh (t := 1) rfl (by decide))
  have r := r.step (.reset (t := 1) rfl)
  have r := r.step (.setChunk (t := 1) rfl)
  have r := r.step (.write (t := 1) (c := (0, 0)) rfl rfl)
  have r := r.step (.unlock (t := 1) rfl)
  have r := r.step (.lockM (t := 0) rfl rfl)
  have r := r.step (.stop (t := 0) rfl)
  have r := r.step (.exchangeOn (t := 0) (ts := 1) rfl ⟨rfl, by decide⟩ rfl (by decide))
  have r := r.step (.evLock (t := 0) (u := 1) rfl rfl rfl)
  have r := r.step (.evClear (t := 0) rfl)
  have r := r.step (.evUnlock (t := 0) rfl)
  have r := r.step (.evDone (t := 0) rfl (fun u => by
    by_cases e : u = 1
    · subst e; rfl
    · simp [St.goto, setf, e, St.init]))
  have r := r.step (.getBuf (t := 0) rfl)
  have r := r.step (.getBufOff (t := 0) (ts := 2) rfl ⟨rfl, by decide⟩ rfl)
  have r := r.step (.take (t := 0) rfl)
  exact ⟨_, _, r, .ownRead (t := 0) (h := 0) (i := 0) trivial rfl, rfl, by decide, by decide⟩

/-- And a thread with a full chunk returns it to the current buffer. -/
example : ∃ w : St, Reachable true w ∧ w.pc 1 = .giveBack (0, 0) := by
  have r := Reachable.init (pol := true)
  have r := r.step (.lockM (t := 0) rfl rfl)
  have r := r.step (.start (t := 0) rfl (fun _ => rfl))
  have r := r.step (.startOff (t := 0) (ts := 0) rfl ⟨rfl, by decide⟩ rfl)
  have r := r.step (.newBuf (t := 0) true 4 rfl)
  have r := r.step (.turnOn (t := 0) (ts := 1) rfl ⟨rfl, by decide⟩)
  have r := r.step (.unlockM (t := 0) rfl)
  have r := r.step (.lockM (t := 1) rfl rfl)
  have r := r.step (.register (t := 1) rfl rfl)
  have r := r.step (.unlockM (t := 1) rfl)
  have r := r.step (.logOn (t := 1) (ts := 1) rfl ⟨rfl, by decide⟩ (by decide))
  have r := r.step (.tryOk (t := 1) rfl rfl)
  have r := r.step (.noChunk (t := 1) rfl rfl rfl)
  have r := r.step (.checkOn (t := 1) (ts := 1) rfl ⟨rfl, by decide⟩ (by decide))
  have r := r.step (.replaceNone (t := 1) rfl rfl)
  have r := r.step (.againOn (t := 1) (ts := 1) rfl ⟨rfl, by decide⟩ (by decide))
  have r := r.step (.bufSome (t := 1) rfl rfl)
  have r := r.step (.fresh (t := 1) rfl (by decide))
  have r := r.step (.reset (t := 1) rfl)
  have r := r.step (.setChunk (t := 1) rfl)
  have r := r.step (.write (t := 1) (c := (0, 0)) rfl rfl)
  have r := r.step (.unlock (t := 1) rfl)
  have r := r.step (.logOn (t := 1) (ts := 1) rfl ⟨rfl, by decide⟩ (by decide))
  have r := r.step (.tryOk (t := 1) rfl rfl)
  have r := r.step (.fullChunk (t := 1) (c := (0, 0)) rfl rfl rfl)
  have r := r.step (.checkOn (t := 1) (ts := 1) rfl ⟨rfl, by decide⟩ (by decide))
  have r := r.step (.replaceSome (t := 1) (c := (0, 0)) rfl rfl)
  exact ⟨_, r, rfl⟩

/-- C65 refuted for callbacks that start tracing: thread 0 restarts tracing, the stopped callback
starts it as well, thread 1 finds tracing on and reads `buffer`; then the callback returns and
`start` replaces and destroys the buffer under thread 1. -/
theorem C65_refuted_callback : ∃ w w' : St, Reachable false w ∧ Step false w w' ∧
    w.pc 1 = .getChunk 1 ∧ w.buf = some 1 ∧ w'.freed 1 = true ∧
    w'.mem.wr .buf 0 ≠ w.mem.wr .buf 0 ∧ (w.mem.view 0).clk 1 < w.mem.rd .buf 1 := by
  have r := Reachable.init (pol := false)
  have r := r.step (.lockM (t := 0) rfl rfl)
  have r := r.step (.start (t := 0) rfl (fun e => by cases e))
  have r := r.step (.startOff (t := 0) (ts := 0) rfl ⟨rfl, by decide⟩ rfl)
  have r := r.step (.newBuf (t := 0) false 4 rfl)
  have r := r.step (.turnOn (t := 0) (ts := 1) rfl ⟨rfl, by decide⟩)
  have r := r.step (.unlockM (t := 0) rfl)
  have r := r.step (.lockM (t := 1) rfl rfl)
  have r := r.step (.register (t := 1) rfl rfl)
  have r := r.step (.unlockM (t := 1) rfl)
  have r := r.step (.lockM (t := 0) rfl rfl)
  have r := r.step (.start (t := 0) rfl (fun e => by cases e))
  have r := r.step (.startOn (t := 0) (ts := 1) rfl ⟨rfl, by decide⟩ (by decide))
  have r := r.step (.exchangeOn (t := 0) (ts := 1) rfl ⟨rfl, by decide⟩ rfl (by decide))
  have r := r.step (.evLock (t := 0) (u := 1) rfl rfl rfl)
  have r := r.step (.evClear (t := 0) rfl)
  have r := r.step (.evUnlock (t := 0) rfl)
  have r := r.step (.evDone (t := 0) rfl (fun u => by
    by_cases e : u = 1
    · subst e; rfl
    · simp [St.goto, setf, e, St.init]))
  have r := r.step (.start (t := 0) rfl (fun e => by cases e))
  have r := r.step (.startOff (t := 0) (ts := 2) rfl ⟨rfl, by decide⟩ rfl)
  have r := r.step (.newBuf (t := 0) false 4 rfl)
  have r := r.step (.turnOn (t := 0) (ts := 3) rfl ⟨rfl, by decide⟩)
  have r := r.step (.resume (t := 0) rfl)
  have r := r.step (.logOn (t := 1) (ts := 3) rfl ⟨rfl, by decide⟩ (by decide))
  have r := r.step (.tryOk (t := 1) rfl rfl)
  have r := r.step (.noChunk (t := 1) rfl rfl rfl)
  have r := r.step (.checkOn (t := 1) (ts := 3) rfl ⟨rfl, by decide⟩ (by decide))
  have r := r.step (.replaceNone (t := 1) rfl rfl)
  have r := r.step (.againOn (t := 1) (ts := 3) rfl ⟨rfl, by decide⟩ (by decide))
  have r := r.step (.bufSome (t := 1) rfl rfl)
  refine ⟨_, _, r, .newBuf (t := 0) false 4 rfl, rfl, rfl, rfl, ?_, ?_⟩
  · decide
  · decide

end Phosphor.TLog.W
