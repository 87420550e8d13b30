import Verif.Props.LogBufferRefine
import Verif.Props.After
/-
C103 over the code of the built-in buffers.
-/
namespace Phosphor.LogBuf
open TLog
variable {ε : Type} {tid : Nat → Nat} {o : List (Nat × Nat × ε)} {x x' : XSt ε} {s s' : St ε} {t b : Nat}

theorem Seen.entered (h : Seen tid o x s) (u : Nat) : (s.pc u).entered = (x.c.log.pc u).entered := by
  rw [h.pc, seenPc]
  generalize (seenChunk x u).isSome = a
  generalize seenWait x u = w
  cases x.c.log.pc u <;> cases a <;> cases w <;> rfl

/-- The events stored by `t`. -/
def storedBy (t : Nat) (o : List (Nat × Nat × ε)) : List (Nat × Nat × ε) := o.filter (fun y => decide (y.2.1 = t))

theorem storedBy_nil {p : List (Nat × Nat × ε)} (h : ∀ b, eventsIn p b t = []) : storedBy t p = [] := by
  simp only [storedBy, List.filter_eq_nil_iff, decide_eq_true_eq]
  intro y hy ht
  have := h y.1
  simp only [eventsIn, List.map_eq_nil_iff, List.filter_eq_nil_iff] at this
  exact this y hy (by simp [ht])

theorem storedBy_one {p : List (Nat × Nat × ε)} {e : ε} (h : eventsIn p b t = [e])
    (h' : ∀ b', b' ≠ b → eventsIn p b' t = []) : storedBy t p = [(b, t, e)] := by
  have h1 : storedBy t p = p.filter (fun y => decide (y.1 = b ∧ y.2.1 = t)) := by
    refine List.filter_congr (fun y hy => ?_)
    by_cases hb : y.1 = b
    · simp [hb]
    · have := h' y.1 hb
      simp only [eventsIn, List.map_eq_nil_iff, List.filter_eq_nil_iff] at this
      have h2 := this y hy
      simp at h2
      simp [hb, h2]
  simp only [eventsIn] at h
  rw [← h1] at h
  have h3 : ∀ y ∈ storedBy t p, y.1 = b ∧ y.2.1 = t := fun y hy => by
    rw [h1] at hy
    simpa using (List.mem_filter.1 hy).2
  generalize storedBy t p = q at *
  match q, h with
  | [y], h =>
    obtain ⟨k1, k2⟩ := h3 y (by simp)
    simp at h
    obtain ⟨y1, y2, y3⟩ := y
    simp at k1 k2 h
    rw [k1, k2, h]

theorem eventsIn_append (o p : List (Nat × Nat × ε)) (b t : Nat) :
    eventsIn (o ++ p) b t = eventsIn o b t ++ eventsIn p b t := by
  simp [eventsIn]

theorem Seen.on (h : Seen tid o x s) : on s.hist = on x.c.log.hist := by
  rcases h.hist with e | ⟨u, _, e | e⟩ <;> rw [e] <;> rfl

/-- No run begins in the log of atomic buffers unless one does here. -/
theorem Seen.new_runs {o' : List (Nat × Nat × ε)} (h : Seen tid o x s) (h' : Seen tid o' x' s')
    {new new' : List Item} (hh : x'.c.log.hist = new ++ x.c.log.hist) (hh' : s'.hist = new' ++ s.hist)
    (hn : ∀ b cfg, Item.run b cfg ∉ new) : ∀ b cfg, Item.run b cfg ∉ new' := by
  have pre : ∀ {o} {x : XSt ε} {s : St ε}, Seen tid o x s → ∃ p, s.hist = p ++ x.c.log.hist ∧
      ∀ b cfg, Item.run b cfg ∉ p := by
    intro o x s h
    rcases h.hist with h | ⟨u, hu, h | h⟩
    · exact ⟨[], by simpa using h, by simp⟩
    · exact ⟨[.deregOk u], by simpa using h, by simp⟩
    · exact ⟨[.deregRefused u], by simpa using h, by simp⟩
  obtain ⟨p, e1, p1⟩ := pre h
  obtain ⟨p', e2, p2⟩ := pre h'
  have heq : new' ++ p = p' ++ new := by
    rw [e1, e2, hh, ← List.append_assoc, ← List.append_assoc] at hh'
    exact (List.append_cancel_right hh').symm
  intro b cfg hm
  have : Item.run b cfg ∈ new' ++ p := by simp [hm]
  rw [heq, List.mem_append] at this
  exact this.elim (p2 b cfg) (hn b cfg)

/-- C103 over the code of the buffers: while tracing is off a thread that was not already past the first
look at `enabled` stores nothing, and one that was stores at most the event of that call. -/
theorem C103_opened_finish {L0 L : List (Nat × XAct ε)} (hb0 : ∀ y ∈ L0, BuiltIn y.2)
    (hL0 : XSt.init.run tid L0 = .to x) (hb : ∀ y ∈ L, BuiltIn y.2) (hL : x.run tid L = .to x')
    (hoff : on x.c.log.hist = false) {new : List Item} (hh : x'.c.log.hist = new ++ x.c.log.hist)
    (hn : ∀ b cfg, Item.run b cfg ∉ new) (t : Nat) :
    storedBy t (stores tid x L) = [] ∨
    ∃ e b, (x.c.log.pc t).entered = some e ∧ storedBy t (stores tid x L) = [(b, t, e)] := by
  obtain ⟨l0, s, h1, h2, h3, hS⟩ := C102_refines hb0 hL0
  have hr : TLog.Reachable true tid s := reachable_run .init h1
  obtain ⟨l, s', g1, g2, g3, hS'⟩ := sim_run hS (run_reachable .init L0 hL0).inv hr hb hL
  obtain ⟨new', hn'⟩ := TLog.run_hist g1
  have main := C103_finish hr (by rw [hS.on]; exact hoff) g1 hn' (hS.new_runs hS' hh hn' hn) t
  simp only [hS'.stored, hS.stored, hS.entered, eventsIn_append, List.append_right_eq_self,
    List.append_cancel_left_eq] at main
  rcases main with m | ⟨e, b, m1, m2, m3⟩
  · exact .inl (storedBy_nil m)
  · exact .inr ⟨e, b, m1, storedBy_one m2 m3⟩

/-- C103 over the code of the buffers: after a stop is over nothing is stored until the next run begins. -/
theorem C103_opened_quiet {L0 L : List (Nat × XAct ε)} (hb0 : ∀ y ∈ L0, BuiltIn y.2)
    (hL0 : XSt.init.run tid L0 = .to x) (hb : ∀ y ∈ L, BuiltIn y.2) (hL : x.run tid L = .to x')
    (hoff : on x.c.log.hist = false) (hst : stopping x.c.log.hist = none)
    {new : List Item} (hh : x'.c.log.hist = new ++ x.c.log.hist) (hn : ∀ b cfg, Item.run b cfg ∉ new) :
    stores tid x L = [] := by
  obtain ⟨l0, s, h1, h2, h3, hS⟩ := C102_refines hb0 hL0
  have hr : TLog.Reachable true tid s := reachable_run .init h1
  obtain ⟨l, s', g1, g2, g3, hS'⟩ := sim_run hS (run_reachable .init L0 hL0).inv hr hb hL
  obtain ⟨new', hn'⟩ := TLog.run_hist g1
  have hoff' : on s.hist = false := by rw [hS.on]; exact hoff
  have hst' : stopping s.hist = none := by
    rcases hS.hist with e | ⟨u, _, e | e⟩
    · rw [e]; exact hst
    · rw [e]; rfl
    · rw [e]; rfl
  have hnr := hS.new_runs hS' hh hn' hn
  have nil : ∀ u, storedBy u (stores tid x L) = [] := by
    intro u
    refine storedBy_nil (fun b => ?_)
    have same := congrFun (congrFun (C103_quiet hr hoff' hst' g1 hn' hnr).2.1 b) u
    rw [hS'.stored, hS.stored, eventsIn_append] at same
    simpa using same
  cases hc : stores tid x L with
  | nil => rfl
  | cons y ys =>
    have := nil y.2.1
    rw [hc] at this
    simp [storedBy] at this

/-! ### Cases that meet the hypotheses -/

/-- Thread 1 is inside `getChunk` of the buffer with its first event when thread 0 turns tracing off: it
gets its chunk, stores the event, and logs another one in vain. -/
def lateFirst (m : BufferMode) : List (Nat × XAct Nat) := begin1 m ++ [(0, .log .lock), (0, .log (.stop false))]

def lateRest : List (Nat × XAct Nat) := inb 1 3 ++ go 1 2 ++ [(1, .log (.log 9))] ++ go 1 1

example : checkO (lateFirst .fixed) (fun x o => o == [] && !on x.c.log.hist && (x.c.log.pc 1).entered == some 7 &&
      stopping x.c.log.hist == some false && x.c.log.hist.length == 5) = true ∧
    checkO (lateFirst .fixed ++ lateRest) (fun x o => o == [(0, 1, 7)] && !on x.c.log.hist && x.c.log.hist.length == 5 &&
      x.c.log.pc 1 == .idle) = true ∧
    checkO (lateFirst .ring ++ lateRest) (fun x o => o == [(0, 1, 7)] && !on x.c.log.hist && x.c.log.hist.length == 5 &&
      x.c.log.pc 1 == .idle) = true := by decide +kernel

/-- The stop is over, and thread 1 logs in vain. -/
example : checkO (lateFirst .ring ++ lateRest ++ go 0 7 ++ [(1, .log (.log 9))] ++ go 1 1) (fun x o => o == [(0, 1, 7)] &&
    !on x.c.log.hist && stopping x.c.log.hist == none && x.c.log.pc 1 == .idle) = true := by decide +kernel

end Phosphor.LogBuf
