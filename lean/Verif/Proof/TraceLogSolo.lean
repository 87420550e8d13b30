import Verif.Props.TraceLogEvents
/-
Executions in which one thread runs alone.
-/
namespace Phosphor.TLog
variable {ε : Type} {tid : Nat → Nat} {s s' : St ε} {t : Nat} {pol : Bool}

/-- Going on alone, thread `t` comes to a state satisfying `Q`. -/
def Solo (pol : Bool) (tid : Nat → Nat) (t : Nat) (s : St ε) (Q : St ε → Prop) : Prop :=
  ∃ n s', s.run pol tid (List.replicate n (t, .step)) = .to s' ∧ Q s'

theorem Solo.here {Q : St ε → Prop} (h : Q s) : Solo pol tid t s Q := ⟨0, s, rfl, h⟩

theorem Solo.step {Q : St ε → Prop} {s1 : St ε} (h : s.next pol tid t .step = .to s1)
    (h' : Solo pol tid t s1 Q) : Solo pol tid t s Q := by
  obtain ⟨n, s', h1, h2⟩ := h'
  exact ⟨n + 1, s', by rw [List.replicate_succ]; exact run_step h h1, h2⟩

theorem run_append {a b : List (Nat × Choice ε)} {s1 : St ε} (h : s.run pol tid a = .to s1)
    (h' : s1.run pol tid b = .to s') : s.run pol tid (a ++ b) = .to s' := by
  induction a generalizing s with
  | nil => cases h; exact h'
  | cons p a ih =>
    obtain ⟨t, c⟩ := p
    simp only [St.run, List.cons_append] at h ⊢
    split at h
    · exact ih h
    · cases h
    · cases h

theorem Solo.trans {P Q : St ε → Prop} (h : Solo pol tid t s P) (h' : ∀ x, P x → Solo pol tid t x Q) :
    Solo pol tid t s Q := by
  obtain ⟨n, s1, h1, h2⟩ := h
  obtain ⟨m, s2, h3, h4⟩ := h' s1 h2
  refine ⟨n + m, s2, ?_, h4⟩
  rw [← List.replicate_append_replicate]
  exact run_append h1 h3

theorem step_of_log {s1 : St ε} (h : s.logStep tid t false = .to s1) : s.next pol tid t .step = .to s1 := by
  simp [St.next, h]

/-- The log traces into a fixed buffer without chunks left, `x` differs from `s` only where the
thread works. -/
structure Exhausted (s x : St ε) (t b : Nat) : Prop where
  en : x.enabled = true
  own : x.owner = none
  buf : x.buffer = some b
  init : (x.tenant t).initialised = true
  hist : x.hist = s.hist
  stored : x.stored = s.stored
  contents : x.contents = s.contents
  mapped : x.mapped b = true
  mode : (x.heap b).mode = .fixed
  full : (x.heap b).chunks.length ≤ (x.heap b).counter
  tenants : ∀ u, u ≠ t → x.tenant u = s.tenant u
  registered : x.registered = s.registered

theorem Exhausted.goto {x : St ε} {b : Nat} (h : Exhausted s x t b) (q : Pc ε) : Exhausted s (x.goto t q) t b :=
  ⟨h.1, h.2, h.3, h.4, h.5, h.6, h.7, h.8, h.9, h.10, h.11, h.12⟩

theorem Exhausted.setLock {x : St ε} {b : Nat} (h : Exhausted s x t b) (l : ChunkLock.State) :
    Exhausted s (x.setLock t l) t b :=
  ⟨h.1, h.2, h.3, by simpa [St.setLock] using h.4, h.5, h.6, h.7, h.8, h.9, h.10,
    fun u hu => by simpa [St.setLock, setf, hu] using h.11 u hu, h.12⟩

theorem Exhausted.setChunk {x : St ε} {b : Nat} (h : Exhausted s x t b) (c : Option (Nat × Nat)) :
    Exhausted s (x.setChunk t c) t b :=
  ⟨h.1, h.2, h.3, by simpa [St.setChunk] using h.4, h.5, h.6, h.7, h.8, h.9, h.10,
    fun u hu => by simpa [St.setChunk, setf, hu] using h.11 u hu, h.12⟩

theorem Exhausted.setBuf {x : St ε} {b : Nat} (h : Exhausted s x t b) {y : Buffer ε} (hy : BufOp tid (x.heap b) y) :
    Exhausted s (x.setBuf b y) t b := by
  have h1 := hy.shape
  have h2 := hy.counter
  have h3 := h.full
  refine ⟨h.1, h.2, h.3, h.4, h.5, h.6, h.7, h.8, ?_, ?_, h.11, h.12⟩
  · simp only [St.setBuf, setf_self]; rw [h1.2.2]; exact h.mode
  · simp only [St.setBuf, setf_self]; rw [h1.2.1]; omega

/-- The outcome: tracing is off, because buffer `b` was full, and no event has been stored. -/
def Stopped (s x : St ε) (b : Nat) : Prop :=
  x.enabled = false ∧ x.hist = .stop false (some (some b)) :: s.hist ∧ x.stored = s.stored ∧
  x.contents = s.contents ∧ x.buffer = some b

theorem Exhausted.getCheck {x : St ε} {b : Nat} {e : ε} (h : Exhausted s x t b) (hp : x.pc t = .getCheck e) :
    Solo pol tid t x (Stopped s · b) := by
  refine .step (step_of_log (s1 := x.goto t (.getNull e)) (by simp [St.logStep, hp, h.en])) ?_
  replace h := h.goto (.getNull e)
  generalize hx : x.goto t (.getNull e) = x1 at *
  have hp1 : x1.pc t = .getNull e := by rw [← hx, goto_pc]
  refine .step (step_of_log (s1 := x1.goto t (.getLoad e)) (by simp [St.logStep, hp1, h.buf])) ?_
  replace h := h.goto (.getLoad e)
  generalize hx : x1.goto t (.getLoad e) = x2 at *
  have hp2 : x2.pc t = .getLoad e := by rw [← hx, goto_pc]
  refine .step (step_of_log (s1 := x2.goto t (.getDo e b)) (by simp [St.logStep, hp2, h.buf])) ?_
  replace h := h.goto (.getDo e b)
  generalize hx : x2.goto t (.getDo e b) = x3 at *
  have hp3 : x3.pc t = .getDo e b := by rw [← hx, goto_pc]
  have hfull := h.full
  have hg : (x3.heap b).getChunkFixed (tid t) = ({ x3.heap b with counter := (x3.heap b).counter + 1 }, .null) := by
    simp [Buffer.getChunkFixed, Buffer.size, hfull]
  refine .step (step_of_log (s1 := (x3.setBuf b ((x3.heap b).getChunkFixed (tid t)).1).goto t (.failed (some b)))
    (by simp [St.logStep, hp3, h.mapped, h.mode, hg])) ?_
  replace h := (h.setBuf (.fixed (tid := tid) (x3.heap b) (tid t))).goto (.failed (some b))
  generalize hx : (x3.setBuf b ((x3.heap b).getChunkFixed (tid t)).1).goto t (.failed (some b)) = x4 at *
  have hp4 : x4.pc t = .failed (some b) := by rw [← hx, goto_pc]
  refine .step (step_of_log (s1 := x4.goto t (.failUnlock (some b) x4.generation)) (by simp [St.logStep, hp4])) ?_
  refine .step (step_of_log
    (s1 := ((x4.goto t (.failUnlock (some b) x4.generation)).setLock t .unlocked).goto t
      (.tryMutex (some b) x4.generation)) (by simp only [St.logStep, goto_pc])) ?_
  replace h := ((h.goto (.failUnlock (some b) x4.generation)).setLock .unlocked).goto (.tryMutex (some b) x4.generation)
  have hg : (((x4.goto t (.failUnlock (some b) x4.generation)).setLock t .unlocked).goto t
      (.tryMutex (some b) x4.generation)).generation = x4.generation := rfl
  generalize hx : ((x4.goto t (.failUnlock (some b) x4.generation)).setLock t .unlocked).goto t
      (.tryMutex (some b) x4.generation) = x5 at *
  have hp5 : x5.pc t = .tryMutex (some b) x5.generation := by rw [hg, ← hx, goto_pc]
  refine .step (step_of_log (s1 := { x5 with owner := some t }.goto t (.compare (some b) x5.generation))
    (by simp [St.logStep, hp5, h.own])) ?_
  refine .step (step_of_log (s1 := ({ x5 with owner := some t }.goto t (.compare (some b) x5.generation)).beginStop t
    false (some (some b)) []) ?_) ?_
  · simp only [St.logStep, goto_pc]
    rw [if_neg (by simp [St.goto]), if_pos (by exact h.en)]
  · refine .here ⟨rfl, ?_, h.stored, h.contents, h.buf⟩
    show Item.stop false (some (some b)) :: x5.hist = _
    rw [h.hist]

theorem Exhausted.recheck {x : St ε} {b : Nat} {e : ε} (h : Exhausted s x t b) (hp : x.pc t = .recheck e)
    (hc : ∀ b' i, (x.tenant t).chunk = some (b', i) → b' = b) : Solo pol tid t x (Stopped s · b) := by
  cases hch : (x.tenant t).chunk with
  | none =>
    refine .step (step_of_log (s1 := x.goto t (.getCheck e)) (by simp [St.logStep, hp, h.en, hch])) ?_
    exact (h.goto _).getCheck (goto_pc _ _ _)
  | some p =>
    obtain ⟨b', i⟩ := p
    have := hc b' i hch
    subst this
    refine .step (step_of_log (s1 := x.goto t (.retLoad e)) (by simp [St.logStep, hp, h.en, hch])) ?_
    replace h := h.goto (.retLoad e)
    have hch : ((x.goto t (.retLoad e)).tenant t).chunk = some (b', i) := hch
    generalize hx : x.goto t (.retLoad e) = x1 at *
    have hp1 : x1.pc t = .retLoad e := by rw [← hx, goto_pc]
    refine .step (step_of_log (s1 := x1.goto t (.retDo e b')) (by simp [St.logStep, hp1, h.buf])) ?_
    replace h := h.goto (.retDo e b')
    have hch : ((x1.goto t (.retDo e b')).tenant t).chunk = some (b', i) := hch
    generalize hx : x1.goto t (.retDo e b') = x2 at *
    have hp2 : x2.pc t = .retDo e b' := by rw [← hx, goto_pc]
    refine .step (step_of_log
      (s1 := ((x2.setBuf b' ((x2.heap b').returnChunk i)).setChunk t none).goto t (.getCheck e))
      (by simp [St.logStep, hp2, hch, h.mapped])) ?_
    exact (((h.setBuf (.ret (tid := tid) _ i)).setChunk none).goto _).getCheck (goto_pc _ _ _)

end Phosphor.TLog
