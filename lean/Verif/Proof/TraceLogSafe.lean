import Verif.Proof.TraceLogKeep
/-
The invariant of the TraceLog model, and that no step has undefined behaviour.
-/
namespace Phosphor.TLog
variable {ε : Type} {tid : Nat → Nat} {s s' : St ε} {t : Nat}

structure Inv (tid : Nat → Nat) (s : St ε) : Prop where
  ctl : Ctl s
  data : Data tid s

theorem Inv.mapped (h : Ctl s) {b : Nat} (hb : s.buffer = some b) : s.mapped b = true := by
  simp [St.mapped, (h.status b).2 hb]

/-- The chunk a thread holds exists and has its events. -/
theorem Inv.chunk (h : Inv tid s) {b i : Nat} (hc : (s.tenant t).chunk = some (b, i)) :
    s.mapped b = true ∧ ∃ (c : Chunk ε) (evs : List ε), (s.heap b).chunkAt i = .ok c ∧
      (s.contents b)[i]? = some (t, evs) ∧ c.Holds evs := by
  refine ⟨Inv.mapped h.ctl (h.ctl.chunkBuf t b i hc), ?_⟩
  obtain ⟨evs, hi⟩ := h.data.owns t b i hc
  obtain ⟨c, h1, _, h3⟩ := (h.data.bufs b).chunkAt hi
  exact ⟨c, evs, by simp [Buffer.chunkAt, h1], hi, h3⟩

/-- A thread with a chunk, or committed to getting one, works on the log's buffer. -/
theorem Inv.buffer_of_committed (h : Ctl s) (hc : (s.pc t).committed = true) : ∃ p, s.buffer = some p := by
  have : s.buffer ≠ none := by
    rcases h.comm t (Or.inr hc) with he | hp
    · exact h.hasBuf he
    · unfold St.pend at hp
      split at hp
      · simp at hp
      · rename_i o ho
        apply h.hasBuf' o
        generalize s.pc o = q at hp
        unfold Pc.pending at hp
        split at hp <;> simp_all [Pc.needsBuffer]
  exact Option.ne_none_iff_exists'.1 this

theorem Inv.logStep_safe (h : Inv tid s) {sp : Bool} : s.logStep tid t sp ≠ .ub := by
  intro hs
  unfold St.logStep at hs
  split at hs
  case h_1 e hp => cases hs
  case h_2 e hp => split at hs <;> cases hs
  case h_3 e hp => cases hs
  case h_4 e hp =>
    split at hs
    · cases hs
    · rename_i b i hc
      obtain ⟨hm, c, evs, hc', _, _⟩ := h.chunk hc
      rw [if_pos hm, hc'] at hs
      cases hs
  case h_5 e hp => split at hs <;> cases hs
  case h_6 e hp =>
    obtain ⟨p, hb⟩ := Inv.buffer_of_committed h.ctl (t := t) (by rw [hp]; rfl)
    rw [hb] at hs; cases hs
  case h_7 e p hp =>
    have hb := h.ctl.ptr t p (by rw [hp]; rfl)
    have hn := h.ctl.needChunk t (by rw [hp]; rfl)
    split at hs
    · rename_i hc; exact hn hc
    · rename_i b i hc
      have := h.ctl.chunkBuf t b i hc
      rw [hb] at this
      cases this
      rw [if_pos ⟨Inv.mapped h.ctl hb, rfl⟩] at hs
      cases hs
  case h_8 e hp => cases hs
  case h_9 e hp => cases hs
  case h_10 e hp =>
    obtain ⟨p, hb⟩ := Inv.buffer_of_committed h.ctl (t := t) (by rw [hp]; rfl)
    rw [hb] at hs; cases hs
  case h_11 e p hp =>
    rw [if_pos (Inv.mapped h.ctl (h.ctl.ptr t p (by rw [hp]; rfl)))] at hs
    split at hs <;> split at hs <;> cases hs
  case h_12 e p hp =>
    rw [if_pos (Inv.mapped h.ctl (h.ctl.ptr t p (by rw [hp]; rfl)))] at hs
    split at hs <;> cases hs
  case h_13 => cases hs
  case h_14 => cases hs
  case h_15 => split at hs <;> cases hs
  case h_16 => 
    split at hs
    · cases hs
    · split at hs <;> cases hs
  case h_17 e hp =>
    have hn := h.ctl.needChunk t (by rw [hp]; rfl)
    split at hs
    · rename_i hc; exact hn hc
    · rename_i b i hc
      obtain ⟨x, hx, _⟩ := h.data.store hp hc
      rw [if_pos (h.chunk hc).1, hx] at hs
      cases hs
  case h_18 => cases hs
  case h_19 => cases hs

/-- No thread holds a chunk while `start` creates the buffer. -/
theorem Ctl.create_none (h : Ctl s) {st : List Frame} {n : Nat} (hp : s.pc t = .held (.startCreate n) st) (u : Nat) :
    (s.tenant u).chunk = none := by
  apply Classical.byContradiction
  intro hc
  rcases h.comm u (Or.inl hc) with he | hpe
  · rw [h.off t (by rw [hp]; rfl)] at he; cases he
  · have ho := (h.own t).2 (by rw [hp]; rfl)
    simp only [St.pend, ho, hp, Pc.pending] at hpe
    simp at hpe

theorem Inv.heldStep_safe (h : Inv tid s) {other : Bool} : s.heldStep tid t other ≠ .ub := by
  unfold St.heldStep
  split
  case h_2 hp =>
    obtain ⟨s1, h1, _⟩ := h.data.deregister (tid := tid) (t := t) (fun b i hc => h.ctl.chunkBuf t b i hc)
    rw [h1]
    simp
  case h_4 => split <;> simp
  case h_5 => split <;> (try split) <;> simp
  all_goals simp

/-- No step is undefined. -/
theorem Inv.next_safe (h : Inv tid s) {pol : Bool} {c : Choice ε} : s.next pol tid t c ≠ .ub := by
  have key : ∀ sp, (match s.logStep tid t sp with
      | .blocked => s.heldStep tid t sp
      | o => o) ≠ .ub := by
    intro sp
    cases hl : s.logStep tid t sp with
    | blocked => exact h.heldStep_safe
    | ub => exact absurd hl h.logStep_safe
    | to s1 => simp
  unfold St.next
  cases c with
  | step => exact key false
  | spurious => exact key true
  | log e => dsimp only; split <;> simp
  | lock => dsimp only; split <;> simp
  | register n => dsimp only; split <;> simp
  | deregister => dsimp only; split <;> simp
  | free b => dsimp only; split <;> simp
  | start cfg =>
    dsimp only
    split
    · split
      · simp
      · split
        · split
          · simp
          · split <;> simp
        · simp
    · simp
  | stop sh => dsimp only; split <;> (try split) <;> simp
  | getBuffer => dsimp only; split <;> (try split) <;> simp
  | getTraceContext => dsimp only; split <;> (try split) <;> simp
  | ret => dsimp only; split <;> simp
  | throw => dsimp only; split <;> simp

theorem Reachable.inv (h : Reachable true tid s) : Inv tid s := ⟨h.ctl, h.data⟩

end Phosphor.TLog
