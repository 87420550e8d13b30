import Verif.Proof.TraceLogEvents
/-
When a thread comes by a chunk, and what stays true of a buffer that refuses a thread.
-/
namespace Phosphor.TLog
variable {ε : Type} {tid : Nat → Nat} {s s' : St ε} {t : Nat}

/-- The buffer may still give chunks. -/
def Gives (x : Buffer ε) : Prop := x.mode = .ring ∨ x.counter < x.chunks.length ∨ x.queue ≠ []

theorem setf_chunk {f : Nat → Tenant} {u v : Nat} {x : Tenant} {c : Nat × Nat} (h : (setf f v x u).chunk = some c)
    (hx : x.chunk = (f v).chunk ∨ x.chunk = none) : (f u).chunk = some c := by
  simp only [setf] at h
  split at h
  · rename_i e
    subst e
    rcases hx with hx | hx
    · rw [← hx]; exact h
    · rw [hx] at h; cases h
  · exact h

theorem gain_new {f : Nat → Tenant} {u v : Nat} {x : Tenant} {p q i j : Nat} {g : Nat → Buffer ε} (hx : x.chunk = some (q, j))
    (hg : Gives (g q)) (h : (setf f v x u).chunk = some (p, i)) : (f u).chunk = some (p, i) ∨ Gives (g p) := by
  simp only [setf] at h
  split at h
  · rw [hx] at h
    cases h
    exact Or.inr hg
  · exact Or.inl h

theorem logStep_gain {sp : Bool} (hs : s.logStep tid t sp = .to s') {u p i : Nat}
    (h : (s'.tenant u).chunk = some (p, i)) : (s.tenant u).chunk = some (p, i) ∨ Gives (s.heap p) := by
  unfold St.logStep at hs
  split at hs
  case h_1 e hp => cases hs; exact Or.inl h
  case h_2 e hp =>
    rcases tryRound_cases (s.tenant t).lock sp with ⟨h', hl⟩ | ⟨h', hl⟩ | ⟨h', hl⟩ <;> simp only [h'] at hs <;> cases hs
    · exact Or.inl (setf_chunk h (Or.inl rfl))
    · exact Or.inl h
    · exact Or.inl h
  case h_3 e hp => cases hs; exact Or.inl h
  case h_4 e hp =>
    split at hs
    · cases hs; exact Or.inl h
    · split at hs
      · split at hs
        · cases hs; exact Or.inl h
        · cases hs
      · cases hs
  case h_5 e hp => split at hs <;> cases hs <;> exact Or.inl h
  case h_6 e hp => split at hs <;> cases hs; exact Or.inl h
  case h_7 e p hp =>
    split at hs
    · cases hs
    · split at hs
      · cases hs; exact Or.inl (setf_chunk h (Or.inr rfl))
      · cases hs
  case h_8 e hp => cases hs; exact Or.inl h
  case h_9 e hp => cases hs; exact Or.inl h
  case h_10 e hp => split at hs <;> cases hs; exact Or.inl h
  case h_11 e q hp =>
    split at hs
    · split at hs
      · rename_i hm
        split at hs <;> cases hs
        · exact gain_new (g := s.heap) rfl (Or.inl hm) h
        · exact Or.inl h
      · split at hs
        · rename_i hg
          cases hs
          refine gain_new (g := s.heap) rfl (Or.inr (Or.inl ?_)) h
          simp only [Buffer.getChunkFixed] at hg
          split at hg
          · cases hg
          · rename_i hlt
            simpa [Buffer.size] using hlt
        · cases hs; exact Or.inl h
    · cases hs
  case h_12 e q hp =>
    split at hs
    · split at hs
      · rename_i hg
        cases hs
        refine gain_new (g := s.heap) rfl (Or.inr (Or.inr ?_)) h
        intro hq
        simp [Buffer.ringTake, hq] at hg
      · cases hs; exact Or.inl h
    · cases hs
  case h_13 f hp => cases hs; exact Or.inl h
  case h_14 f g hp => cases hs; exact Or.inl (setf_chunk h (Or.inl rfl))
  case h_15 f g hp => split at hs <;> cases hs <;> exact Or.inl h
  case h_16 f g hp =>
    split at hs
    · cases hs; exact Or.inl h
    · split at hs <;> cases hs <;> exact Or.inl h
  case h_17 e hp =>
    split at hs
    · cases hs
    · split at hs
      · split at hs
        · cases hs; exact Or.inl h
        · cases hs
      · cases hs
  case h_18 hp => cases hs; exact Or.inl (setf_chunk h (Or.inl rfl))
  case h_19 => cases hs

theorem heldStep_gain {o : Bool} (hs : s.heldStep tid t o = .to s') {u p i : Nat}
    (h : (s'.tenant u).chunk = some (p, i)) : (s.tenant u).chunk = some (p, i) := by
  unfold St.heldStep at hs
  split at hs
  case h_1 n hp =>
    cases hs
    simp only [St.goto, St.registerBody] at h
    split at h
    · exact h
    · split at h <;> exact setf_chunk h (Or.inl rfl)
  case h_2 hp =>
    split at hs
    · rename_i x hx
      cases hs
      by_cases hi : (s.tenant t).initialised = true
      · obtain ⟨h', rfl⟩ := deregisterBody_eq hi hx; exact setf_chunk h (Or.inr rfl)
      · simp only [St.deregisterBody, hi] at hx; cases hx; exact h
    · cases hs
  case h_3 hp => cases hs; exact h
  case h_4 sh st hp =>
    split at hs
    · cases hs; exact h
    · cases hs
      obtain ⟨q, _, e⟩ := pop_goto { s with hist := .noCall :: s.hist } t st
      rw [e] at h; exact h
  case h_5 u rest sh st hp =>
    split at hs
    · cases hs; exact h
    · split at hs
      · cases hs; exact setf_chunk h (Or.inl rfl)
      · cases hs; exact h
  case h_6 u rest sh st hp => cases hs; exact setf_chunk h (Or.inr rfl)
  case h_7 u rest sh st hp => cases hs; exact setf_chunk h (Or.inl rfl)
  case h_8 n st hp => cases hs; exact h
  case h_9 st hp =>
    cases hs
    obtain ⟨q, _, e⟩ := pop_goto s.enable t st
    rw [e] at h; exact h
  case h_10 => cases hs

/-- A thread has a chunk after a step that it had before, or a buffer that can still give has given it. -/
theorem next_gain {pol : Bool} {c : Choice ε} (hs : s.next pol tid t c = .to s') {u p i : Nat}
    (h : (s'.tenant u).chunk = some (p, i)) : (s.tenant u).chunk = some (p, i) ∨ Gives (s.heap p) := by
  have key : ∀ sp, (match s.logStep tid t sp with
      | .blocked => s.heldStep tid t sp
      | o => o) = .to s' → (s.tenant u).chunk = some (p, i) ∨ Gives (s.heap p) := by
    intro sp hs
    split at hs
    · exact Or.inl (heldStep_gain hs h)
    · exact logStep_gain hs h
  unfold St.next at hs
  cases c with
  | step => exact key false hs
  | spurious => exact key true hs
  | log e => dsimp only at hs; split at hs <;> cases hs; exact Or.inl h
  | lock => dsimp only at hs; split at hs <;> cases hs; exact Or.inl h
  | register n => dsimp only at hs; split at hs <;> cases hs; exact Or.inl h
  | deregister => dsimp only at hs; split at hs <;> cases hs; exact Or.inl h
  | free b => dsimp only at hs; split at hs <;> cases hs; exact Or.inl h
  | start cfg =>
    left
    dsimp only at hs
    split at hs
    · split at hs
      · cases hs
      · split at hs
        · split at hs
          · cases hs; exact h
          · split at hs <;> cases hs <;> exact h
        · cases hs
    · cases hs
  | stop sh =>
    dsimp only at hs
    split at hs
    · split at hs <;> cases hs <;> exact Or.inl h
    · cases hs
  | getBuffer =>
    dsimp only at hs
    split at hs
    · split at hs <;> cases hs <;> exact Or.inl h
    · cases hs
  | getTraceContext =>
    dsimp only at hs
    split at hs
    · split at hs <;> cases hs <;> exact Or.inl h
    · cases hs
  | ret =>
    dsimp only at hs
    split at hs
    · rename_i st hp
      cases hs
      obtain ⟨q, _, e⟩ := pop_goto s t st
      rw [e] at h; exact Or.inl h
    · cases hs
  | throw =>
    dsimp only at hs
    split at hs
    · rename_i st hp
      cases hs
      obtain ⟨q, _, e⟩ := unwind_goto s t st
      rw [e] at h; exact Or.inl h
    · cases hs

/-- A buffer that a step leaves is not the log's again: the log's buffer is replaced only by a new one. -/
theorem buffer_gone {pol : Bool} {c : Choice ε} (hs : s.next pol tid t c = .to s') {b : Nat} (hb : b < s.nextBuf)
    (h : s.buffer ≠ some b) : s'.buffer ≠ some b := by
  cases next_book hs with
  | calm new hn ha hd hb' hst hh hp _ _ hk => rw [hb']; exact h
  | free b' hb' e => subst e; exact h
  | retrieve cs st hp he e => subst e; simp [St.retrieve]
  | create n st hp e =>
    subst e
    simp only [St.goto, St.createBuffer]
    intro e; cases e; exact absurd hb (Nat.lt_irrefl _)
  | enable st hp e =>
    subst e
    obtain ⟨q, _, e⟩ := pop_goto s.enable t st
    rw [e]; exact h
  | reg n hp hi e =>
    subst e
    obtain ⟨_, _, e3, _⟩ := registerBody_frame (s := s) (tid := tid) (t := t) n
    show (s.registerBody tid t n).buffer ≠ some b
    rw [e3]; exact h
  | dereg x hp hi hx e =>
    subst e
    obtain ⟨hp', rfl⟩ := deregisterBody_eq hi hx
    exact h

theorem on_plain_off {new h : List Item} (hn : ∀ i ∈ new, i.plain = true) (ho : on h = false) : on (new ++ h) = false := by
  induction new with
  | nil => exact ho
  | cons i new ih =>
    have ih := ih (fun j hj => hn j (by simp [hj]))
    have hi := hn i (by simp)
    cases i with
    | stop a b => rfl
    | run b c => cases hi
    | _ => exact ih

end Phosphor.TLog
