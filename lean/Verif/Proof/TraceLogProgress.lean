import Verif.Props.TraceLogStop
/-
Steps a thread needs to leave `logEvent`.
-/
namespace Phosphor.TLog
variable {ε : Type} {tid : Nat → Nat} {s s' : St ε} {t : Nat} {pol : Bool}

/-- An upper bound for the steps until the thread leaves `logEvent`; `0` outside and when it has
turned to stopping the run. -/
def Pc.left : Pc ε → Nat
  | .readEnabled _ => 17
  | .tryLock _ => 16
  | .checkInit _ => 15
  | .checkChunk _ => 14
  | .recheck _ => 13
  | .retLoad _ => 12
  | .retDo _ _ => 11
  | .getCheck _ => 10
  | .getNull _ => 9
  | .getLoad _ => 8
  | .getDo _ _ => 7
  | .getWait _ _ => 6
  | .failed _ => 5
  | .failUnlock _ _ => 4
  | .tryMutex _ _ => 3
  | .compare _ _ => 2
  | .store _ => 2
  | .unlock => 1
  | .release => 1
  | _ => 0

/-- A thread in `logEvent` makes progress with each step, unless the chunk lock is its own already or
it waits for a chunk that nobody has returned. -/
theorem logStep_left {sp : Bool} (hs : s.logStep tid t sp = .to s') :
    (s'.pc t).left < (s.pc t).left ∨
    (∃ e, s.pc t = .tryLock e ∧ s' = s ∧ ((s.tenant t).lock = .slaveLocked ∨ sp = true)) ∨
    (∃ e p, s.pc t = .getWait e p ∧ s' = s ∧ (s.heap p).queue = []) := by
  have go : ∀ (p : Pc ε) (x : St ε) (q : Pc ε), s.pc t = p → q.left < p.left →
      ((x.goto t q).pc t).left < (s.pc t).left := by
    intro p x q hp h; rw [goto_pc, hp]; exact h
  unfold St.logStep at hs
  split at hs
  case h_1 hp =>
    cases hs; split
    · exact Or.inl (go _ _ _ hp (by simp [Pc.left]))
    · exact Or.inl (go _ _ _ hp (by simp [Pc.left]))
  case h_2 e hp =>
    split at hs
    · cases hs; exact Or.inl (go _ _ _ hp (by simp [Pc.left]))
    · cases hs; exact Or.inl (go _ _ _ hp (by simp [Pc.left]))
    · rename_i hx
      cases hs
      refine Or.inr (Or.inl ⟨e, hp, rfl, ?_⟩)
      revert hx
      cases (s.tenant t).lock <;> cases sp <;> simp [ChunkLock.tryRound, ChunkLock.casWeak]
  case h_3 hp =>
    cases hs; split
    · exact Or.inl (go _ _ _ hp (by simp [Pc.left]))
    · exact Or.inl (go _ _ _ hp (by simp [Pc.left]))
  case h_4 hp =>
    split at hs
    · cases hs; exact Or.inl (go _ _ _ hp (by simp [Pc.left]))
    · split at hs
      · split at hs
        · cases hs; split
          · exact Or.inl (go _ _ _ hp (by simp [Pc.left]))
          · exact Or.inl (go _ _ _ hp (by simp [Pc.left]))
        · cases hs
      · cases hs
  case h_5 hp =>
    split at hs <;> cases hs
    · split
      · exact Or.inl (go _ _ _ hp (by simp [Pc.left]))
      · exact Or.inl (go _ _ _ hp (by simp [Pc.left]))
    · exact Or.inl (go _ _ _ hp (by simp [Pc.left]))
  case h_6 hp =>
    split at hs
    · cases hs
    · cases hs; exact Or.inl (go _ _ _ hp (by simp [Pc.left]))
  case h_7 hp =>
    split at hs
    · cases hs
    · split at hs
      · cases hs; exact Or.inl (go _ _ _ hp (by simp [Pc.left]))
      · cases hs
  case h_8 hp =>
    cases hs; split
    · exact Or.inl (go _ _ _ hp (by simp [Pc.left]))
    · exact Or.inl (go _ _ _ hp (by simp [Pc.left]))
  case h_9 hp =>
    cases hs; split
    · exact Or.inl (go _ _ _ hp (by simp [Pc.left]))
    · exact Or.inl (go _ _ _ hp (by simp [Pc.left]))
  case h_10 hp =>
    split at hs
    · cases hs
    · cases hs; exact Or.inl (go _ _ _ hp (by simp [Pc.left]))
  case h_11 hp =>
    split at hs
    · split at hs
      · split at hs <;> cases hs
        · exact Or.inl (go _ _ _ hp (by simp [Pc.left]))
        · exact Or.inl (go _ _ _ hp (by simp [Pc.left]))
      · split at hs <;> cases hs
        · exact Or.inl (go _ _ _ hp (by simp [Pc.left]))
        · exact Or.inl (go _ _ _ hp (by simp [Pc.left]))
    · cases hs
  case h_12 e p hp =>
    split at hs
    · split at hs
      · cases hs; exact Or.inl (go _ _ _ hp (by simp [Pc.left]))
      · rename_i hx
        cases hs
        refine Or.inr (Or.inr ⟨e, p, hp, rfl, ?_⟩)
        unfold Buffer.ringTake at hx
        split at hx
        · assumption
        · cases hx
    · cases hs
  case h_13 hp => cases hs; exact Or.inl (go _ _ _ hp (by simp [Pc.left]))
  case h_14 hp => cases hs; exact Or.inl (go _ _ _ hp (by simp [Pc.left]))
  case h_15 hp =>
    split at hs <;> cases hs
    · exact Or.inl (go _ _ _ hp (by simp [Pc.left]))
    · exact Or.inl (go _ _ _ hp (by simp [Pc.left]))
  case h_16 hp =>
    split at hs
    · cases hs; exact Or.inl (go _ _ _ hp (by simp [Pc.left]))
    · split at hs <;> cases hs
      · exact Or.inl (go _ _ _ hp (by simp [Pc.left]))
      · exact Or.inl (go _ _ _ hp (by simp [Pc.left]))
  case h_17 hp =>
    split at hs
    · cases hs
    · split at hs
      · split at hs
        · cases hs; exact Or.inl (go _ _ _ hp (by simp [Pc.left]))
        · cases hs
      · cases hs
  case h_18 hp => cases hs; exact Or.inl (go _ _ _ hp (by simp [Pc.left]))
  case h_19 => cases hs

/-- A thread that is in `logEvent`, or about to release the mutex, can always make a step. -/
theorem Inv.left_step (h : Inv tid s) (hh : 0 < (s.pc t).left) : ∃ s', s.next true tid t .step = .to s' := by
  cases ho : s.logStep tid t false with
  | ub => exact absurd ho (h.logStep_safe (t := t) (sp := false))
  | to s' => exact ⟨s', by simp only [St.next, ho]⟩
  | blocked =>
    have : s.pc t = .release := by
      unfold St.logStep at ho
      split at ho
      case h_19 =>
        revert hh
        cases hq : s.pc t <;> simp_all [Pc.left]
      all_goals first
        | (cases ho; done)
        | (split at ho <;> first
            | (cases ho; done)
            | (split at ho <;> first
                | (cases ho; done)
                | (split at ho <;> first
                    | (cases ho; done)
                    | (split at ho <;> cases ho))))
    exact ⟨{ s with owner := none }.goto t .idle, by simp only [St.next, ho, St.heldStep, this]⟩

/-- What a step of the thread itself does while it is in `logEvent`. -/
theorem Reachable.left_next (h : Reachable true tid s) {c : Choice ε} (hh : 0 < (s.pc t).left)
    (hs : s.next true tid t c = .to s') :
    (s'.pc t).left ≤ (s.pc t).left ∧
    (c = .step → (s'.pc t).left < (s.pc t).left ∨ ∃ e p, s.pc t = .getWait e p ∧ s' = s ∧ (s.heap p).queue = []) := by
  have nidle : s.isIdle t = false := by
    unfold St.isIdle; split
    · rename_i hp; rw [hp] at hh; cases hh
    · rfl
  have nheld : ∀ w st, s.pc t ≠ .held w st := by intro w st hp; rw [hp] at hh; cases hh
  have hrel : ∀ other, s.logStep tid t other = .blocked → s.heldStep tid t other = .to s' →
      (s'.pc t).left < (s.pc t).left := by
    intro other hb hs
    unfold St.heldStep at hs
    split at hs
    case h_1 hp => rw [hp] at hh; cases hh
    case h_2 hp => rw [hp] at hh; cases hh
    case h_3 hp => cases hs; rw [goto_pc, hp]; simp [Pc.left]
    case h_10 => cases hs
    all_goals (rename_i hp; exact absurd hp (nheld _ _))
  have hlock : ∀ e, s.pc t = .tryLock e → (s.tenant t).lock ≠ .slaveLocked := by
    intro e hp hl
    have := (h.ctl.slave t).1 hl
    rw [hp] at this; cases this
  cases c with
  | step =>
    simp only [St.next] at hs
    have key : (s'.pc t).left < (s.pc t).left ∨
        ∃ e p, s.pc t = .getWait e p ∧ s' = s ∧ (s.heap p).queue = [] := by
      split at hs
      · rename_i hb; exact Or.inl (hrel _ hb hs)
      · rcases logStep_left hs with h1 | ⟨e, hp, _, h2 | h2⟩ | h1
        · exact Or.inl h1
        · exact absurd h2 (hlock e hp)
        · cases h2
        · exact Or.inr h1
    refine ⟨?_, fun _ => key⟩
    rcases key with h1 | ⟨_, _, _, rfl, _⟩
    · exact Nat.le_of_lt h1
    · exact Nat.le_refl _
  | spurious =>
    refine ⟨?_, fun hc => by cases hc⟩
    simp only [St.next] at hs
    split at hs
    · rename_i hb; exact Nat.le_of_lt (hrel _ hb hs)
    · rcases logStep_left hs with h1 | ⟨_, _, rfl, _⟩ | ⟨_, _, _, rfl, _⟩
      · exact Nat.le_of_lt h1
      · exact Nat.le_refl _
      · exact Nat.le_refl _
  | free b =>
    refine ⟨?_, fun hc => by cases hc⟩
    simp only [St.next] at hs
    split at hs <;> cases hs
    exact Nat.le_refl _
  | log e => simp [St.next, nidle] at hs
  | lock => simp [St.next, nidle] at hs
  | register n => simp [St.next, nidle] at hs
  | deregister => simp [St.next, nidle] at hs
  | start cfg =>
    simp only [St.next] at hs
    split at hs
    · rename_i hp; exact absurd hp (nheld _ _)
    · cases hs
  | stop sh =>
    simp only [St.next] at hs
    split at hs
    · rename_i hp; exact absurd hp (nheld _ _)
    · cases hs
  | getBuffer =>
    simp only [St.next] at hs
    split at hs
    · rename_i hp; exact absurd hp (nheld _ _)
    · cases hs
  | getTraceContext =>
    simp only [St.next] at hs
    split at hs
    · rename_i hp; exact absurd hp (nheld _ _)
    · cases hs
  | ret =>
    simp only [St.next] at hs
    split at hs
    · rename_i hp; exact absurd hp (nheld _ _)
    · cases hs
  | throw =>
    simp only [St.next] at hs
    split at hs
    · rename_i hp; exact absurd hp (nheld _ _)
    · cases hs

end Phosphor.TLog
