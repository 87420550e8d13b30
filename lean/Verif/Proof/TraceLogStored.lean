import Verif.Props.TraceLogEvents
/-
What a step does to the events stored, in any buffer.
-/
namespace Phosphor.TLog
variable {ε : Type} {tid : Nat → Nat} {s s' : St ε} {t : Nat} {pol : Bool}

/-- What a step does to the events stored. -/
def Stored (t : Nat) (s s' : St ε) : Prop :=
  s'.stored = s.stored ∨ s'.stored = setf s.stored s.nextBuf (fun _ => []) ∨
  ∃ e b i, s.pc t = .store e ∧ (s.tenant t).chunk = some (b, i) ∧ s.mapped b = true ∧
    s'.stored = setf s.stored b (setf (s.stored b) t (s.stored b t ++ [e]))

theorem pop_stored (x : St ε) (t : Nat) (st : List Frame) : (x.pop t st).stored = x.stored := by
  obtain ⟨q, _, e⟩ := pop_goto x t st
  rw [e]; rfl

theorem unwind_stored (x : St ε) (t : Nat) (st : List Frame) : (x.unwind t st).stored = x.stored := by
  obtain ⟨q, _, e⟩ := unwind_goto x t st
  rw [e]; rfl

theorem logStep_stored {sp : Bool} (hs : s.logStep tid t sp = .to s') : Stored t s s' := by
  unfold St.logStep at hs
  repeat' split at hs
  all_goals first
    | (cases hs; done)
    | (cases hs; exact .inl rfl)
    | (cases hs; exact .inr (.inr ⟨_, _, _, by assumption, by assumption, by assumption, rfl⟩))

theorem registerBody_stored (n : Str) : (s.registerBody tid t n).stored = s.stored := by
  unfold St.registerBody
  split
  · rfl
  · dsimp only; split <;> rfl

theorem deregisterBody_stored (hs : s.deregisterBody tid t = some s') : s'.stored = s.stored := by
  have own : ∀ y, s.returnOwn t = some y → y.stored = s.stored := by
    intro y hy
    unfold St.returnOwn at hy
    repeat' split at hy
    all_goals (cases hy; try rfl)
  unfold St.deregisterBody at hs
  split at hs
  · split at hs
    · cases hs
    · rename_i y hy
      dsimp only at hs
      split at hs <;> cases hs <;> exact own y hy
  · cases hs; rfl

theorem heldStep_stored {o : Bool} (hs : s.heldStep tid t o = .to s') : Stored t s s' := by
  unfold St.heldStep at hs
  split at hs
  case h_1 n hp => cases hs; exact .inl (registerBody_stored n)
  case h_2 hp =>
    split at hs
    · rename_i x hx; cases hs; exact .inl (show x.stored = s.stored from deregisterBody_stored hx)
    · cases hs
  case h_3 => cases hs; exact .inl rfl
  case h_4 =>
    split at hs <;> cases hs
    · exact .inl rfl
    · exact .inl (by rw [pop_stored])
  case h_5 =>
    split at hs
    · cases hs; exact .inl rfl
    · split at hs <;> cases hs <;> exact .inl rfl
  case h_6 => cases hs; exact .inl rfl
  case h_7 => cases hs; exact .inl rfl
  case h_8 => cases hs; exact .inr (.inl rfl)
  case h_9 => cases hs; exact .inl (by rw [pop_stored]; rfl)
  case h_10 => cases hs

theorem next_stored {c : Choice ε} (hs : s.next pol tid t c = .to s') : Stored t s s' := by
  have key : ∀ sp, (match s.logStep tid t sp with
      | .blocked => s.heldStep tid t sp
      | o => o) = .to s' → Stored t s s' := by
    intro sp hs
    split at hs
    · exact heldStep_stored hs
    · exact logStep_stored hs
  unfold St.next at hs
  cases c with
  | step => exact key false hs
  | spurious => exact key true hs
  | ret => dsimp only at hs; split at hs <;> cases hs; exact .inl (pop_stored _ _ _)
  | throw => dsimp only at hs; split at hs <;> cases hs; exact .inl (unwind_stored _ _ _)
  | _ =>
    dsimp only at hs
    repeat' split at hs
    all_goals first
      | (cases hs; done)
      | (cases hs; exact .inl rfl)

/-- Nothing is stored in a buffer that does not exist yet. -/
theorem unborn_stored (h : Reachable pol tid s) : ∀ b, s.nextBuf ≤ b → s.stored b = fun _ => [] := by
  induction h with
  | init => intro b _; rfl
  | step hr hs ih =>
    rename_i s s' t c
    intro b hb
    have hm := nextBuf_mono hs
    have h0 := ih b (by omega)
    rcases next_stored hs with e | e | ⟨e, p, i, hp, hc, hmap, e'⟩
    · rw [e, h0]
    · rw [e]; simp only [setf]; split
      · rfl
      · exact h0
    · have : b ≠ p := by
        rintro rfl
        have := (hr.ctl0.fresh b).2 (by omega)
        simp [St.mapped, this] at hmap
      rw [e']; simp [setf, this, h0]
end Phosphor.TLog
