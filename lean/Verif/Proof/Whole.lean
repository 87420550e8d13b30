import Verif.Model.Whole
import Verif.Proof.TraceLogHist
import Verif.Proof.TraceLogEvents
import Verif.Proof.RegHist
import Verif.Props.TracePoint
/-
What the steps of the log and of the registry mean for each other.
-/
namespace Phosphor.TLog
variable {ε : Type} {tid : Nat → Nat} {s s' : St ε} {t : Nat}

/-- What a step does to the parts of the log that have to do with categories. -/
inductive Effect (t : Nat) (s s' : St ε) : Prop
  | quiet (en : s'.enabled = s.enabled) (run : lastRun s'.hist = lastRun s.hist)
      (sub : s.hist <:+ s'.hist) (ie : (s'.pc t).isEnable = (s.pc t).isEnable)
      (cfg : s'.config = s.config ∨ (s.pc t).isEnable = false ∧ (s.pc t).holdsMutex = true)
      (nb : s'.nextBuf = s.nextBuf)
  | stop (en : s.enabled = true) (en' : s'.enabled = false) (run : lastRun s'.hist = lastRun s.hist)
      (sub : s.hist <:+ s'.hist) (pc : ∃ r sd st, s'.pc t = .held (.evict r sd) st)
      (hm : (s.pc t).holdsMutex = true) (nb : s'.nextBuf = s.nextBuf)
  | create (n : Nat) (st : List Frame) (hp : s.pc t = .held (.startCreate n) st)
      (hp' : s'.pc t = .held .startEnable st) (en : s'.enabled = s.enabled) (hist : s'.hist = s.hist)
      (cfg : s'.config = s.config) (nb : s'.nextBuf = s.nextBuf + 1)
      (st : s'.stored s.nextBuf = fun _ => [])
  | enable (st : List Frame) (hp : s.pc t = .held .startEnable st) (ie : (s'.pc t).isEnable = false)
      (en : s'.enabled = true) (hist : s'.hist = .run (s.nextBuf - 1) s.config :: s.hist)
      (cfg : s'.config = s.config) (nb : s'.nextBuf = s.nextBuf)

theorem Effect.goto {p q : Pc ε} {x : St ε} (hp : s.pc t = p) (hq : q.isEnable = p.isEnable)
    (e1 : x.enabled = s.enabled) (e2 : lastRun x.hist = lastRun s.hist) (e3 : s.hist <:+ x.hist)
    (e4 : x.config = s.config ∨ p.isEnable = false ∧ p.holdsMutex = true)
    (e5 : x.nextBuf = s.nextBuf := by rfl) : Effect t s (x.goto t q) :=
  .quiet e1 e2 e3 (by rw [goto_pc, hq, hp]) (by rw [hp]; exact e4) e5

theorem Effect.beginStop {p : Pc ε} {x : St ε} {sd : Bool} {f : Option (Option Nat)} {st : List Frame}
    (hp : s.pc t = p) (hm : p.holdsMutex = true) (en : s.enabled = true)
    (e2 : lastRun x.hist = lastRun s.hist) (e3 : s.hist <:+ x.hist)
    (e5 : x.nextBuf = s.nextBuf := by rfl) : Effect t s (x.beginStop t sd f st) :=
  .stop en rfl (by simpa [St.beginStop, St.goto, lastRun] using e2)
    (e3.trans (by simp [St.beginStop, St.goto])) ⟨_, _, _, goto_pc _ _ _⟩ (by rw [hp]; exact hm) e5

theorem not_enable {p : Pc ε} (h : p.holdsMutex = false) : p.isEnable = false :=
  (Pc.stopPhase_holds h).2

theorem logStep_effect {sp : Bool} (hs : s.logStep tid t sp = .to s') : Effect t s s' := by
  rcases logStep_cases hs with rfl | h | ⟨f, g, hp, _, rfl⟩ | ⟨f, g, hp, _, rfl⟩ | ⟨f, g, hp, _, he, rfl⟩
  · exact .quiet rfl rfl (List.suffix_refl _) rfl (Or.inl rfl) rfl
  · exact .quiet h.enabled (by rw [h.hist]) (by rw [h.hist]; exact List.suffix_refl _)
      (by rw [not_enable h.before, not_enable h.after]) (Or.inl h.config) h.nextBuf
  · exact .goto hp rfl rfl rfl (List.suffix_refl _) (Or.inl rfl)
  · exact .goto hp rfl rfl rfl (List.suffix_refl _) (Or.inl rfl)
  · exact .beginStop hp rfl he rfl (List.suffix_refl _)

theorem calm_enable {q : Pc ε} (h : q.calm) : q.isEnable = false := h.2.2

theorem heldStep_effect {o : Bool} (hs : s.heldStep tid t o = .to s') : Effect t s s' := by
  unfold St.heldStep at hs
  split at hs
  case h_1 n hp =>
    cases hs
    refine .goto hp rfl ?_ ?_ ?_ (Or.inl ?_) ?_ <;> unfold St.registerBody <;> split
    · rfl
    · dsimp only; split <;> rfl
    · rfl
    · dsimp only; split <;> rfl
    · exact List.suffix_cons _ _
    · dsimp only; split <;> exact List.suffix_cons _ _
    · rfl
    · dsimp only; split <;> rfl
    · rfl
    · dsimp only; split <;> rfl
  case h_2 hp =>
    split at hs
    · rename_i x hx
      cases hs
      unfold St.deregisterBody at hx
      split at hx
      · split at hx
        · cases hx
        · rename_i y hy
          have hy' : y.enabled = s.enabled ∧ y.hist = s.hist ∧ y.config = s.config ∧ y.nextBuf = s.nextBuf := by
            unfold St.returnOwn at hy
            split at hy
            · cases hy; exact ⟨rfl, rfl, rfl, rfl⟩
            · split at hy
              · cases hy; exact ⟨rfl, rfl, rfl, rfl⟩
              · split at hy
                · cases hy; exact ⟨rfl, rfl, rfl, rfl⟩
                · cases hy
          obtain ⟨h1, h2, h3, h4⟩ := hy'
          dsimp only at hx
          split at hx <;> cases hx
          · exact .goto hp rfl h1 (by simp [lastRun, h2]) (by simp [h2]) (Or.inl h3) h4
          · exact .goto hp rfl h1 (by simp [lastRun, h2]) (by simp [h2]) (Or.inl h3) h4
      · cases hx; exact .goto hp rfl rfl rfl (List.suffix_cons _ _) (Or.inl rfl)
    · cases hs
  case h_3 hp => cases hs; exact .goto hp rfl rfl rfl (List.suffix_refl _) (Or.inl rfl)
  case h_4 sh st hp =>
    split at hs
    · cases hs; exact .goto hp rfl rfl rfl (List.suffix_cons _ _) (Or.inl rfl)
    · cases hs
      obtain ⟨q, hq, e⟩ := pop_goto { s with hist := .noCall :: s.hist } t st
      rw [e]; exact .goto hp (calm_enable hq) rfl rfl (List.suffix_cons _ _) (Or.inl rfl)
  case h_5 u rest sh st hp =>
    split at hs
    · cases hs; exact .goto hp rfl rfl rfl (List.suffix_refl _) (Or.inl rfl)
    · split at hs
      · cases hs; exact .goto hp rfl rfl rfl (List.suffix_refl _) (Or.inl rfl)
      · cases hs; exact .quiet rfl rfl (List.suffix_refl _) rfl (Or.inl rfl) rfl
  case h_6 u rest sh st hp => cases hs; exact .goto hp rfl rfl rfl (List.suffix_refl _) (Or.inl rfl)
  case h_7 u rest sh st hp => cases hs; exact .goto hp rfl rfl rfl (List.suffix_refl _) (Or.inl rfl)
  case h_8 n st hp => cases hs; exact .create n st hp (goto_pc _ _ _) rfl rfl rfl rfl (setf_self _ _ _)
  case h_9 st hp =>
    cases hs
    obtain ⟨q, hq, e⟩ := pop_goto s.enable t st
    rw [e]; exact .enable st hp (by rw [goto_pc]; exact calm_enable hq) rfl rfl rfl rfl
  case h_10 => cases hs

theorem next_effect {pol : Bool} {c : Choice ε} (hs : s.next pol tid t c = .to s') : Effect t s s' := by
  have both : ∀ {sp}, (match s.logStep tid t sp with
      | .blocked => s.heldStep tid t sp
      | o => o) = .to s' → Effect t s s' := by
    intro sp hs
    split at hs
    · exact heldStep_effect hs
    · exact logStep_effect hs
  unfold St.next at hs
  cases c with
  | step => exact both hs
  | spurious => exact both hs
  | log e =>
    dsimp only at hs
    split at hs
    · rename_i h; cases hs; exact .goto (isIdle_iff.1 h) rfl rfl rfl (List.suffix_refl _) (Or.inl rfl)
    · cases hs
  | lock =>
    dsimp only at hs
    split at hs
    · rename_i h; cases hs; exact .goto (isIdle_iff.1 h.1) rfl rfl rfl (List.suffix_refl _) (Or.inl rfl)
    · cases hs
  | register n =>
    dsimp only at hs
    split at hs
    · rename_i h; cases hs; exact .goto (isIdle_iff.1 h.1) rfl rfl rfl (List.suffix_refl _) (Or.inl rfl)
    · cases hs
  | deregister =>
    dsimp only at hs
    split at hs
    · rename_i h; cases hs; exact .goto (isIdle_iff.1 h.1) rfl rfl rfl (List.suffix_refl _) (Or.inl rfl)
    · cases hs
  | free b =>
    dsimp only at hs
    split at hs
    · cases hs; exact .quiet rfl rfl (List.suffix_refl _) rfl (Or.inl rfl) rfl
    · cases hs
  | start cfg =>
    dsimp only at hs
    split at hs
    · rename_i st hp
      split at hs
      · cases hs
      · split at hs
        · split at hs
          · cases hs
            exact .quiet rfl rfl ((List.suffix_cons _ _).trans (List.suffix_cons _ _)) rfl
              (Or.inr (by simp [hp, Pc.isEnable, Pc.holdsMutex])) rfl
          · split at hs
            · rename_i he; cases hs; exact .beginStop hp rfl he rfl (List.suffix_cons _ _)
            · cases hs; exact .goto hp rfl rfl rfl (List.suffix_cons _ _) (Or.inr ⟨rfl, rfl⟩)
        · cases hs
    · cases hs
  | stop sh =>
    dsimp only at hs
    split at hs
    · rename_i st hp
      split at hs
      · rename_i he; cases hs; exact .beginStop hp rfl he rfl (List.suffix_refl _)
      · cases hs; exact .quiet rfl rfl (List.suffix_refl _) rfl (Or.inl rfl) rfl
    · cases hs
  | getBuffer =>
    dsimp only at hs
    split at hs
    · split at hs
      · cases hs; exact .quiet rfl rfl (List.suffix_cons _ _) rfl (Or.inl rfl) rfl
      · cases hs; exact .quiet rfl rfl (List.suffix_cons _ _) rfl (Or.inl rfl) rfl
    · cases hs
  | getTraceContext =>
    dsimp only at hs
    split at hs
    · split at hs
      · cases hs; exact .quiet rfl rfl (List.suffix_cons _ _) rfl (Or.inl rfl) rfl
      · cases hs; exact .quiet rfl rfl (List.suffix_cons _ _) rfl (Or.inl rfl) rfl
    · cases hs
  | ret =>
    dsimp only at hs
    split at hs
    · rename_i st hp
      cases hs
      obtain ⟨q, hq, e⟩ := pop_goto s t st
      rw [e]; exact .goto hp (calm_enable hq) rfl rfl (List.suffix_refl _) (Or.inl rfl)
    · cases hs
  | throw =>
    dsimp only at hs
    split at hs
    · rename_i st hp
      cases hs
      obtain ⟨q, hq, e⟩ := unwind_goto s t st
      rw [e]; exact .goto hp (calm_enable hq) rfl rfl (List.suffix_refl _) (Or.inl rfl)
    · cases hs

end Phosphor.TLog
