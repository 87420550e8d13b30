import Verif.Proof.TraceLogCtl
/-
The control invariant holds in every reachable state.
-/
namespace Phosphor.TLog
variable {ε : Type} {tid : Nat → Nat} {s s' : St ε} {t : Nat}

/-- `Ctl` does not depend on the other components. -/
theorem Ctl.congr (h : Ctl s) (h1 : s'.enabled = s.enabled) (h2 : s'.owner = s.owner)
    (h3 : s'.buffer = s.buffer) (h4 : s'.generation = s.generation)
    (h5 : s'.registered = s.registered) (h6 : s'.status = s.status) (h7 : s'.nextBuf = s.nextBuf)
    (h8 : s'.tenant = s.tenant) (h9 : s'.pc = s.pc) : Ctl s' := by
  obtain ⟨_, _, _, _, _, _, _, _, _, _, _, _, _, _, _, _, _⟩ := s
  obtain ⟨_, _, _, _, _, _, _, _, _, _, _, _, _, _, _, _, _⟩ := s'
  dsimp only at h1 h2 h3 h4 h5 h6 h7 h8 h9
  subst h1 h2 h3 h4 h5 h6 h7 h8 h9
  obtain ⟨h1,h2,h3,h4,h5,h6,h7,h8,h9,h10,h11,h12,h13,h14,h15,h16,h17,h18,h19,h20,h21,h22,h23,h24,h25⟩ := h
  exact ⟨h1,h2,h3,h4,h5,h6,h7,h8,h9,h10,h11,h12,h13,h14,h15,h16,h17,h18,h19,h20,h21,h22,h23,h24,h25⟩

theorem Ctl.logStep (h : Ctl s) {sp : Bool} (hs : s.logStep tid t sp = .to s') : Ctl s' := by
  unfold St.logStep at hs
  split at hs
  case h_1 e hp =>
    cases hs; split
    · exact h.readOn hp
    · exact h.readOff hp
  case h_2 e hp =>
    cases hl : (s.tenant t).lock <;> cases sp <;>
      simp [hl, ChunkLock.tryRound, ChunkLock.casWeak] at hs <;> cases hs
    · exact h.tryOk hl hp
    all_goals first | exact h | exact h.tryFail hp
  case h_3 e hp =>
    cases hs; split
    · exact h.initYes (by assumption) hp
    · exact h.initNo hp
  case h_4 e hp =>
    split at hs
    · cases hs; exact h.chunkReplace hp
    · rename_i hc
      split at hs
      · split at hs
        · cases hs; split
          · exact h.chunkReplace hp
          · exact h.chunkUse (by rw [hc]; simp) hp
        · cases hs
      · cases hs
  case h_5 e hp =>
    split at hs
    · rename_i he
      cases hs; split
      · rename_i hc; exact h.recheckRet he (by intro hn; simp [hn] at hc) hp
      · rename_i hc; exact h.recheckGet he (by simpa using hc) hp
    · cases hs; exact h.recheckOff hp
  case h_6 e hp =>
    split at hs
    · cases hs
    · cases hs; exact h.retLoad (by assumption) hp
  case h_7 e p hp =>
    split at hs
    · cases hs
    · split at hs
      · cases hs; exact h.retDo hp
      · cases hs
  case h_8 e hp =>
    cases hs; split
    · exact h.checkOn hp
    · exact h.checkOff (by simpa using ‹¬ s.enabled = true›) hp
  case h_9 e hp =>
    cases hs; split
    · exact h.nullNo hp
    · exact h.nullYes (by simpa using ‹¬ s.buffer.isSome = true›) hp
  case h_10 e hp =>
    split at hs
    · cases hs
    · cases hs; exact h.getLoad (by assumption) hp
  case h_11 e p hp =>
    split at hs
    · split at hs
      · split at hs
        · cases hs; exact h.getOk hp
        · cases hs; exact h.getWaits hp
      · split at hs
        · cases hs; exact h.getOk hp
        · cases hs; exact h.getFull hp
    · cases hs
  case h_12 e p hp =>
    split at hs
    · split at hs
      · cases hs; exact h.waitOk hp
      · cases hs; exact h
    · cases hs
  case h_13 full hp =>
    cases hs
    cases full
    · exact h.failedNoneStep hp
    · exact h.failedSomeStep hp
  case h_14 full g hp => cases hs; exact h.failUnlock hp
  case h_15 full g hp =>
    split at hs
    · rename_i ho; cases hs; exact h.mutexOk ho.1 hp
    · cases hs; exact h.mutexNo hp
  case h_16 full g hp =>
    split at hs
    · cases hs; exact h.compareNo hp
    · split at hs
      · cases hs; exact h.compareStop (by assumption) hp
      · cases hs; exact h.compareNo hp
  case h_17 e hp =>
    split at hs
    · cases hs
    · split at hs
      · split at hs
        · cases hs; exact h.store hp
        · cases hs
      · cases hs
  case h_18 hp => cases hs; exact h.unlock hp
  case h_19 => cases hs

theorem Ctl.popEvict {sh : Bool} {st : List Frame} (h : Ctl s)
    (hp : s.pc t = .held (.evict [] sh) st) : Ctl (s.pop t st) := by
  match st, hp with
  | [], hp => exact h.releasePop hp
  | .resumeUser :: st, hp => exact h.resumePop hp
  | .finishStart _ :: st, hp => exact h.finishPop hp

theorem Ctl.popUser {st : List Frame} (h : Ctl s) (hp : s.pc t = .held .user st) :
    Ctl (s.pop t st) := by
  match st, hp with
  | [], hp => exact h.releaseUser hp
  | .resumeUser :: st, hp => exact h.resumePopUser hp
  | .finishStart _ :: st, hp => exact h.finishPopUser hp

theorem goto_goto (s : St ε) (t : Nat) (p q : Pc ε) : (s.goto t p).goto t q = s.goto t q := by
  simp only [St.goto]
  congr 1
  funext u
  by_cases hu : u = t <;> simp [setf, hu]

theorem goto_pc (s : St ε) (t : Nat) (p : Pc ε) : (s.goto t p).pc t = p := by simp [St.goto]

/-- What is left of the stack when an exception leaves `stop`. -/
def unwound : List Frame → Option (List Frame)
  | [] => none
  | .resumeUser :: st => some st
  | .finishStart _ :: st => unwound st

theorem unwind_eq (s : St ε) (t : Nat) (st : List Frame) :
    s.unwind t st = match unwound st with
      | none => s.goto t .release
      | some st' => s.goto t (.held .user st') := by
  induction st with
  | nil => rfl
  | cons f st ih => cases f <;> simp [St.unwind, unwound, ih]

theorem unwound_sub {st st' : List Frame} (h : unwound st = some st') :
    finishing st' ≤ finishing st := by
  induction st with
  | nil => simp [unwound] at h
  | cons f st ih =>
    cases f with
    | resumeUser => simp [unwound] at h; subst h; simp
    | finishStart _ => have := ih (by simpa [unwound] using h); simp; omega

set_option maxHeartbeats 1000000 in
theorem Ctl.throwUser {st st' : List Frame} (hst : unwound st = some st') (h : Ctl s)
    (hp : s.pc t = .held .user st) : Ctl (s.goto t (.held .user st')) := by
  have hle := unwound_sub hst
  have hsub : finishing st' ≠ 0 → finishing st ≠ 0 := by omega
  ctl s h hp (.held .user st' : Pc ε)

theorem Ctl.unwindUser {st : List Frame} (h : Ctl s) (hp : s.pc t = .held .user st) :
    Ctl (s.unwind t st) := by
  rw [unwind_eq]
  split
  · exact h.releaseUser hp
  · exact h.throwUser (by assumption) hp

theorem Ctl.registerBody {n : Str} (h : Ctl s) (hp : s.pc t = .regBody n) :
    Ctl ((s.registerBody tid t n).goto t .release) := by
  unfold St.registerBody
  split
  · exact (h.regNo hp).congr rfl rfl rfl rfl rfl rfl rfl rfl rfl
  · rename_i hi
    have := h.regOk (by simpa using hi) hp
    dsimp only
    split <;> exact this.congr rfl rfl rfl rfl rfl rfl rfl rfl rfl

theorem Ctl.deregisterBody (h : Ctl s) (hp : s.pc t = .deregBody)
    (hs : s.deregisterBody tid t = some s') : Ctl (s'.goto t .release) := by
  unfold St.deregisterBody at hs
  split at hs
  · rename_i hi
    have hk := h.deregOk hi hp
    dsimp only at hs
    split at hs
    · cases hs
    · rename_i s1 hs1
      have : ∃ hp', s1 = { s with heap := hp' } := by
        unfold St.returnOwn at hs1
        split at hs1
        · cases hs1; exact ⟨_, rfl⟩
        · split at hs1
          · cases hs1; exact ⟨_, rfl⟩
          · split at hs1
            · cases hs1; exact ⟨_, rfl⟩
            · cases hs1
      obtain ⟨hp', rfl⟩ := this
      split at hs <;> cases hs <;> exact hk.congr rfl rfl rfl rfl rfl rfl rfl rfl rfl
  · cases hs; exact (h.deregNo hp).congr rfl rfl rfl rfl rfl rfl rfl rfl rfl

theorem Ctl.heldStep (h : Ctl s) {other : Bool} (hs : s.heldStep tid t other = .to s') : Ctl s' := by
  unfold St.heldStep at hs
  split at hs
  case h_1 n hp => cases hs; exact h.registerBody hp
  case h_2 hp =>
    split at hs
    · cases hs; exact h.deregisterBody hp (by assumption)
    · cases hs
  case h_3 hp => cases hs; exact h.release hp
  case h_4 sh st hp =>
    split at hs
    · cases hs; exact (h.callback hp).congr rfl rfl rfl rfl rfl rfl rfl rfl rfl
    · cases hs
      have : Ctl { s with hist := .noCall :: s.hist } := h.congr rfl rfl rfl rfl rfl rfl rfl rfl rfl
      exact this.popEvict hp
  case h_5 u rest sh st hp =>
    split at hs
    · cases hs; exact h.evictOther hp
    · cases hl : (s.tenant u).lock <;>
        simp [hl, ChunkLock.lockRound, ChunkLock.casWeak] at hs <;> cases hs
      · exact h.evictLock hl hp
      · exact h
      · exact h
  case h_6 u rest sh st hp => cases hs; exact h.evictClear hp
  case h_7 u rest sh st hp => cases hs; exact h.evictUnlock hp
  case h_8 st hp => cases hs; exact h.create hp
  case h_9 st hp =>
    cases hs
    match st, hp with
    | [], hp => exact h.enableRelease hp
    | .resumeUser :: st, hp => exact h.enableResume hp
    | .finishStart _ :: st, hp =>
      have := h.stack t
      rw [hp] at this
      simp [Pc.stackOk] at this
  case h_10 => cases hs

theorem isIdle_iff : s.isIdle t = true ↔ s.pc t = .idle := by
  unfold St.isIdle; split <;> simp_all

theorem goto_same {p : Pc ε} (hp : s.pc t = p) : s.goto t p = s := by
  subst hp
  simp only [St.goto]
  have : setf s.pc t (s.pc t) = s.pc := by
    funext u; by_cases hu : u = t <;> simp [setf, hu]
  rw [this]

theorem Ctl.next (h : Ctl s) {c : Choice ε} (hs : s.next true tid t c = .to s') : Ctl s' := by
  unfold St.next at hs
  cases c with
  | step =>
    dsimp only at hs
    split at hs
    · exact h.heldStep hs
    · exact h.logStep hs
  | spurious =>
    dsimp only at hs
    split at hs
    · exact h.heldStep hs
    · exact h.logStep hs
  | log e =>
    dsimp only at hs
    split at hs
    · cases hs; exact h.callLog (isIdle_iff.1 (by assumption))
    · cases hs
  | lock =>
    dsimp only at hs
    split at hs
    · rename_i hc; cases hs; exact h.callLock hc.2 (isIdle_iff.1 hc.1)
    · cases hs
  | register n =>
    dsimp only at hs
    split at hs
    · rename_i hc; cases hs; exact h.callReg hc.2 (isIdle_iff.1 hc.1)
    · cases hs
  | deregister =>
    dsimp only at hs
    split at hs
    · rename_i hc; cases hs; exact h.callDereg hc.2 (isIdle_iff.1 hc.1)
    · cases hs
  | free b =>
    dsimp only at hs
    split at hs
    · rename_i hb
      cases hs
      obtain ⟨h1,h2,h3,h4,h5,h6,h7,h8,h9,h10,h11,h12,h13,h14,h15,h16,h17,h18,h19,h20,h21,h22,h23,h24,h25⟩ := h
      refine ⟨h1,h2,h3,h4,h5,h6,h7,h8,h9,h10,h11,h12,h13,h14,h15,?_,?_,h18,h19,h20,h21,h22,h23,h24,h25⟩
      · intro c; simp only [setf]; grind
      · intro c; simp only [setf]; grind
    · cases hs
  | start cfg =>
    dsimp only at hs
    split at hs
    · rename_i st hp
      split at hs
      · cases hs
      · rename_i hst
        have hst : finishing st = 0 := by simpa using hst
        split at hs
        · have hc : Ctl { s with config := cfg, hist := .configure cfg :: s.hist } := h.congr rfl rfl rfl rfl rfl rfl rfl rfl rfl
          split at hs
          · cases hs; exact h.congr rfl rfl rfl rfl rfl rfl rfl rfl rfl
          · split at hs
            · cases hs; exact hc.startStop hst (by assumption) hp
            · cases hs; exact hc.startFresh hst (by simpa using ‹¬ s.enabled = true›) hp
        · cases hs
    · cases hs
  | stop sh =>
    dsimp only at hs
    split at hs
    · rename_i hp
      split at hs
      · cases hs; exact h.stopUser (by assumption) hp
      · cases hs; exact h
    · cases hs
  | getBuffer =>
    dsimp only at hs
    split at hs
    · rename_i hp
      split at hs
      · cases hs; exact h.congr rfl rfl rfl rfl rfl rfl rfl rfl rfl
      · rename_i he
        cases hs
        have := h.retrieveUser (by simpa using he) hp
        rwa [goto_same (s := s.retrieve) hp] at this
    · cases hs
  | getTraceContext =>
    dsimp only at hs
    split at hs
    · rename_i hp
      split at hs
      · cases hs; exact h.congr rfl rfl rfl rfl rfl rfl rfl rfl rfl
      · rename_i he
        cases hs
        have := h.retrieveUser (by simpa using he) hp
        rw [goto_same (s := s.retrieve) hp] at this
        exact this.congr rfl rfl rfl rfl rfl rfl rfl rfl rfl
    · cases hs
  | ret =>
    dsimp only at hs
    split at hs
    · cases hs; exact h.popUser (by assumption)
    · cases hs
  | throw =>
    dsimp only at hs
    split at hs
    · cases hs; exact h.unwindUser (by assumption)
    · cases hs

theorem Reachable.ctl (h : Reachable true tid s) : Ctl s := by
  induction h with
  | init => exact Ctl.init
  | step _ hs ih => exact ih.next hs

end Phosphor.TLog
