import Verif.Proof.TraceLogSafe
import Verif.Proof.TraceLogMore
/-
What becomes of the event passed to `logEvent`.
-/
namespace Phosphor.TLog
variable {ε : Type} {tid : Nat → Nat} {s s' : St ε} {t : Nat}

/-- The event a thread in `logEvent` has in hand and may still store. -/
def Pc.event : Pc ε → Option ε
  | .readEnabled e | .tryLock e | .checkInit e | .checkChunk e | .recheck e | .retLoad e | .retDo e _
  | .getCheck e | .getNull e | .getLoad e | .getDo e _ | .getWait e _ | .store e => some e
  | _ => none

/-- The thread is in `logEvent`, not holding the mutex. -/
def Pc.logging : Pc ε → Bool
  | .idle | .regBody _ | .deregBody | .release | .held _ _ | .compare _ _ => false
  | _ => true

/-- The reasons for which `logEvent` gives up its event. -/
inductive Drop (t : Nat) (s : St ε) : Prop
  | off (h : s.enabled = false)
  | master (h : (s.tenant t).lock = .masterLocked)
  | stranger (e : ε) (h : s.pc t = .checkInit e) (hi : (s.tenant t).initialised = false)
  | null (h : s.buffer = none)
  | full (e : ε) (p : Nat) (h : s.pc t = .getDo e p) (hm : s.mapped p = true) (hr : (s.heap p).mode ≠ .ring)
      (hf : (s.heap p).chunks.length ≤ (s.heap p).counter)

/-- What a step does with the event in hand. -/
inductive Fate (t : Nat) (s s' : St ε) : Prop
  | keep (he : (s'.pc t).event = (s.pc t).event) (hs : ∀ b, b ≠ s.nextBuf → s'.stored b = s.stored b)
  | store (e : ε) (b i : Nat) (hp : s.pc t = .store e) (hc : (s.tenant t).chunk = some (b, i))
      (hm : s.mapped b = true) (he : (s'.pc t).event = none)
      (hs : s'.stored = setf s.stored b (setf (s.stored b) t (s.stored b t ++ [e])))
  | drop (hd : Drop t s) (he : (s'.pc t).event = none) (hs : s'.stored = s.stored)

theorem tryRound_cases (l : ChunkLock.State) (sp : Bool) :
    (ChunkLock.tryRound l sp = (.slaveLocked, some true) ∧ l = .unlocked) ∨
    (ChunkLock.tryRound l sp = (l, some false) ∧ l = .masterLocked) ∨
    (ChunkLock.tryRound l sp = (l, none) ∧ (sp = true ∨ l = .slaveLocked)) := by
  cases l <;> cases sp <;> simp [ChunkLock.tryRound, ChunkLock.casWeak]

theorem logStep_fate {sp : Bool} (hs : s.logStep tid t sp = .to s') : Fate t s s' := by
  have keep : ∀ {p q : Pc ε} {x : St ε}, s.pc t = p → p.event = q.event → x.stored = s.stored →
      Fate t s (x.goto t q) := by
    intro p q x hp he hx
    refine .keep ?_ (fun b _ => by rw [show (x.goto t q).stored = x.stored from rfl, hx])
    rw [goto_pc, hp, he]
  unfold St.logStep at hs
  split at hs
  case h_1 e hp =>
    cases hs
    by_cases h : s.enabled = true
    · rw [if_pos h]; exact keep hp rfl rfl
    · rw [if_neg h]; exact .drop (.off (by simpa using h)) (by rw [goto_pc]; rfl) rfl
  case h_2 e hp =>
    rcases tryRound_cases (s.tenant t).lock sp with ⟨h, hl⟩ | ⟨h, hl⟩ | ⟨h, hl⟩ <;> simp only [h] at hs <;> cases hs
    · exact keep hp rfl rfl
    · exact .drop (.master hl) (by rw [goto_pc]; rfl) rfl
    · exact .keep rfl (fun _ _ => rfl)
  case h_3 e hp =>
    cases hs
    by_cases h : (s.tenant t).initialised = true
    · rw [if_pos h]; exact keep hp rfl rfl
    · rw [if_neg h]; exact .drop (.stranger e hp (by simpa using h)) (by rw [goto_pc]; rfl) rfl
  case h_4 e hp =>
    split at hs
    · cases hs; exact keep hp rfl rfl
    · split at hs
      · split at hs
        · cases hs
          split <;> exact keep hp rfl rfl
        · cases hs
      · cases hs
  case h_5 e hp =>
    split at hs
    · cases hs; split <;> exact keep hp rfl rfl
    · rename_i h
      cases hs; exact .drop (.off (by simpa using h)) (by rw [goto_pc]; rfl) rfl
  case h_6 e hp =>
    split at hs
    · cases hs
    · cases hs; exact keep hp rfl rfl
  case h_7 e p hp =>
    split at hs
    · cases hs
    · split at hs
      · cases hs; exact keep hp rfl rfl
      · cases hs
  case h_8 e hp =>
    cases hs
    by_cases h : s.enabled = true
    · rw [if_pos h]; exact keep hp rfl rfl
    · rw [if_neg h]; exact .drop (.off (by simpa using h)) (by rw [goto_pc]; rfl) rfl
  case h_9 e hp =>
    cases hs
    rcases h : s.buffer with _ | p
    · exact .drop (.null h) (by rw [goto_pc]; rfl) rfl
    · exact keep hp rfl rfl
  case h_10 e hp =>
    split at hs
    · cases hs
    · cases hs; exact keep hp rfl rfl
  case h_11 e p hp =>
    split at hs
    · rename_i hm
      split at hs
      · split at hs <;> cases hs <;> exact keep hp rfl rfl
      · rename_i hr
        split at hs
        · cases hs; exact keep hp rfl rfl
        · rename_i x r hn hg
          cases hs
          refine .drop (.full e p hp hm hr ?_) (by rw [goto_pc]; rfl) rfl
          simp only [Buffer.getChunkFixed] at hg
          split at hg
          · rename_i hge; exact hge
          · cases hg; exact absurd rfl (hn _)
    · cases hs
  case h_12 e p hp =>
    split at hs
    · split at hs
      · cases hs; exact keep hp rfl rfl
      · cases hs; exact .keep rfl (fun _ _ => rfl)
    · cases hs
  case h_13 f hp => cases hs; exact keep hp rfl rfl
  case h_14 f g hp => cases hs; exact keep hp rfl rfl
  case h_15 f g hp => split at hs <;> cases hs <;> exact keep hp rfl rfl
  case h_16 f g hp =>
    split at hs
    · cases hs; exact keep hp rfl rfl
    · split at hs
      · cases hs
        exact keep (x := { s with enabled := false, hist := _ }) (q := .held (.evict s.registered false) []) hp rfl rfl
      · cases hs; exact keep hp rfl rfl
  case h_17 e hp =>
    split at hs
    · cases hs
    · rename_i b i hc
      split at hs
      · rename_i hm
        split at hs
        · cases hs
          exact .store e b i hp hc hm (by rw [goto_pc]; rfl) rfl
        · cases hs
      · cases hs
  case h_18 hp => cases hs; exact keep hp rfl rfl
  case h_19 => cases hs

theorem heldStep_fate {o : Bool} (hs : s.heldStep tid t o = .to s') : Fate t s s' := by
  have keep : ∀ {p q : Pc ε} {x : St ε}, s.pc t = p → p.event = q.event → x.stored = s.stored →
      Fate t s (x.goto t q) := by
    intro p q x hp he hx
    refine .keep ?_ (fun b _ => by rw [show (x.goto t q).stored = x.stored from rfl, hx])
    rw [goto_pc, hp, he]
  have pop : ∀ {p : Pc ε} {x : St ε} {st : List Frame}, s.pc t = p → p.event = none → x.stored = s.stored →
      Fate t s (x.pop t st) := by
    intro p x st hp he hx
    match st with
    | [] => exact keep hp he hx
    | .resumeUser :: _ => exact keep hp he hx
    | .finishStart _ :: _ => exact keep hp he hx
  unfold St.heldStep at hs
  split at hs
  case h_1 n hp =>
    cases hs
    refine keep hp rfl ?_
    unfold St.registerBody
    split
    · rfl
    · dsimp only; split <;> rfl
  case h_2 hp =>
    split at hs
    · rename_i x hx
      cases hs
      refine keep hp rfl ?_
      by_cases hi : (s.tenant t).initialised = true
      · obtain ⟨h', rfl⟩ := deregisterBody_eq hi hx; rfl
      · simp only [St.deregisterBody, hi] at hx; cases hx; rfl
    · cases hs
  case h_3 hp => cases hs; exact keep hp rfl rfl
  case h_4 sh st hp =>
    split at hs
    · cases hs; exact keep hp rfl rfl
    · cases hs; exact pop hp rfl rfl
  case h_5 u rest sh st hp =>
    split at hs
    · cases hs; exact keep hp rfl rfl
    · split at hs
      · cases hs; exact keep hp rfl rfl
      · cases hs; exact .keep rfl (fun _ _ => rfl)
  case h_6 u rest sh st hp => cases hs; exact keep hp rfl rfl
  case h_7 u rest sh st hp => cases hs; exact keep hp rfl rfl
  case h_8 n st hp =>
    cases hs
    refine .keep (by rw [goto_pc, hp]; rfl) (fun b hb => ?_)
    simp [St.goto, St.createBuffer, setf, hb]
  case h_9 st hp => cases hs; exact pop hp rfl rfl
  case h_10 => cases hs

/-- What the next step of `t` does with its event, if it is not a call of `logEvent`. -/
theorem next_fate {pol : Bool} {c : Choice ε} (hs : s.next pol tid t c = .to s') :
    (∃ e, c = .log e ∧ s.pc t = .idle ∧ s' = s.goto t (.readEnabled e)) ∨
    ((∀ e, c ≠ .log e) ∧ Fate t s s') := by
  have keep : ∀ {p q : Pc ε} {x : St ε}, s.pc t = p → p.event = q.event → x.stored = s.stored →
      Fate t s (x.goto t q) := by
    intro p q x hp he hx
    refine .keep ?_ (fun b _ => by rw [show (x.goto t q).stored = x.stored from rfl, hx])
    rw [goto_pc, hp, he]
  unfold St.next at hs
  split at hs
  · right; refine ⟨(fun e h => by cases h), ?_⟩
    split at hs
    · exact heldStep_fate hs
    · exact logStep_fate hs
  · right; refine ⟨(fun e h => by cases h), ?_⟩
    split at hs
    · exact heldStep_fate hs
    · exact logStep_fate hs
  · left
    split at hs
    · rename_i e hi
      cases hs
      exact ⟨e, rfl, isIdle_iff.1 hi, rfl⟩
    · cases hs
  · right; refine ⟨(fun e h => by cases h), ?_⟩
    split at hs
    · rename_i h; cases hs; exact keep (isIdle_iff.1 h.1) rfl rfl
    · cases hs
  · right; refine ⟨(fun e h => by cases h), ?_⟩
    split at hs
    · rename_i h; cases hs; exact keep (isIdle_iff.1 h.1) rfl rfl
    · cases hs
  · right; refine ⟨(fun e h => by cases h), ?_⟩
    split at hs
    · rename_i h; cases hs; exact keep (isIdle_iff.1 h.1) rfl rfl
    · cases hs
  · right; refine ⟨(fun e h => by cases h), ?_⟩
    split at hs
    · cases hs; exact .keep rfl (fun _ _ => rfl)
    · cases hs
  · right; refine ⟨(fun e h => by cases h), ?_⟩
    split at hs
    · rename_i st hp
      split at hs
      · cases hs
      · split at hs
        · dsimp only at hs
          split at hs
          · cases hs; exact .keep rfl (fun _ _ => rfl)
          · split at hs
            · cases hs
              exact keep (x := { s with config := _, enabled := false, hist := _ }) (q := .held (.evict _ false) _) hp rfl rfl
            · cases hs
              exact keep (x := { s with config := _, hist := _ }) hp rfl rfl
        · cases hs
    · cases hs
  · right; refine ⟨(fun e h => by cases h), ?_⟩
    split at hs
    · rename_i st hp
      split at hs
      · cases hs
        exact keep (x := { s with enabled := false, hist := _ }) (q := .held (.evict _ _) _) hp rfl rfl
      · cases hs; exact .keep rfl (fun _ _ => rfl)
    · cases hs
  · right; refine ⟨(fun e h => by cases h), ?_⟩
    split at hs
    · split at hs <;> cases hs <;> exact .keep rfl (fun _ _ => rfl)
    · cases hs
  · right; refine ⟨(fun e h => by cases h), ?_⟩
    split at hs
    · split at hs <;> cases hs <;> exact .keep rfl (fun _ _ => rfl)
    · cases hs
  · right; refine ⟨(fun e h => by cases h), ?_⟩
    split at hs
    · rename_i st hp
      cases hs
      match st with
      | [] => exact keep hp rfl rfl
      | .resumeUser :: _ => exact keep hp rfl rfl
      | .finishStart _ :: _ => exact keep hp rfl rfl
    · cases hs
  · right; refine ⟨(fun e h => by cases h), ?_⟩
    split at hs
    · rename_i st hp
      cases hs
      obtain ⟨q, hq, e⟩ := unwind_goto s t st
      rw [e]
      refine keep hp ?_ rfl
      have := hq
      revert this
      cases q <;> simp [Pc.calm, Pc.event, Pc.holdsMutex]
    · cases hs

theorem heldStep_pc {o : Bool} (hs : s.heldStep tid t o = .to s') {u : Nat} (hu : u ≠ t) :
    s'.pc u = s.pc u := by
  have mv : ∀ (x : St ε) (q : Pc ε), x.pc = s.pc → (x.goto t q).pc u = s.pc u := by
    intro x q hx; rw [goto_other _ _ _ _ hu, hx]
  unfold St.heldStep at hs
  split at hs
  case h_1 n hp =>
    cases hs
    refine mv _ _ ?_
    unfold St.registerBody
    split
    · rfl
    · dsimp only; split <;> rfl
  case h_2 hp =>
    split at hs
    · rename_i x hx
      cases hs
      refine mv _ _ ?_
      by_cases hi : (s.tenant t).initialised = true
      · obtain ⟨h', rfl⟩ := deregisterBody_eq hi hx; rfl
      · simp only [St.deregisterBody, hi] at hx; cases hx; rfl
    · cases hs
  case h_3 hp => cases hs; exact mv _ _ rfl
  case h_4 sh st hp =>
    split at hs
    · cases hs; exact mv _ _ rfl
    · cases hs
      obtain ⟨q, _, e⟩ := pop_goto { s with hist := .noCall :: s.hist } t st
      rw [e]; exact mv _ _ rfl
  case h_5 u rest sh st hp =>
    split at hs
    · cases hs; exact mv _ _ rfl
    · split at hs
      · cases hs; exact mv _ _ rfl
      · cases hs; rfl
  case h_6 u rest sh st hp => cases hs; exact mv _ _ rfl
  case h_7 u rest sh st hp => cases hs; exact mv _ _ rfl
  case h_8 n st hp => cases hs; exact mv _ _ rfl
  case h_9 st hp =>
    cases hs
    obtain ⟨q, _, e⟩ := pop_goto s.enable t st
    rw [e]; exact mv _ _ rfl
  case h_10 => cases hs

theorem logStep_pc {sp : Bool} (hs : s.logStep tid t sp = .to s') {u : Nat} (hu : u ≠ t) :
    s'.pc u = s.pc u := by
  rcases logStep_cases hs with rfl | h | ⟨_, _, _, _, rfl⟩ | ⟨_, _, _, _, rfl⟩ | ⟨_, _, _, _, _, rfl⟩
  · rfl
  · exact h.pc u hu
  · exact goto_other _ _ _ _ hu
  · exact goto_other _ _ _ _ hu
  · exact goto_other _ _ _ _ hu

/-- A step of `t` moves no other thread. -/
theorem next_pc {pol : Bool} {c : Choice ε} (hs : s.next pol tid t c = .to s') {u : Nat} (hu : u ≠ t) :
    s'.pc u = s.pc u := by
  have mv : ∀ (x : St ε) (q : Pc ε), x.pc = s.pc → (x.goto t q).pc u = s.pc u := by
    intro x q hx; rw [goto_other _ _ _ _ hu, hx]
  unfold St.next at hs
  split at hs
  · split at hs
    · exact heldStep_pc hs hu
    · exact logStep_pc hs hu
  · split at hs
    · exact heldStep_pc hs hu
    · exact logStep_pc hs hu
  · split at hs
    · cases hs; exact mv _ _ rfl
    · cases hs
  · split at hs
    · cases hs; exact mv _ _ rfl
    · cases hs
  · split at hs
    · cases hs; exact mv _ _ rfl
    · cases hs
  · split at hs
    · cases hs; exact mv _ _ rfl
    · cases hs
  · split at hs
    · cases hs; rfl
    · cases hs
  · split at hs
    · split at hs
      · cases hs
      · split at hs
        · dsimp only at hs
          split at hs
          · cases hs; rfl
          · split at hs
            · cases hs; exact mv { s with config := _, enabled := false, hist := _ } _ rfl
            · cases hs; exact mv _ _ rfl
        · cases hs
    · cases hs
  · split at hs
    · split at hs
      · cases hs; exact mv { s with enabled := false, hist := _ } _ rfl
      · cases hs; rfl
    · cases hs
  · split at hs
    · split at hs <;> cases hs <;> rfl
    · cases hs
  · split at hs
    · split at hs <;> cases hs <;> rfl
    · cases hs
  · split at hs
    · rename_i st hp
      cases hs
      obtain ⟨q, _, e⟩ := pop_goto s t st
      rw [e]; exact mv _ _ rfl
    · cases hs
  · split at hs
    · rename_i st hp
      cases hs
      obtain ⟨q, hq, e⟩ := unwind_goto s t st
      rw [e]; exact mv _ _ rfl
    · cases hs

theorem St.stopPhase_off (h : Hist s) {o : Nat} (ho : s.owner = some o) (hp : (s.pc o).stopPhase ≠ none) :
    s.enabled = false := by
  have h1 := h.stop
  unfold St.phase at h1
  rw [ho] at h1
  rw [h.en]
  match hh : s.hist with
  | [] => rfl
  | .stop _ _ :: _ => rfl
  | .call _ :: _ | .noCall :: _ | .run _ _ :: _ | .configure _ :: _ | .reject :: _ | .retrieve _ :: _
  | .refuse :: _ | .regOk _ _ :: _ | .regRefused _ :: _ | .deregOk _ :: _ | .deregRefused _ :: _ =>
    rw [hh] at h1
    exact absurd h1.symm hp

theorem Pc.mastering_stopPhase {p : Pc ε} (h : p.mastering ≠ none) : p.stopPhase ≠ none := by
  unfold Pc.mastering at h; split at h <;> simp_all [stopPhase]

/-- A chunk lock is taken by the log only while tracing is off. -/
theorem master_off (h : Hist s) (hc : Ctl0 s) (hl : (s.tenant t).lock = .masterLocked) : s.enabled = false := by
  have := (hc.master t).1 hl
  unfold St.mastered at this
  split at this
  · cases this
  · rename_i o ho
    exact St.stopPhase_off h ho (Pc.mastering_stopPhase (by rw [this]; simp))

/-- The reasons in terms of the history. -/
theorem Drop.why (hd : Drop t s) (h : Hist s) (hc : Ctl0 s) (hda : Data tid s) :
    on s.hist = false ∨ isReg t s.hist = false ∨
    ∃ p, s.buffer = some p ∧ (s.heap p).mode = .fixed ∧ (s.heap p).chunks.length ≤ (s.heap p).counter ∧
      ∃ e, s.pc t = .getDo e p := by
  cases hd with
  | off h' => left; rw [← h.en]; exact h'
  | master hl => left; rw [← h.en]; exact master_off h hc hl
  | stranger e hp hi => right; left; rw [← h.reg]; exact hi
  | null hb =>
    left; rw [← h.en]
    cases he : s.enabled
    · rfl
    · exact absurd hb (hc.hasBuf he)
  | full e p hp hm hr hf =>
    right; right
    have hptr := hc.ptr t p (by rw [hp]; rfl)
    have : s.status p = .inLog := by
      rcases hptr with h' | h'
      · exact h'
      · simp [St.mapped, h'] at hm
    refine ⟨p, (hc.status p).1 this, ?_, hf, e, hp⟩
    exact (hda.bufs p).mode.resolve_right hr

/-- The operations on a buffer. -/
inductive BufOp (tid : Nat → Nat) : Buffer ε → Buffer ε → Prop
  | same (x : Buffer ε) : BufOp tid x x
  | ret (x : Buffer ε) (i : Nat) : BufOp tid x (x.returnChunk i)
  | claim (x : Buffer ε) (n : Nat) : BufOp tid x (x.ringClaim n).1
  | fixed (x : Buffer ε) (n : Nat) : BufOp tid x (x.getChunkFixed n).1
  | take (x x' : Buffer ε) (n i : Nat) (h : x.ringTake n = some (x', i)) : BufOp tid x x'
  | push (x : Buffer ε) (i : Nat) (e : ε) : BufOp tid x (x.pushAt i e).1

theorem BufOp.shape {x x' : Buffer ε} (h : BufOp tid x x') : SameShape x' x := by
  cases h with
  | same => exact .refl _
  | ret i => exact .returnChunk _ _
  | claim n => exact .ringClaim _ _
  | fixed n => exact .getChunkFixed _ _
  | take _ n i h => exact .ringTake h
  | push i e => exact .pushAt _ _ _

theorem BufOp.counter {x x' : Buffer ε} (h : BufOp tid x x') : x.counter ≤ x'.counter := by
  cases h with
  | same => exact Nat.le_refl _
  | ret i => unfold Buffer.returnChunk; split <;> exact Nat.le_refl _
  | claim n => unfold Buffer.ringClaim; dsimp only; split <;> exact Nat.le_succ _
  | fixed n => unfold Buffer.getChunkFixed; dsimp only; split <;> exact Nat.le_succ _
  | take _ n i h =>
    unfold Buffer.ringTake at h
    split at h
    · cases h
    · cases h; exact Nat.le_refl _
  | push i e => unfold Buffer.pushAt; split <;> exact Nat.le_refl _

theorem BufOp.setf {h : Nat → Buffer ε} {p : Nat} {x : Buffer ε} (hx : BufOp tid (h p) x) (b : Nat) :
    BufOp tid (h b) (setf h p x b) := by
  simp only [Phosphor.setf]
  split
  · subst_vars; exact hx
  · exact .same _

theorem logStep_bufop {sp : Bool} (hs : s.logStep tid t sp = .to s') (b : Nat) :
    BufOp tid (s.heap b) (s'.heap b) := by
  unfold St.logStep at hs
  split at hs
  case h_1 => cases hs; exact .same _
  case h_2 => split at hs <;> cases hs <;> exact .same _
  case h_3 => cases hs; exact .same _
  case h_4 =>
    split at hs
    · cases hs; exact .same _
    · split at hs
      · split at hs
        · cases hs; exact .same _
        · cases hs
      · cases hs
  case h_5 => split at hs <;> cases hs <;> exact .same _
  case h_6 =>
    split at hs
    · cases hs
    · cases hs; exact .same _
  case h_7 e p hp =>
    split at hs
    · cases hs
    · split at hs
      · cases hs; exact BufOp.setf (.ret _ _) b
      · cases hs
  case h_8 => cases hs; exact .same _
  case h_9 => cases hs; exact .same _
  case h_10 =>
    split at hs
    · cases hs
    · cases hs; exact .same _
  case h_11 e p hp =>
    split at hs
    · split at hs
      · have := BufOp.claim (tid := tid) (s.heap p) (tid t)
        split at hs <;> rename_i hx <;> rw [hx] at this <;> cases hs <;> exact BufOp.setf this b
      · have := BufOp.fixed (tid := tid) (s.heap p) (tid t)
        split at hs <;> rename_i hx <;> rw [hx] at this <;> cases hs <;> exact BufOp.setf this b
    · cases hs
  case h_12 e p hp =>
    split at hs
    · split at hs
      · rename_i hx
        cases hs; exact BufOp.setf (.take _ _ _ _ hx) b
      · cases hs; exact .same _
    · cases hs
  case h_13 => cases hs; exact .same _
  case h_14 => cases hs; exact .same _
  case h_15 => split at hs <;> cases hs <;> exact .same _
  case h_16 =>
    split at hs
    · cases hs; exact .same _
    · split at hs <;> cases hs <;> exact .same _
  case h_17 e hp =>
    split at hs
    · cases hs
    · rename_i p i hc
      split at hs
      · have := BufOp.push (tid := tid) (s.heap p) i e
        split at hs
        · rename_i hx
          rw [hx] at this
          cases hs; exact BufOp.setf this b
        · cases hs
      · cases hs
  case h_18 => cases hs; exact .same _
  case h_19 => cases hs

theorem pop_heap (s : St ε) (t : Nat) (st : List Frame) : (s.pop t st).heap = s.heap := by
  obtain ⟨q, _, e⟩ := pop_goto s t st
  rw [e]; rfl

theorem heldStep_bufop {other : Bool} (hs : s.heldStep tid t other = .to s') (b : Nat) (hn : b ≠ s.nextBuf) :
    BufOp tid (s.heap b) (s'.heap b) := by
  unfold St.heldStep at hs
  split at hs
  case h_1 n hp =>
    cases hs
    unfold St.registerBody
    split
    · exact .same _
    · dsimp only; split <;> exact .same _
  case h_2 hp =>
    split at hs
    · rename_i x hx
      cases hs
      unfold St.deregisterBody at hx
      split at hx
      · split at hx
        · cases hx
        · rename_i y hy
          have : BufOp tid (s.heap b) (y.heap b) := by
            unfold St.returnOwn at hy
            split at hy
            · cases hy; exact .same _
            · split at hy
              · cases hy; exact .same _
              · split at hy
                · cases hy; exact BufOp.setf (.ret _ _) b
                · cases hy
          dsimp only at hx
          split at hx <;> cases hx <;> exact this
      · cases hx; exact .same _
    · cases hs
  case h_3 => cases hs; exact .same _
  case h_4 =>
    split at hs
    · cases hs; exact .same _
    · cases hs
      rw [pop_heap]; exact .same _
  case h_5 =>
    split at hs
    · cases hs; exact .same _
    · split at hs <;> cases hs <;> exact .same _
  case h_6 => cases hs; exact .same _
  case h_7 => cases hs; exact .same _
  case h_8 =>
    cases hs
    simp only [St.goto, St.createBuffer, setf, hn, if_false]; exact .same _
  case h_9 =>
    cases hs
    rw [pop_heap]; exact .same _
  case h_10 => cases hs

/-- A step does to an existing buffer nothing or one of the operations. -/
theorem next_bufop {pol : Bool} {c : Choice ε} (hs : s.next pol tid t c = .to s') (b : Nat)
    (hn : b ≠ s.nextBuf) : BufOp tid (s.heap b) (s'.heap b) := by
  have key : ∀ sp, (match s.logStep tid t sp with
      | .blocked => s.heldStep tid t sp
      | o => o) = .to s' → BufOp tid (s.heap b) (s'.heap b) := by
    intro sp hs
    split at hs
    · exact heldStep_bufop hs b hn
    · exact logStep_bufop hs b
  have same : s'.heap = s.heap → BufOp tid (s.heap b) (s'.heap b) := fun h => by rw [h]; exact .same _
  unfold St.next at hs
  cases c with
  | step => exact key false hs
  | spurious => exact key true hs
  | log e => dsimp only at hs; split at hs <;> cases hs; exact same rfl
  | lock => dsimp only at hs; split at hs <;> cases hs; exact same rfl
  | register n => dsimp only at hs; split at hs <;> cases hs; exact same rfl
  | deregister => dsimp only at hs; split at hs <;> cases hs; exact same rfl
  | free c => dsimp only at hs; split at hs <;> cases hs; exact same rfl
  | start cfg =>
    dsimp only at hs
    split at hs
    · split at hs
      · cases hs
      · split at hs
        · split at hs
          · cases hs; exact same rfl
          · split at hs <;> cases hs <;> exact same rfl
        · cases hs
    · cases hs
  | stop sh =>
    dsimp only at hs
    split at hs
    · split at hs <;> cases hs <;> exact same rfl
    · cases hs
  | getBuffer =>
    dsimp only at hs
    split at hs
    · split at hs <;> cases hs <;> exact same rfl
    · cases hs
  | getTraceContext =>
    dsimp only at hs
    split at hs
    · split at hs <;> cases hs <;> exact same rfl
    · cases hs
  | ret =>
    dsimp only at hs
    split at hs
    · cases hs; exact same (pop_heap _ _ _)
    · cases hs
  | throw =>
    dsimp only at hs
    split at hs
    · rename_i st _
      cases hs
      obtain ⟨q, _, e⟩ := unwind_goto s t st
      exact same (by rw [e]; rfl)
    · cases hs

/-- The event passed with a choice. -/
def calls : Choice ε → List ε
  | .log e => [e]
  | _ => []

/-- While tracing is on, the thread is registered and no chunk is refused, every event passed to
`logEvent` is in hand or stored. -/
theorem complete_step (h : Hist s) (hc : Ctl0 s) (hd : Data tid s) {pol : Bool} {u : Nat} {c : Choice ε}
    (hs : s.next pol tid u c = .to s') (hon : on s.hist = true) (hreg : isReg t s.hist = true) {b : Nat}
    (hb : s.buffer = some b) (hf : (s'.heap b).mode = .ring ∨ (s'.heap b).counter ≤ (s'.heap b).chunks.length) :
    s'.stored b t ++ (s'.pc t).event.toList =
      s.stored b t ++ (s.pc t).event.toList ++ (if u = t then calls c else []) := by
  have hbn : b ≠ s.nextBuf := by have := hc.last b hb; omega
  by_cases hu : u = t
  · subst hu
    rw [if_pos rfl]
    rcases next_fate hs with ⟨e, rfl, hp, rfl⟩ | ⟨hl, hfate⟩
    · rw [goto_pc, hp]; simp [St.goto, Pc.event, calls]
    · have hcl : calls c = [] := by
        cases c <;> first | rfl | exact absurd rfl (hl _)
      rw [hcl, List.append_nil]
      cases hfate with
      | keep he hst => rw [he, hst b hbn]
      | store e b' i hp hch hm he hst =>
        have : s.status b' = .inLog := by
          rcases hc.chunk u b' i hch with h' | h'
          · exact h'
          · simp [St.mapped, h'] at hm
        have hb' := (hc.status b').1 this
        rw [hb] at hb'
        cases hb'
        rw [he, hst, hp]
        simp [setf, Pc.event]
      | drop hdr he hst =>
        exfalso
        rcases hdr.why h hc hd with h' | h' | ⟨p, hp, hmode, hfull, e, hpc⟩
        · rw [hon] at h'; cases h'
        · rw [hreg] at h'; cases h'
        · rw [hb] at hp
          cases hp
          have key : ∀ sp, s.logStep tid u sp = .to s' → (s.heap b).counter < (s'.heap b).counter := by
            intro sp hs
            simp only [St.logStep, hpc, hmode] at hs
            split at hs
            · rw [show (s.heap b).getChunkFixed (tid u) =
                ({ s.heap b with counter := (s.heap b).counter + 1 }, .null) by
                  simp [Buffer.getChunkFixed, Buffer.size, hfull]] at hs
              cases hs
              simp [St.goto, St.setBuf]
            · cases hs
          have hlen := (next_bufop hs b hbn).shape.2.1
          have hf := hf.resolve_left (by rw [(next_bufop hs b hbn).shape.2.2, hmode]; simp)
          have hsame : ∀ sp, ∀ o, s.logStep tid u sp = o → o ≠ .blocked := by
            intro sp o ho
            simp only [St.logStep, hpc, hmode] at ho
            split at ho
            · rw [show (s.heap b).getChunkFixed (tid u) =
                ({ s.heap b with counter := (s.heap b).counter + 1 }, .null) by
                  simp [Buffer.getChunkFixed, Buffer.size, hfull]] at ho
              subst ho; simp
            · subst ho; simp
          have : (s.heap b).counter < (s'.heap b).counter := by
            have hidle : s.isIdle u ≠ true := fun hi => by
              have := isIdle_iff.1 hi; rw [hpc] at this; cases this
            unfold St.next at hs
            cases c with
            | step =>
              dsimp only at hs
              split at hs
              · exact absurd (by assumption) (hsame false _ rfl)
              · exact key _ hs
            | spurious =>
              dsimp only at hs
              split at hs
              · exact absurd (by assumption) (hsame true _ rfl)
              · exact key _ hs
            | log e => exact absurd rfl (hl e)
            | free d =>
              dsimp only at hs
              split at hs
              · cases hs
                rw [hpc] at he
                cases he
              · cases hs
            | _ => simp [hpc, hidle] at hs
          omega
  · rw [if_neg hu, List.append_nil, next_pc hs (Ne.symm hu)]
    congr 1
    rcases next_fate hs with ⟨e, rfl, hp, rfl⟩ | ⟨hl, hfate⟩
    · rfl
    · cases hfate with
      | keep he hst => rw [hst b hbn]
      | store e b' i hp hch hm he hst =>
        rw [hst]
        simp only [setf]
        split
        · rename_i hbb; subst hbb; simp [setf, Ne.symm hu]
        · rfl
      | drop hdr he hst => rw [hst]

theorem goto_gen {p q : Pc ε} {x : St ε} (hp : s.pc t = p) (h : ((x.goto t q).pc t).gen ≠ none)
    (hq : q.gen = none ∨ p.gen ≠ none ∨ ∃ f, p = .failed f) : (s.pc t).gen ≠ none ∨ ∃ f, s.pc t = .failed f := by
  rw [goto_pc] at h
  rw [hp]
  rcases hq with hq | hq
  · exact absurd hq h
  · exact hq

theorem logStep_gen {sp : Bool} (hs : s.logStep tid t sp = .to s') (h : (s'.pc t).gen ≠ none) :
    (s.pc t).gen ≠ none ∨ ∃ f, s.pc t = .failed f := by
  have mv : ∀ {p q : Pc ε} {x : St ε}, s.pc t = p → ((x.goto t q).pc t).gen ≠ none →
      (q.gen = none ∨ p.gen ≠ none ∨ ∃ f, p = .failed f) → (s.pc t).gen ≠ none ∨ ∃ f, s.pc t = .failed f :=
    goto_gen
  unfold St.logStep at hs
  split at hs
  case h_1 hp => cases hs; exact mv hp h (Or.inl (by split <;> rfl))
  case h_2 hp =>
    split at hs <;> cases hs
    · exact mv hp h (Or.inl rfl)
    · exact mv hp h (Or.inl rfl)
    · exact Or.inl h
  case h_3 hp => cases hs; exact mv hp h (Or.inl (by split <;> rfl))
  case h_4 hp =>
    split at hs
    · cases hs; exact mv hp h (Or.inl rfl)
    · split at hs
      · split at hs
        · cases hs; exact mv hp h (Or.inl (by split <;> rfl))
        · cases hs
      · cases hs
  case h_5 hp =>
    split at hs <;> cases hs
    · exact mv hp h (Or.inl (by split <;> rfl))
    · exact mv hp h (Or.inl rfl)
  case h_6 hp =>
    split at hs
    · cases hs
    · cases hs; exact mv hp h (Or.inl rfl)
  case h_7 e p hp =>
    split at hs
    · cases hs
    · split at hs
      · cases hs; exact mv hp h (Or.inl rfl)
      · cases hs
  case h_8 hp => cases hs; exact mv hp h (Or.inl (by split <;> rfl))
  case h_9 hp => cases hs; exact mv hp h (Or.inl (by split <;> rfl))
  case h_10 hp =>
    split at hs
    · cases hs
    · cases hs; exact mv hp h (Or.inl rfl)
  case h_11 e p hp =>
    split at hs
    · split at hs <;> split at hs <;> cases hs <;> exact mv hp h (Or.inl rfl)
    · cases hs
  case h_12 e p hp =>
    split at hs
    · split at hs
      · cases hs; exact mv hp h (Or.inl rfl)
      · cases hs; exact Or.inl h
    · cases hs
  case h_13 hp => exact Or.inr ⟨_, hp⟩
  case h_14 hp => exact Or.inl (by rw [hp]; simp [Pc.gen])
  case h_15 hp => exact Or.inl (by rw [hp]; simp [Pc.gen])
  case h_16 hp => exact Or.inl (by rw [hp]; simp [Pc.gen])
  case h_17 e hp =>
    split at hs
    · cases hs
    · split at hs
      · split at hs
        · cases hs; exact mv hp h (Or.inl rfl)
        · cases hs
      · cases hs
  case h_18 hp => cases hs; exact mv hp h (Or.inl rfl)
  case h_19 => cases hs

theorem pop_gen (x : St ε) (st : List Frame) : ((x.pop t st).pc t).gen = none := by
  match st with
  | [] => rw [St.pop, goto_pc]; rfl
  | .resumeUser :: _ => rw [St.pop, goto_pc]; rfl
  | .finishStart _ :: _ => rw [St.pop, goto_pc]; rfl

theorem heldStep_gen {o : Bool} (hs : s.heldStep tid t o = .to s') (h : (s'.pc t).gen ≠ none) :
    (s.pc t).gen ≠ none ∨ ∃ f, s.pc t = .failed f := by
  exfalso
  have mv : ∀ {q : Pc ε} {x : St ε}, ((x.goto t q).pc t).gen ≠ none → q.gen = none → False := by
    intro q x h hq; rw [goto_pc] at h; exact h hq
  unfold St.heldStep at hs
  split at hs
  case h_1 => cases hs; exact mv h rfl
  case h_2 =>
    split at hs
    · cases hs; exact mv h rfl
    · cases hs
  case h_3 => cases hs; exact mv h rfl
  case h_4 =>
    split at hs
    · cases hs; exact mv h rfl
    · cases hs; exact h (pop_gen _ _)
  case h_5 hp =>
    split at hs
    · cases hs; exact mv h rfl
    · split at hs <;> cases hs
      · exact mv h rfl
      · rw [hp] at h; exact h rfl
  case h_6 => cases hs; exact mv h rfl
  case h_7 => cases hs; exact mv h rfl
  case h_8 => cases hs; exact mv h rfl
  case h_9 => cases hs; exact h (pop_gen _ _)
  case h_10 => cases hs

/-- Only a thread that failed to get a chunk comes to `maybe_stop`. -/
theorem next_gen {pol : Bool} {c : Choice ε} (hs : s.next pol tid t c = .to s') (h : (s'.pc t).gen ≠ none) :
    (s.pc t).gen ≠ none ∨ ∃ f, s.pc t = .failed f := by
  have mv : ∀ {q : Pc ε} {x : St ε}, ((x.goto t q).pc t).gen ≠ none → q.gen = none → False := by
    intro q x h hq; rw [goto_pc] at h; exact h hq
  unfold St.next at hs
  split at hs
  · split at hs
    · exact heldStep_gen hs h
    · exact logStep_gen hs h
  · split at hs
    · exact heldStep_gen hs h
    · exact logStep_gen hs h
  · split at hs
    · cases hs; exact (mv h rfl).elim
    · cases hs
  · split at hs
    · cases hs; exact (mv h rfl).elim
    · cases hs
  · split at hs
    · cases hs; exact (mv h rfl).elim
    · cases hs
  · split at hs
    · cases hs; exact (mv h rfl).elim
    · cases hs
  · split at hs
    · cases hs; exact Or.inl h
    · cases hs
  · split at hs
    · rename_i st hp
      split at hs
      · cases hs
      · split at hs
        · dsimp only at hs
          split at hs
          · cases hs; exact Or.inl h
          · split at hs <;> cases hs <;> exact (mv h rfl).elim
        · cases hs
    · cases hs
  · split at hs
    · split at hs <;> cases hs
      · exact (mv h rfl).elim
      · exact Or.inl h
    · cases hs
  · split at hs
    · split at hs <;> cases hs <;> exact Or.inl h
    · cases hs
  · split at hs
    · split at hs <;> cases hs <;> exact Or.inl h
    · cases hs
  · split at hs
    · cases hs; exact absurd (pop_gen _ _) h
    · cases hs
  · split at hs
    · rename_i st hp
      cases hs
      rw [unwind_eq] at h
      split at h <;> exact (mv h rfl).elim
    · cases hs

end Phosphor.TLog
