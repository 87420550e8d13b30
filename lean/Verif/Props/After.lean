import Verif.Proof.TraceLogStored
import Verif.Props.TraceLogFull
/-
C103: once tracing is off every thread finishes at most the event it is on, and once the stop is over
nothing is written at all.
-/
namespace Phosphor.TLog
variable {ε : Type} {tid : Nat → Nat} {s s' : St ε} {t : Nat} {pol : Bool}

/-- The event of a call of `logEvent` that has found tracing on and has neither stored it nor given up.
Code: trace_log.cc:127-133, trace_log.cc:256-309. -/
def Pc.entered : Pc ε → Option ε
  | .tryLock e | .checkInit e | .checkChunk e | .recheck e | .retLoad e | .retDo e _
  | .getCheck e | .getNull e | .getLoad e | .getDo e _ | .getWait e _ | .store e => some e
  | _ => none

theorem Pc.event_cases (p : Pc ε) : (∃ e, p = .readEnabled e) ∨ p.event = p.entered := by
  cases p <;> simp [Pc.event, Pc.entered]

theorem Pc.entered_none {p : Pc ε} (h : p.event = none) : p.entered = none := by
  cases p <;> simp_all [Pc.event, Pc.entered]

/-- While tracing is off no call of `logEvent` gets past the first look at `enabled`. -/
theorem entered_step (hoff : s.enabled = false) {c : Choice ε} (hs : s.next pol tid t c = .to s') :
    (s'.pc t).entered = none ∨ (s'.pc t).entered = (s.pc t).entered := by
  rcases next_fate hs with ⟨e, rfl, hp, rfl⟩ | ⟨hl, hf⟩
  · left; rw [goto_pc]; rfl
  · cases hf with
    | keep he hst =>
      rcases Pc.event_cases (s.pc t) with ⟨e, h1⟩ | h1
      · left
        cases c with
        | step =>
          simp only [St.next, St.logStep, h1, hoff] at hs
          cases hs; rw [goto_pc]; rfl
        | spurious =>
          simp only [St.next, St.logStep, h1, hoff] at hs
          cases hs; rw [goto_pc]; rfl
        | log e' => exact absurd rfl (hl e')
        | free b =>
          simp only [St.next] at hs
          split at hs
          · cases hs; show (s.pc t).entered = none; rw [h1]; rfl
          · cases hs
        | _ => simp [St.next, h1, St.isIdle] at hs
      · rcases Pc.event_cases (s'.pc t) with ⟨e, h2⟩ | h2
        · left; rw [h2]; rfl
        · right; rw [← h1, ← h2, he]
    | store e b i hp hch hm he hst => exact .inl (Pc.entered_none he)
    | drop hd he hst => exact .inl (Pc.entered_none he)

theorem off_keep {new h : List Item} (hn : ∀ b cfg, Item.run b cfg ∉ new) (ho : on h = false) :
    on (new ++ h) = false := by
  induction new with
  | nil => exact ho
  | cons i new ih =>
    have h1 := ih (fun b cfg hm => hn b cfg (by simp [hm]))
    cases i with
    | run b cfg => exact absurd (by simp) (hn b cfg)
    | stop => rfl
    | _ => exact h1

theorem stopping_keep {new h : List Item} (hn : ∀ b cfg, Item.run b cfg ∉ new) (ho : on h = false)
    (hk : HistOk (new ++ h)) (hst : stopping h = none) : stopping (new ++ h) = none := by
  induction new with
  | nil => exact hst
  | cons i new ih =>
    have hn' : ∀ b cfg, Item.run b cfg ∉ new := fun b cfg hm => hn b cfg (by simp [hm])
    have h1 := off_keep hn' ho
    cases i with
    | stop sh full =>
      exact absurd (hk.1.2.symm.trans h1) (by simp)
    | _ => rfl

theorem Reachable.en (h : Reachable pol tid s) : s.enabled = on s.hist := h.hist.en

/-- What the threads other than `t` do leaves alone what `t` has stored; what `t` does while tracing is
off stores at most the event of the call it is in. -/
theorem off_stored (h : Reachable pol tid s) (hoff : on s.hist = false) {u : Nat} {c : Choice ε}
    (hs : s.next pol tid u c = .to s') (t : Nat) :
    (∀ b, s'.stored b t = s.stored b t) ∧ ((s'.pc t).entered = none ∨ (s'.pc t).entered = (s.pc t).entered) ∨
    (s'.pc t).entered = none ∧ ∃ e b, (s.pc t).entered = some e ∧ s'.stored b t = s.stored b t ++ [e] ∧
      ∀ b', b' ≠ b → s'.stored b' t = s.stored b' t := by
  have new : s'.stored = setf s.stored s.nextBuf (fun _ => []) → s'.stored = s.stored := by
    intro e
    rw [e]
    funext b
    by_cases hb : b = s.nextBuf
    · subst hb; rw [setf_self, unborn_stored h _ (Nat.le_refl _)]
    · rw [setf_ne _ _ hb]
  have keep : (s'.pc t).entered = none ∨ (s'.pc t).entered = (s.pc t).entered := by
    by_cases hu : t = u
    · subst hu; exact entered_step (h.en.trans hoff) hs
    · exact .inr (by rw [next_pc hs hu])
  rcases next_stored hs with e | e | ⟨e, b, i, hp, hc, hm, hst⟩
  · exact .inl ⟨fun b => by rw [e], keep⟩
  · exact .inl ⟨fun b => by rw [new e], keep⟩
  · by_cases hu : t = u
    · subst hu
      refine .inr ⟨?_, e, b, by rw [hp]; rfl, by rw [hst]; simp [setf], fun b' hb' => by rw [hst]; simp [setf, hb']⟩
      rcases next_fate hs with ⟨e', rfl, hp', rfl⟩ | ⟨hl, hf⟩
      · rw [goto_pc]; rfl
      · cases hf with
        | keep he hst' =>
          have h1 := hst' b (by
            rintro rfl
            have := (h.ctl0.fresh s.nextBuf).2 (Nat.le_refl _)
            simp [St.mapped, this] at hm)
          rw [hst, setf_self] at h1
          have h2 := congrArg List.length (congrFun h1 t)
          simp [setf] at h2
        | drop hd he hst' => exact Pc.entered_none he
        | store e' b' i' hp' hch hm' he hst' => exact Pc.entered_none he
    · refine .inl ⟨fun b' => ?_, keep⟩
      rw [hst]
      by_cases hb : b' = b
      · subst hb; rw [setf_self, setf_ne _ _ hu]
      · rw [setf_ne _ _ hb]

/-- C103: while tracing is off, whatever the threads do, a thread that was not already past the first
look at `enabled` stores nothing, and one that was stores at most the event of that call, once, into one
buffer. Any callbacks. -/
theorem C103_finish (h : Reachable pol tid s) (hoff : on s.hist = false) {l : List (Nat × Choice ε)}
    (hr : s.run pol tid l = .to s') {new : List Item} (hh : s'.hist = new ++ s.hist)
    (hn : ∀ b cfg, Item.run b cfg ∉ new) (t : Nat) :
    (∀ b, s'.stored b t = s.stored b t) ∨
    ∃ e b, (s.pc t).entered = some e ∧ s'.stored b t = s.stored b t ++ [e] ∧
      ∀ b', b' ≠ b → s'.stored b' t = s.stored b' t := by
  suffices H : (∀ b, s'.stored b t = s.stored b t) ∧ ((s'.pc t).entered = none ∨ (s'.pc t).entered = (s.pc t).entered) ∨
      (s'.pc t).entered = none ∧ ∃ e b, (s.pc t).entered = some e ∧ s'.stored b t = s.stored b t ++ [e] ∧
        ∀ b', b' ≠ b → s'.stored b' t = s.stored b' t by
    rcases H with H | H
    · exact .inl H.1
    · exact .inr H.2
  induction l generalizing s new with
  | nil => cases hr; exact .inl ⟨fun _ => rfl, .inr rfl⟩
  | cons p l ih =>
    obtain ⟨u, c⟩ := p
    simp only [St.run] at hr
    split at hr
    · rename_i s1 hs
      obtain ⟨n1, h1⟩ := next_hist hs
      obtain ⟨n2, h2⟩ := run_hist hr
      have e : new = n2 ++ n1 := by
        rw [h2, h1, ← List.append_assoc] at hh
        exact (List.append_cancel_right hh).symm
      subst e
      have hn1 : ∀ b cfg, Item.run b cfg ∉ n1 := fun b cfg hm => hn b cfg (by simp [hm])
      have hn2 : ∀ b cfg, Item.run b cfg ∉ n2 := fun b cfg hm => hn b cfg (by simp [hm])
      have I := ih (h.step hs) (by rw [h1]; exact off_keep hn1 hoff) hr h2 hn2
      rcases off_stored h hoff hs t with ⟨f1, f2⟩ | ⟨f0, e, b, f1, f2, f3⟩
      · rcases I with ⟨i1, i2⟩ | ⟨i0, e, b, i1, i2, i3⟩
        · refine .inl ⟨fun b => (i1 b).trans (f1 b), ?_⟩
          rcases i2 with i2 | i2
          · exact .inl i2
          · rw [i2]; exact f2
        · refine .inr ⟨i0, e, b, ?_, by rw [i2, f1], fun b' hb' => (i3 b' hb').trans (f1 b')⟩
          rcases f2 with f2 | f2
          · rw [f2] at i1; cases i1
          · rw [← f2]; exact i1
      · rcases I with ⟨i1, i2⟩ | ⟨i0, e', b', i1, _⟩
        · refine .inr ⟨?_, e, b, f1, by rw [i1, f2], fun b' hb' => (i1 b').trans (f3 b' hb')⟩
          rcases i2 with i2 | i2
          · exact i2
          · rw [i2]; exact f0
        · rw [f0] at i1; cases i1
    · cases hr
    · cases hr

/-- C103: the buffer into which such a last event goes is the one of the run being stopped, and the stop
is still waiting for the thread. -/
theorem C103_last (h : Reachable true tid s) (hoff : on s.hist = false) {c : Choice ε}
    (hs : s.next true tid t c = .to s') {b : Nat} (hb : b < s.nextBuf) (hne : s'.stored b t ≠ s.stored b t) :
    stopping s.hist ≠ none ∧ s.buffer = some b ∧ available s.hist = some b ∧
    ∃ o, s.owner = some o ∧ t ∈ (s.pc o).pending ∧ (s.tenant t).lock = .slaveLocked := by
  have key : ∃ e i, s.pc t = .store e ∧ (s.tenant t).chunk = some (b, i) := by
    rcases next_fate hs with ⟨e, rfl, hp, rfl⟩ | ⟨hl, hf⟩
    · exact absurd rfl hne
    · cases hf with
      | keep he hst => exact absurd (by rw [hst b (by omega)]) hne
      | drop hd he hst => exact absurd (by rw [hst]) hne
      | store e b' i hp hch hm he hst =>
        by_cases hbb : b = b'
        · subst hbb; exact ⟨e, i, hp, hch⟩
        · exact absurd (by rw [hst]; simp [setf, hbb]) hne
  obtain ⟨e, i, hp, hch⟩ := key
  have hmem : t ∈ s.pend := by
    rcases h.ctl.comm t (.inl (by simp [hch])) with h' | h'
    · rw [h.en, hoff] at h'; cases h'
    · exact h'
  have hbuf := h.ctl.chunkBuf t b i hch
  unfold St.pend at hmem
  split at hmem
  · cases hmem
  · rename_i o ho
    have h1 := h.hist.stop
    have h2 := h.hist.buf
    simp only [St.phase, St.creating, ho] at h1 h2
    have h3 : (s.pc o).stopPhase ≠ none ∧ (s.pc o).isEnable = false := by
      revert hmem
      cases s.pc o with
      | held w st => cases w <;> simp [Pc.stopPhase, Pc.pending, Pc.isEnable]
      | _ => simp [Pc.pending]
    refine ⟨by rw [h1]; exact h3.1, hbuf, ?_, o, ho, hmem, (h.ctl.slave t).2 (by rw [hp]; rfl)⟩
    rw [h3.2] at h2
    simpa [hbuf] using h2.symm

/-! ### After the stop -/

/-- No thread has a chunk or is on the way to one. -/
theorem quiet_none (h : Reachable true tid s) (hoff : on s.hist = false) (hst : stopping s.hist = none) (t : Nat) :
    (s.tenant t).chunk = none ∧ (s.pc t).committed = false := by
  have hpend : s.pend = [] := by
    have := h.hist.stop
    rw [hst] at this
    unfold St.phase at this
    unfold St.pend
    split
    · rfl
    · rename_i o ho
      rw [ho] at this
      dsimp only at this
      revert this
      cases s.pc o with
      | held w st => cases w <;> simp [Pc.stopPhase, Pc.pending]
      | _ => simp [Pc.pending]
  have hc := h.ctl.comm t
  rw [h.en, hoff, hpend] at hc
  constructor
  · by_cases hn : (s.tenant t).chunk = none
    · exact hn
    · simpa using hc (.inl hn)
  · by_cases hn : (s.pc t).committed = true
    · simpa using hc (.inr hn)
    · simpa using hn

theorem heldStep_still {other : Bool} (hc : (s.tenant t).chunk = none) (hs : s.heldStep tid t other = .to s') (b : Nat)
    (hn : b ≠ s.nextBuf) : SameBuf b s s' := by
  by_cases hp : s.pc t = .deregBody
  · simp only [St.heldStep, hp, St.deregisterBody, St.returnOwn, hc] at hs
    by_cases hi : (s.tenant t).initialised = true
    · simp only [hi, if_true] at hs
      split at hs
      · rename_i y hy
        cases hs
        split at hy <;> cases hy <;> exact ⟨rfl, rfl, rfl⟩
      · cases hs
    · simp only [if_neg hi] at hs
      cases hs; exact ⟨rfl, rfl, rfl⟩
  · unfold St.heldStep at hs
    split at hs
    case h_1 n hp =>
      cases hs
      unfold St.registerBody
      split
      · exact ⟨rfl, rfl, rfl⟩
      · dsimp only; split <;> exact ⟨rfl, rfl, rfl⟩
    case h_2 hp' => exact absurd hp' hp
    case h_3 => cases hs; exact ⟨rfl, rfl, rfl⟩
    case h_4 =>
      split at hs
      · cases hs; exact ⟨rfl, rfl, rfl⟩
      · cases hs
        exact SameBuf.trans (s2 := { s with hist := .noCall :: s.hist }) ⟨rfl, rfl, rfl⟩ (pop_same _ _ _ _)
    case h_5 =>
      split at hs
      · cases hs; exact ⟨rfl, rfl, rfl⟩
      · split at hs <;> cases hs <;> exact ⟨rfl, rfl, rfl⟩
    case h_6 => cases hs; exact ⟨rfl, rfl, rfl⟩
    case h_7 => cases hs; exact ⟨rfl, rfl, rfl⟩
    case h_8 =>
      cases hs
      exact ⟨by simp [St.goto, St.createBuffer, setf, hn], by simp [St.goto, St.createBuffer, setf, hn],
        by simp [St.goto, St.createBuffer, setf, hn]⟩
    case h_9 =>
      cases hs
      exact SameBuf.trans (s2 := s.enable) ⟨rfl, rfl, rfl⟩ (pop_same _ _ _ _)
    case h_10 => cases hs

theorem next_still (hc : (s.tenant t).chunk = none) (hp : (s.pc t).committed = false) {c : Choice ε}
    (hs : s.next pol tid t c = .to s') (b : Nat) (hn : b ≠ s.nextBuf) : SameBuf b s s' := by
  have hl : s.mapped b = false ∨ ((s.pc t).bufPtr ≠ some b ∧ ∀ i, (s.tenant t).chunk ≠ some (b, i)) := by
    right
    refine ⟨?_, by simp [hc]⟩
    revert hp
    cases s.pc t <;> simp [Pc.committed, Pc.bufPtr]
  have key : ∀ sp, (match s.logStep tid t sp with
      | .blocked => s.heldStep tid t sp
      | o => o) = .to s' → SameBuf b s s' := by
    intro sp hs
    split at hs
    · exact heldStep_still hc hs b hn
    · exact logStep_writes hs b hl
  unfold St.next at hs
  cases c with
  | step => exact key false hs
  | spurious => exact key true hs
  | log e => dsimp only at hs; split at hs <;> cases hs; exact ⟨rfl, rfl, rfl⟩
  | lock => dsimp only at hs; split at hs <;> cases hs; exact ⟨rfl, rfl, rfl⟩
  | register n => dsimp only at hs; split at hs <;> cases hs; exact ⟨rfl, rfl, rfl⟩
  | deregister => dsimp only at hs; split at hs <;> cases hs; exact ⟨rfl, rfl, rfl⟩
  | free c => dsimp only at hs; split at hs <;> cases hs; exact ⟨rfl, rfl, rfl⟩
  | start cfg =>
    dsimp only at hs
    split at hs
    · split at hs
      · cases hs
      · split at hs
        · split at hs
          · cases hs; exact ⟨rfl, rfl, rfl⟩
          · split at hs <;> cases hs <;> exact ⟨rfl, rfl, rfl⟩
        · cases hs
    · cases hs
  | stop sh =>
    dsimp only at hs
    split at hs
    · split at hs <;> cases hs <;> exact ⟨rfl, rfl, rfl⟩
    · cases hs
  | getBuffer =>
    dsimp only at hs
    split at hs
    · split at hs <;> cases hs <;> exact ⟨rfl, rfl, rfl⟩
    · cases hs
  | getTraceContext =>
    dsimp only at hs
    split at hs
    · split at hs <;> cases hs <;> exact ⟨rfl, rfl, rfl⟩
    · cases hs
  | ret =>
    dsimp only at hs
    split at hs
    · cases hs; exact pop_same _ _ _ _
    · cases hs
  | throw =>
    dsimp only at hs
    split at hs
    · cases hs; exact unwind_same _ _ _ _
    · cases hs

/-- C103: after a stop is over (the callback has been called, or there was none to call), and until the
next run begins, no thread has a chunk, and every buffer stays as it is to the last bit: the chunks that
are out, their events and their counters, whatever calls of `logEvent` were in flight. -/
theorem C103_quiet (h : Reachable true tid s) (hoff : on s.hist = false) (hst : stopping s.hist = none)
    {l : List (Nat × Choice ε)} (hr : s.run true tid l = .to s') {new : List Item} (hh : s'.hist = new ++ s.hist)
    (hn : ∀ b cfg, Item.run b cfg ∉ new) :
    (∀ t, (s'.tenant t).chunk = none) ∧ s'.stored = s.stored ∧
    ∀ b, b < s.nextBuf → s'.heap b = s.heap b ∧ s'.contents b = s.contents b := by
  induction l generalizing s new with
  | nil => cases hr; exact ⟨fun t => (quiet_none h hoff hst t).1, rfl, fun _ _ => ⟨rfl, rfl⟩⟩
  | cons p l ih =>
    obtain ⟨u, c⟩ := p
    simp only [St.run] at hr
    split at hr
    · rename_i s1 hs
      obtain ⟨n1, h1⟩ := next_hist hs
      obtain ⟨n2, h2⟩ := run_hist hr
      have e : new = n2 ++ n1 := by
        rw [h2, h1, ← List.append_assoc] at hh
        exact (List.append_cancel_right hh).symm
      subst e
      have hn1 : ∀ b cfg, Item.run b cfg ∉ n1 := fun b cfg hm => hn b cfg (by simp [hm])
      have hn2 : ∀ b cfg, Item.run b cfg ∉ n2 := fun b cfg hm => hn b cfg (by simp [hm])
      obtain ⟨i1, i3, i2⟩ := ih (h.step hs) (by rw [h1]; exact off_keep hn1 hoff)
        (by rw [h1]; exact stopping_keep hn1 hoff (h1 ▸ (h.step hs).hist.ok) hst) hr h2 hn2
      have hm := nextBuf_mono hs
      obtain ⟨q1, q2⟩ := quiet_none h hoff hst u
      refine ⟨i1, i3.trans ?_, fun b hb => ?_⟩
      · rcases next_stored hs with e | e | ⟨e, b, i, hp, hc, _⟩
        · exact e
        · rw [e]
          funext b
          by_cases hb : b = s.nextBuf
          · subst hb; rw [setf_self, unborn_stored h _ (Nat.le_refl _)]
          · rw [setf_ne _ _ hb]
        · rw [q1] at hc; cases hc
      have w := next_still q1 q2 hs b (by omega)
      obtain ⟨j1, j2⟩ := i2 b (by omega)
      exact ⟨j1.trans w.1, j2.trans w.2⟩
    · cases hr
    · cases hr

/-! ### Cases that meet the hypotheses -/

/-- Thread 1 has stored event 5 and is about to store event 6 in its chunk when thread 0 turns tracing
off: the stop waits, thread 1 stores event 6, and what it logs after that is not stored. -/
def lastEvent : List (Nat × Choice Nat) :=
  registers 1 ['a'] ++ starts fixed1 ++ (1, .log 5) :: steps 1 11 ++ (1, .log 6) :: steps 1 4 ++
    [(0, .lock), (0, .stop false)] ++ steps 0 1

example : check true id lastEvent (fun s => !on s.hist && stopping s.hist == some false &&
      (s.pc 1).entered == some 6 && s.stored 0 1 == [5] && s.nextBuf == 1 && s.buffer == some 0) = true ∧
    check true id (lastEvent ++ steps 1 1) (fun s => s.stored 0 1 == [5, 6] && !on s.hist && s.hist.length == 4) = true ∧
    check true id (lastEvent ++ steps 1 2 ++ (1, .log 7) :: steps 1 1 ++ steps 0 4) (fun s => s.stored 0 1 == [5, 6] &&
      !on s.hist && s.hist.length == 5 && s.pc 1 == .idle && stopping s.hist == none &&
      (s.tenant 1).chunk == none) = true := by
  decide +kernel

/-- The stop has not reached thread 2, which has found tracing on but not yet taken its lock: it stores
nothing. -/
example : check true id (registers 2 ['b'] ++ starts fixed1 ++ (2, .log 9) :: steps 2 1 ++
      [(0, .lock), (0, .stop false)] ++ steps 0 4) (fun s => !on s.hist && stopping s.hist == none &&
      (s.pc 2).entered == some 9) = true ∧
    check true id (registers 2 ['b'] ++ starts fixed1 ++ (2, .log 9) :: steps 2 1 ++
      [(0, .lock), (0, .stop false)] ++ steps 0 4 ++ steps 2 5) (fun s => s.pc 2 == .idle && s.stored 0 2 == [] &&
      s.contents 0 == []) = true := by
  decide +kernel

end Phosphor.TLog
