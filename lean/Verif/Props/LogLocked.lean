import Verif.Proof.LogLocked
/-
Property C86: trace points passed while the thread holds the lock of the log.
-/
namespace Phosphor.LogLocked
open TLog
variable {ε : Type} {tid : Nat → Nat} {s s' : St ε} {t : Nat} {c : Choice ε}

/-- C86: every state that threads reach when they may pass trace points under the lock can also be
reached when they may not, the code under the lock being that of a thread of its own. So
everything proved about reachable states of the log holds here. -/
theorem C86_same (h : Reachable tid s) : TLog.Reachable true (slot tid) s := h.log

/-- C86: while thread `t` holds the lock, nothing it does in `logEvent` turns tracing on or off,
replaces the buffer or the configuration, calls a stopped callback, or gives the lock away. -/
theorem C86_keeps (h : Reachable tid s) (ho : s.owner = some (holder t)) (hp : s.pc (own t) ≠ .idle)
    (hs : next tid s t c = .to s') :
    s'.enabled = s.enabled ∧ s'.buffer = s.buffer ∧ s'.config = s.config ∧ s'.hist = s.hist ∧
    s'.owner = some (holder t) ∧ s'.pc (holder t) = s.pc (holder t) := by
  rcases next_cases hs with rfl | ⟨h1, _⟩ | ⟨_, h1⟩
  · exact ⟨rfl, rfl, rfl, rfl, ho, rfl⟩
  · have := foreign h.log.ctl ho own_ne_holder h1
    exact ⟨this.2.2.1, this.2.1, this.2.2.2.2.2.1, this.2.2.2.1, by rw [this.1]; exact ho,
      next_pc h1 own_ne_holder.symm⟩
  · exact absurd h1 hp

/-- C86: with tracing off, a trace point passed under the lock does nothing. -/
theorem C86_off {st : List Frame} (hu : s.pc (holder t) = .held .user st) (hp : s.pc (own t) = .idle)
    (he : s.enabled = false) (e : ε) : run tid s [(t, .log e), (t, .step)] = .to s := by
  have hi : s.isIdle (own t) = true := isIdle_iff.2 hp
  have h1 : next tid s t (.log e) = .to (s.goto (own t) (.readEnabled e)) := by
    simp [next, hp, hu, St.next, hi]
  have h2 : next tid (s.goto (own t) (.readEnabled e)) t .step =
      .to ((s.goto (own t) (.readEnabled e)).goto (own t) .idle) := by
    refine step_own (goto_pc _ _ _) (by simp) (by simp) ?_
    simp only [St.logStep, goto_pc]
    rw [if_neg (by simp [St.goto, he])]
  simp only [run, h1, h2]
  rw [goto_goto, goto_same hp]

/-- C86, the part that holds: a step is undefined only if the thread holds the lock, is about to
`try_lock` it in `maybe_stop`, and the log's buffer is a fixed one all of whose chunks have been
handed out. Missing: that this never happens (`C86_refuted`). -/
theorem C86_safe_partial (h : Reachable tid s) (hs : next tid s t c = .ub) :
    s.owner = some (holder t) ∧ (∃ f g, s.pc (own t) = .tryMutex f g) ∧
    ∃ b, s.buffer = some b ∧ (s.heap b).mode ≠ .ring ∧ (s.heap b).chunks.length ≤ (s.heap b).counter := by
  obtain ⟨ho, f, g, hp⟩ := tries_iff.1 (ub_tries h hs)
  refine ⟨ho, ⟨f, g, hp⟩, ?_⟩
  obtain ⟨p, _, h2⟩ := h.j.spent t f ho (by rw [hp]; rfl)
  exact ⟨p, h2⟩

/-- C86: with a ring buffer in the log no step is undefined. -/
theorem C86_ring (h : Reachable tid s) (hm : ∀ b, s.buffer = some b → (s.heap b).mode = .ring) :
    next tid s t c ≠ .ub := by
  intro hs
  obtain ⟨_, _, b, h1, h2, _⟩ := C86_safe_partial h hs
  exact h2 (hm b h1)

/-- C86: a thread that does not hold the lock, or is not logging, does nothing undefined. -/
theorem C86_outside (h : Reachable tid s) (ho : s.owner ≠ some (holder t) ∨ s.pc (own t) = .idle) :
    next tid s t c ≠ .ub := by
  intro hs
  obtain ⟨h1, ⟨f, g, h2⟩, _⟩ := C86_safe_partial h hs
  rcases ho with ho | ho
  · exact ho h1
  · rw [ho] at h2; cases h2

/-- C86: and then it does happen: tracing into a fixed buffer all of whose chunks have been handed
out, a registered thread that holds the lock, without chunk or with a full one, that passes a trace
point and goes on alone tries the mutex it owns. -/
theorem C86_certain (h : Reachable tid s) {st : List Frame} (hu : s.pc (holder t) = .held .user st)
    (hp : s.pc (own t) = .idle) (he : s.enabled = true) (hr : isReg (own t) s.hist = true) {b : Nat}
    (hb : s.buffer = some b) (hm : (s.heap b).mode ≠ .ring)
    (hf : (s.heap b).chunks.length ≤ (s.heap b).counter)
    (hc : ∀ b i evs, (s.tenant (own t)).chunk = some (b, i) → (s.contents b)[i]? = some (own t, evs) →
      evs.length = chunkSize) (e : ε) :
    ∃ n, run tid s ((t, .log e) :: List.replicate n (t, .step)) = .ub := by
  have hl := h.log
  have hidle : s.isIdle (own t) = true := isIdle_iff.2 hp
  have ho : s.owner = some (holder t) := (hl.ctl.own _).2 (by rw [hu]; rfl)
  have hi : (s.tenant (own t)).initialised = true := by rw [hl.hist.reg]; exact hr
  have hlk : (s.tenant (own t)).lock = .unlocked := by
    cases hk : (s.tenant (own t)).lock with
    | unlocked => rfl
    | slaveLocked => have := (hl.ctl0.slave (own t)).1 hk; rw [hp] at this; cases this
    | masterLocked => have := master_off hl.hist hl.ctl0 hk; rw [he] at this; cases this
  have hx : Stuck s t b := ⟨he, ho, hb, hi, Inv.mapped hl.ctl hb, hm, hf⟩
  suffices hcrash : Crash tid t (s.goto (own t) (.readEnabled e)) by
    obtain ⟨n, h1⟩ := hcrash
    refine ⟨n, ?_⟩
    have h2 : next tid s t (.log e) = .to (s.goto (own t) (.readEnabled e)) := by
      simp [next, hp, hu, St.next, hidle]
    simp only [run, h2]
    exact h1
  refine .step (step_own (x := (s.goto (own t) (.readEnabled e)).goto (own t) (.tryLock e)) (goto_pc _ _ _)
    (by simp) (by simp) ?_) ?_
  · simp only [St.logStep, goto_pc]; rw [if_pos (by exact he)]
  rw [goto_goto]
  refine .step (step_own
    (x := ((s.goto (own t) (.tryLock e)).setLock (own t) .slaveLocked).goto (own t) (.checkInit e)) (goto_pc _ _ _)
    (by simp) (by simp) ?_) ?_
  · simp only [St.logStep, goto_pc]
    rw [show ((s.goto (own t) (Pc.tryLock e)).tenant (own t)).lock = .unlocked from hlk]
    rfl
  have hx1 := ((hx.goto (.tryLock e)).setLock .slaveLocked).goto (.checkInit e)
  have hch : ((((s.goto (own t) (.tryLock e)).setLock (own t) .slaveLocked).goto (own t) (.checkInit e)).tenant
    (own t)).chunk = (s.tenant (own t)).chunk := by simp [St.goto, St.setLock]
  have hhp : (((s.goto (own t) (.tryLock e)).setLock (own t) .slaveLocked).goto (own t) (.checkInit e)).heap =
    s.heap := rfl
  generalize hq : ((s.goto (own t) (.tryLock e)).setLock (own t) .slaveLocked).goto (own t) (.checkInit e) = x at *
  have hpx : x.pc (own t) = .checkInit e := by rw [← hq, goto_pc]
  refine .step (step_own (x := x.goto (own t) (.checkChunk e)) hpx (by simp) (by simp)
    (by simp [St.logStep, hpx, hx1.init])) ?_
  have hx2 := hx1.goto (.checkChunk e)
  have hch2 : ((x.goto (own t) (.checkChunk e)).tenant (own t)).chunk = (s.tenant (own t)).chunk := hch
  have hhp2 : (x.goto (own t) (.checkChunk e)).heap = s.heap := hhp
  generalize hq : x.goto (own t) (.checkChunk e) = y at *
  have hpy : y.pc (own t) = .checkChunk e := by rw [← hq, goto_pc]
  have hbuf : ∀ b' i, (s.tenant (own t)).chunk = some (b', i) → b' = b := by
    intro b' i hc'
    have := hl.ctl.chunkBuf (own t) b' i hc'
    rw [hb] at this; cases this; rfl
  refine .step (step_own (x := y.goto (own t) (.recheck e)) hpy (by simp) (by simp) ?_) ?_
  · simp only [St.logStep, hpy, hch2]
    cases hc' : (s.tenant (own t)).chunk with
    | none => rfl
    | some p =>
      obtain ⟨b', i⟩ := p
      have := hbuf b' i hc'
      subst this
      obtain ⟨c, evs, h1, h2, h3⟩ := hl.data.chunkAt hc'
      have hfull : c.isFull = true := by
        rw [Chunk.isFull_iff c evs h3]; exact hc _ _ _ hc' h2
      simp only [hx2.mapped, if_true, hhp2, h1, hfull]
  · exact (hx2.goto _).recheck (goto_pc _ _ _) (fun b' i hc' => hbuf b' i (by rw [← hch2]; exact hc'))

/-! ### Concrete executions -/

theorem run_reachable {l : List (Nat × Choice ε)} (h : Reachable tid s) (hr : run tid s l = .to s') :
    Reachable tid s' := by
  induction l generalizing s with
  | nil => cases hr; exact h
  | cons p l ih =>
    obtain ⟨t, c⟩ := p
    simp only [run] at hr
    split at hr
    · exact ih (.step h (by assumption)) hr
    · cases hr
    · cases hr

/-- The execution `l` is possible and ends in a state satisfying `p`. -/
def holds (l : List (Nat × Choice Nat)) (p : St Nat → Bool) : Bool :=
  match run id St.init l with
  | .to s => p s
  | _ => false

theorem holds_sound {l : List (Nat × Choice Nat)} {p : St Nat → Bool} (h : holds l p = true) :
    ∃ s, Reachable id s ∧ p s = true := by
  unfold holds at h
  split at h
  · exact ⟨_, run_reachable .init (by assumption), h⟩
  · cases h

/-- Thread 1 registers and takes the only chunk for an event; thread 2 registers, takes the lock. -/
def lockedFull : List (Nat × Choice Nat) :=
  registers 1 ['a'] ++ registers 2 ['b'] ++ starts fixed1 ++ (1, .log 5) :: steps 1 11 ++ [(2, .lock)]

/-- C86 is violated, as in the library's test `nonBlockingStop`: thread 2 passes a trace point
while it holds the lock, and the buffer has no chunk for it. -/
theorem C86_refuted : ∃ s : St Nat, Reachable id s ∧
    (match next id s 2 .step with | .ub => true | _ => false) = true :=
  holds_sound (l := lockedFull ++ (2, .log 6) :: steps 2 11)
    (p := fun s => match next id s 2 .step with | .ub => true | _ => false) (by decide +kernel)

/-- Under the lock, with chunks left: the event is stored, the lock is kept, tracing goes on and
can be stopped by the same thread afterwards. -/
example : ∃ s : St Nat, Reachable id s ∧ (s.enabled == false && s.contents 0 == [(2, [7])] && s.owner == some 3 &&
    s.hist == [.call (.user 1), .stop false none, .run 0 fixed1, .configure fixed1, .regOk 2 ['a']]) = true :=
  holds_sound (l := registers 1 ['a'] ++ starts fixed1 ++ (1, .lock) :: (1, .log 7) :: steps 1 11 ++
    (1, .stop false) :: steps 1 4) (by decide +kernel)

/-- A trace point in the stopped callback is passed without effect. -/
example : ∃ s : St Nat, Reachable id s ∧ (s.enabled == false && s.contents 0 == [(2, [7])] && s.owner == some 3 &&
    s.hist == [.call (.user 1), .stop false none, .run 0 fixed1, .configure fixed1, .regOk 2 ['a']]) = true :=
  holds_sound (l := registers 1 ['a'] ++ starts fixed1 ++ (1, .lock) :: (1, .log 7) :: steps 1 11 ++
    (1, .stop false) :: steps 1 4 ++ [(1, .log 8), (1, .step)]) (by decide +kernel)

/-- The hypotheses of `C86_certain` are met by thread 2. -/
example : ∃ s : St Nat, Reachable id s ∧ (s.enabled && s.isIdle (own 2) && isReg (own 2) s.hist &&
    s.buffer == some 0 && decide ((s.heap 0).mode ≠ .ring) && decide ((s.heap 0).chunks.length ≤ (s.heap 0).counter) &&
    (s.tenant (own 2)).chunk == none &&
    (match s.pc (holder 2) with | .held .user _ => true | _ => false)) = true :=
  holds_sound (l := lockedFull) (by decide +kernel)

end Phosphor.LogLocked
