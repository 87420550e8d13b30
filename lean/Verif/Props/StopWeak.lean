import Verif.Props.TraceLogWeak
/-
C104: the end of a stop, under the memory orders of the source. C103 says the same over a memory
that is sequentially consistent; here every step is one access to a release/acquire memory, so a
thread may still read an old `enabled` long after it was cleared.

What is said about `enabled` is said about its modification order: it is off if the newest of the
values ever stored to it is `false`, whatever the threads can still read.
-/
namespace Phosphor.TLog.W
open Phosphor.Weak

/-- The newest value of `enabled` is `false`. Code: trace_log.h:330, trace_log.cc:86. -/
def St.off (w : St) : Prop :=
  ∃ ts m, w.mem.hist .en ts = some m ∧ m.val = 0 ∧
    ∀ ts' m', w.mem.hist .en ts' = some m' → ts' ≤ ts

/-- An execution from `w` to `w'` in which tracing is not started. Code: trace_log.cc:37-317. -/
inductive Off : St → St → Prop
  | refl {w} : Off w w
  | step {w w' w''} : Off w w' → Step true w' w'' → w''.off → Off w w''

theorem Inv.off {w : St} {g : Ghost} (h : Inv w g) (ho : w.off) : g.on = false := by
  obtain ⟨ts, m, h1, h2, h3⟩ := ho
  obtain ⟨v, h4, -⟩ := h.enTop
  have e : ts = g.top := Nat.le_antisymm (h.enMax _ _ h1) (h3 _ _ h4)
  subst e
  rw [h4] at h1
  cases hon : g.on with
  | false => rfl
  | true =>
    rw [hon] at h1
    injection h1 with h1
    rw [← h1] at h2
    simp at h2

theorem Inv.isOff {w : St} {g : Ghost} (h : Inv w g) (ho : g.on = false) : w.off := by
  obtain ⟨v, h4, -⟩ := h.enTop
  exact ⟨_, _, h4, by rw [ho]; rfl, h.enMax⟩

theorem not_live {w : St} {g : Ghost} (ho : g.on = false) (hp : ∀ u, w.pend u = false) (t : Nat) :
    ¬ live w g t := by
  rintro ⟨-, h | h⟩
  · rw [ho] at h; cases h
  · rw [hp t] at h; cases h

/-- C104: once tracing is off and every thread has been evicted no thread has a chunk, and none is
about to reset one, store an event, return a chunk or read the pointer to the buffer. -/
theorem C104_none {w : St} (h : Reachable true w) (ho : w.off) (hp : ∀ u, w.pend u = false) (t : Nat) :
    w.tc t = none ∧ w.pc t ≠ .write ∧ w.pc t ≠ .readBuf ∧ (∀ b, w.pc t ≠ .getChunk b) ∧
      ∀ c, w.pc t ≠ .reset c ∧ w.pc t ≠ .setChunk c ∧ w.pc t ≠ .giveBack c := by
  obtain ⟨g, hg⟩ := inv_reachable h
  have hn := not_live (hg.off ho) hp
  refine ⟨?_, fun e => ?_, fun e => ?_, fun b e => ?_, fun c => ⟨fun e => ?_, fun e => ?_, fun e => ?_⟩⟩
  · cases hc : w.tc t with
    | none => rfl
    | some c => exact absurd (hg.tcs t c hc).1 (hn t)
  · exact hn t (hg.here e).1.2.1
  · exact hn t (hg.here e).1.2.1
  · exact hn t (hg.here e).1.2.1
  · exact hn t (hg.here e).1.2.1
  · exact hn t (hg.here e).1.2.1
  · exact hn t (hg.here e).1.2.1

/-- C104: when the mutex is free and tracing is off every thread has been evicted. -/
theorem C104_free {w : St} (h : Reachable true w) (hm : w.mutex = none) (u : Nat) : w.pend u = false := by
  obtain ⟨g, hg⟩ := inv_reachable h
  exact hg.mfree hm u

/-- C104: in the code that `stop` runs when the eviction is over, the stopped callback first of all
(line 92), and in every later call made under the mutex while tracing is off, the thread knows every
event stored in the buffer and every other access to it. -/
theorem C104_known {w : St} (h : Reachable true w) (ho : w.off) {t d : Nat} (hq : w.pc t = .crit d)
    {b : Nat} (hb : w.buf = some b) {k : Plain} (hk : k = .obj b ∨ ∃ i, k = .cell b i) (u : Nat) :
    w.mem.wr k u ≤ (w.mem.view t).clk u ∧ w.mem.rd k u ≤ (w.mem.view t).clk u := by
  obtain ⟨g, hg⟩ := inv_reachable h
  have hM : M w t := (hg.here hq).1
  have hp : part b k = true := by rcases hk with rfl | ⟨i, rfl⟩ <;> simp [part]
  have h1 := ((hg.cur k (.inr ⟨b, hb, hp⟩) u).2 (not_live (hg.off ho) hM.2 u))
  rw [mv_some hM.1] at h1
  exact ⟨Nat.le_trans (wr_le_acc _ _ _) h1, Nat.le_trans (Nat.le_max_left _ _) h1⟩

/-- C104: the stopped callback is called with tracing off and every thread evicted. -/
theorem C104_callback {w : St} (h : Reachable true w) {t d : Nat} {k : Bool} (hq : w.pc t = .evict k d)
    (hp : ∀ u, w.pend u = false) :
    Step true w (w.goto t (.crit (if k then d + 1 else d)) (w.mem.read t .cfg)) ∧
      (w.goto t (.crit (if k then d + 1 else d)) (w.mem.read t .cfg)).off := by
  obtain ⟨g, hg⟩ := inv_reachable h
  exact ⟨.evDone hq hp, hg.isOff (hg.here hq).2.1⟩

theorem write_other {μ : Mem Loc Nat Plain} {t : Nat} {k d : Plain} {b : Nat} (hk : part b k = true)
    (hd : part b d = false) (u : Nat) : (μ.write t d).wr k u = μ.wr k u :=
  write_wr _ _ _ _ _ (.inl fun e => by rw [e, hd] at hk; cases hk)

/-- While tracing is off the threads still to be evicted become no more. -/
theorem off_pend {w w' : St} {g : Ghost} (hg : Inv w g) (ho : g.on = false)
    (hp : ∀ u, w.pend u = false) (hs : Step true w w') (u : Nat) : w'.pend u = false := by
  cases hs with
  | exchangeOn hq hr hf hm =>
    exfalso
    have hM : M w _ := (hg.here hq).1
    have h1 := hg.enKnow
    rw [mv_some hM.1] at h1
    obtain ⟨v, h2, -⟩ := hg.enTop
    have e := Nat.le_antisymm (hg.enMax _ _ hr.1) (Nat.le_trans h1 hr.2)
    have h3 := hr.1
    rw [e, h2] at h3
    injection h3 with this
    rw [← this, ho] at hm
    exact hm rfl
  | @evUnlock _ _ _ x =>
    show setf w.pend x false u = false
    by_cases e : u = x
    · subst e; exact setf_self _ _ _
    · rw [setf_ne _ _ e]; exact hp u
  | _ => exact hp u

/-- While tracing is off and every thread has been evicted, a step writes in a buffer that has been
made only to destroy it. -/
theorem off_wr {w w' : St} {g : Ghost} (hg : Inv w g) (ho : g.on = false)
    (hp : ∀ u, w.pend u = false) (hs : Step true w w') {b : Nat} (hb : b < w.cnt) {k : Plain}
    (hk : part b k = true) (u : Nat) : w'.mem.wr k u = w.mem.wr k u ∨ w'.freed b = true := by
  have hn := not_live ho hp
  have hbuf : part b .buf = false := rfl
  have hcfg : part b .cfg = false := rfl
  have htc : ∀ x, part b (.tc x) = false := fun _ => rfl
  cases hs with
  | reset hq => exact absurd (hg.here hq).1.2.1 (hn _)
  | write hq => exact absurd (hg.here hq).1.2.1 (hn _)
  | newBuf ring size hq =>
    by_cases e : w.buf = some b
    · right; show (w.freed b || w.buf == some b) = true; rw [e]; simp
    · left
      have h1 : k ≠ .buf := fun e => by rw [e] at hk; cases hk
      have h2 : ∀ c, c ≠ b → part c k = false := by
        intro c hc
        cases k with
        | obj c' => simp only [part, beq_iff_eq] at hk; subst hk; simpa [part] using fun e => hc e.symm
        | cell c' i => simp only [part, beq_iff_eq] at hk; subst hk; simpa [part] using fun e => hc e.symm
        | _ => rfl
      show (if _ then _ else _ : Clock) u = _
      rw [if_neg]
      show ¬ (k == .buf || part w.cnt k || w.buf.any fun h => part h k) = true
      rw [h2 _ (Nat.ne_of_gt hb)]
      cases hc : w.buf with
      | none => simp [h1]
      | some c =>
        have : c ≠ b := fun e' => e (by rw [hc, e'])
        simp [h1, h2 c this]
  | @ownFree t c =>
    by_cases e : c = b
    · subst e; right; exact setf_self _ _ _
    · left
      have h2 : part c k = false := by
        cases k with
        | obj c' => simp only [part, beq_iff_eq] at hk; subst hk; simpa [part] using fun e' => e e'.symm
        | cell c' i => simp only [part, beq_iff_eq] at hk; subst hk; simpa [part] using fun e' => e e'.symm
        | _ => rfl
      show (if _ then _ else _ : Clock) u = _
      rw [h2]; rfl
  | clear => exact .inl (write_other hk (htc _) u)
  | setChunk => exact .inl (write_other hk (htc _) u)
  | evClear => exact .inl (write_other hk (htc _) u)
  | dClear => exact .inl (write_other hk (htc _) u)
  | cfg => exact .inl (write_other hk hcfg u)
  | start => exact .inl (write_other hk hcfg u)
  | turnOn => exact .inl (write_other hk hcfg u)
  | register => exact .inl (write_other hk hcfg u)
  | dErase => exact .inl (write_other hk hcfg u)
  | take => exact .inl (write_other hk hbuf u)
  | _ => exact .inl rfl

/-- Buffers stay made and stay destroyed. -/
theorem step_buffers {pol : Bool} {w w' : St} (hs : Step pol w w') (b : Nat) :
    w.cnt ≤ w'.cnt ∧ (w.freed b = true → w'.freed b = true) := by
  cases hs with
  | newBuf =>
    exact ⟨Nat.le_succ _, fun h => by show (w.freed b || _) = true; rw [h]; rfl⟩
  | @ownFree t c =>
    refine ⟨Nat.le_refl _, fun h => ?_⟩
    show setf w.freed c true b = true
    by_cases e : b = c
    · subst e; exact setf_self _ _ _
    · rw [setf_ne _ _ e]; exact h
  | _ => exact ⟨Nat.le_refl _, fun h => h⟩

/-- C104: once tracing is off and every thread has been evicted, no thread writes to a buffer until
tracing is started again or the buffer is destroyed. In particular no event is stored in it. -/
theorem C104_quiet {w w' : St} (h : Reachable true w) (ho : w.off) (hp : ∀ u, w.pend u = false)
    (hr : Off w w') {b : Nat} (hb : b < w.cnt) (hf : w'.freed b = false) {k : Plain}
    (hk : k = .obj b ∨ ∃ i, k = .cell b i) (u : Nat) : w'.mem.wr k u = w.mem.wr k u := by
  have hk' : part b k = true := by rcases hk with rfl | ⟨i, rfl⟩ <;> simp [part]
  have key : Reachable true w' ∧ w'.off ∧ (∀ u, w'.pend u = false) ∧ b < w'.cnt ∧
      (w'.freed b = false → w'.mem.wr k u = w.mem.wr k u) := by
    clear hf
    induction hr with
    | refl => exact ⟨h, ho, hp, hb, fun _ => rfl⟩
    | step _ hs hon ih =>
      obtain ⟨i1, i2, i3, i4, i5⟩ := ih
      obtain ⟨g, hg⟩ := inv_reachable i1
      have hs' := step_buffers hs b
      refine ⟨i1.step hs, hon, off_pend hg (hg.off i2) i3 hs, Nat.lt_of_lt_of_le i4 hs'.1, fun hf => ?_⟩
      rcases off_wr hg (hg.off i2) i3 hs i4 hk' u with e | e
      · rw [e]
        refine i5 (Bool.eq_false_iff.2 fun hb' => ?_)
        rw [hs'.2 hb'] at hf; cases hf
      · rw [e] at hf; cases hf
  exact key.2.2.2.2 hf

/-- C104: tracing comes on again only by a `start` (line 121). -/
theorem C104_on {w w' : St} (h : Reachable true w) (ho : w.off) (hs : Step true w w') (hn : ¬ w'.off) :
    ∃ t d, w.pc t = .turnOn d ∧ w.mutex = some t := by
  obtain ⟨g, hg⟩ := inv_reachable h
  have key : w'.mem.hist .en = w.mem.hist .en → False := by
    intro e; apply hn; unfold St.off; rw [e]; exact ho
  cases hs with
  | turnOn hq => exact ⟨_, _, hq, (hg.here hq).1.1⟩
  | @exchangeOff t k d ts m hq hr hf hm =>
    exfalso
    have hM : M w t := (hg.here hq).1
    have h1 := hg.enKnow
    rw [mv_some hM.1] at h1
    have e := Nat.le_antisymm (hg.enMax _ _ hr.1) (Nat.le_trans h1 hr.2)
    subst e
    refine hn ⟨g.top + 1, _, if_pos ⟨rfl, rfl⟩, rfl, fun ts' m' h' => ?_⟩
    by_cases e : ts' = g.top + 1
    · omega
    · have h' : (if Loc.en = Loc.en ∧ ts' = g.top + 1 then _ else w.mem.hist .en ts') = some m' := h'
      rw [if_neg (fun x => e x.2)] at h'
      have := hg.enMax _ _ h'
      omega
  | @exchangeOn t k d ts m hq hr hf hm =>
    exfalso
    have hM : M w t := (hg.here hq).1
    have h1 := hg.enKnow
    rw [mv_some hM.1] at h1
    have e := Nat.le_antisymm (hg.enMax _ _ hr.1) (Nat.le_trans h1 hr.2)
    subst e
    refine hn ⟨g.top + 1, _, if_pos ⟨rfl, rfl⟩, rfl, fun ts' m' h' => ?_⟩
    by_cases e : ts' = g.top + 1
    · omega
    · have h' : (if Loc.en = Loc.en ∧ ts' = g.top + 1 then _ else w.mem.hist .en ts') = some m' := h'
      rw [if_neg (fun x => e x.2)] at h'
      have := hg.enMax _ _ h'
      omega
  | @extStore t n ts v =>
    refine (key ?_).elim
    funext i
    simp [Mem.storeRel, Mem.add]
  | _ => exact (key rfl).elim

/-- A stop ends, the mutex is released, and thread 1 still reads that tracing is on. -/
theorem exGoOn {w : St} (r : Reachable true w) (h1 : w.pc 0 = .evict false 0)
    (hp : ∀ u, w.pend u = false) (hb : w.buf = some 0) (hc : 0 < w.cnt)
    (hw : 0 < w.mem.wr (.cell 0 0) 1) (hq : w.pc 1 = .idle) {ts : Nat} {m : Msg Loc Nat}
    (hr : w.mem.readable 1 .en ts m) (hm : m.val ≠ 0) :
    ∃ w : St, Reachable true w ∧ w.off ∧ (∀ u, w.pend u = false) ∧ w.mutex = none ∧
      w.buf = some 0 ∧ 0 < w.cnt ∧ 0 < w.mem.wr (.cell 0 0) 1 ∧ w.pc 1 = .tryLock := by
  have ho := (C104_callback r h1 hp).2
  have r1 := r.step (.evDone h1 hp)
  have r2 := r1.step (.unlockM (t := 0) (by simp [St.goto, setf]))
  have e : setf (setf w.pc 0 (.crit (if false then 0 + 1 else 0))) 0 .idle 1 = .idle := by
    rw [setf_ne _ _ (by decide), setf_ne _ _ (by decide)]; exact hq
  have e2 : (w.mem.read 0 .cfg).readable 1 .en ts m := by
    refine ⟨hr.1, ?_⟩
    have h2 : (w.mem.read 0 .cfg).view 1 = w.mem.view 1 := by simp [Mem.read, setf]
    rw [h2]; exact hr.2
  have r3 := r2.step (.logOn (t := 1) (ts := ts) (m := m) e e2 hm)
  exact ⟨_, r3, ho, hp, rfl, hb, hc, hw, by simp [St.goto, setf]⟩

/-- The hypotheses of C104 are met by something: thread 0 starts tracing, thread 1 registers and
logs an event, thread 0 stops tracing. Thread 1, that has not been told, still reads that tracing is
on and goes to log another event. -/
theorem exStopped : ∃ w : St, Reachable true w ∧ w.off ∧ (∀ u, w.pend u = false) ∧ w.mutex = none ∧
    w.buf = some 0 ∧ 0 < w.cnt ∧ 0 < w.mem.wr (.cell 0 0) 1 ∧ w.pc 1 = .tryLock := by
  have r := Reachable.init (pol := true)
  have r := r.step (.lockM (t := 0) rfl rfl)
  have r := r.step (.start (t := 0) rfl (fun _ => rfl))
  have r := r.step (.startOff (t := 0) (ts := 0) rfl ⟨rfl, by decide⟩ rfl)
  have r := r.step (.newBuf (t := 0) true 4 rfl)
  have r := r.step (.turnOn (t := 0) (ts := 1) rfl ⟨rfl, by decide⟩)
  have r := r.step (.unlockM (t := 0) rfl)
  have r := r.step (.lockM (t := 1) rfl rfl)
  have r := r.step (.register (t := 1) rfl rfl)
  have r := r.step (.unlockM (t := 1) rfl)
  have r := r.step (.logOn (t := 1) (ts := 1) rfl ⟨rfl, by decide⟩ (by decide))
  have r := r.step (.tryOk (t := 1) rfl rfl)
  have r := r.step (.noChunk (t := 1) rfl rfl rfl)
  have r := r.step (.checkOn (t := 1) (ts := 1) rfl ⟨rfl, by decide⟩ (by decide))
  have r := r.step (.replaceNone (t := 1) rfl rfl)
  have r := r.step (.againOn (t := 1) (ts := 1) rfl ⟨rfl, by decide⟩ (by decide))
  have r := r.step (.bufSome (t := 1) rfl rfl)
  have r := r.step (.fresh (t := 1) rfl (by decide))
  have r := r.step (.reset (t := 1) rfl)
  have r := r.step (.setChunk (t := 1) rfl)
  have r := r.step (.write (t := 1) (c := (0, 0)) rfl rfl)
  have r := r.step (.unlock (t := 1) rfl)
  have r := r.step (.lockM (t := 0) rfl rfl)
  have r := r.step (.stop (t := 0) rfl)
  have r := r.step (.exchangeOn (t := 0) (ts := 1) rfl ⟨rfl, by decide⟩ rfl (by decide))
  have r := r.step (.evLock (t := 0) (u := 1) rfl rfl rfl)
  have r := r.step (.evClear (t := 0) rfl)
  have r := r.step (.evUnlock (t := 0) rfl)
  exact exGoOn r rfl (fun u => by
    by_cases e : u = 1
    · subst e; rfl
    · simp [St.goto, setf, e, St.init]) rfl (by decide) (by decide) rfl (ts := 1) ⟨rfl, by decide⟩ (by decide)

/-- And the thread then takes its chunk lock, finds no chunk and that tracing is off. -/
example : ∃ w w' : St, Reachable true w ∧ w.off ∧ (∀ u, w.pend u = false) ∧ Off w w' ∧
    w'.pc 1 = .locked ∧ w'.mem.wr (.cell 0 0) 1 = w.mem.wr (.cell 0 0) 1 := by
  obtain ⟨w, h, ho, hp, hm, hb, hc, hw, hq⟩ := exStopped
  obtain ⟨g, hg⟩ := inv_reachable h
  have hl : w.lk 1 = none := by
    cases e : w.lk 1 with
    | none => rfl
    | some s =>
      rcases hg.lkpc 1 s e with ⟨e1, e2⟩ | ⟨k, d, e1 | e1⟩
      · rw [hq] at e2; cases e2
      · have := (hg.here e1).1; rw [hm] at this; cases this
      · have := (hg.here e1).1; rw [hm] at this; cases this
  exact ⟨w, _, h, ho, hp, .step .refl (.tryOk hq hl) ho, by simp [St.goto, setf], rfl⟩

end Phosphor.TLog.W
